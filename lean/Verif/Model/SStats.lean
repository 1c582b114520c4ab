import Verif.Model.MetaRecord
/-
Session statistics: `src/rdiffbackup/singletons/sstats.py`, and the places that call it
(`src/rdiffbackup/locations/_repo_shadow.py` 2425-2451, `increment.py` 153, `robust.py` 114).
-/
namespace Verif.SStats
open Verif.Quoting Verif.MetaRecord Verif.FlatFile

/-! ### Counting (sstats.py 335-415) -/

/-- A rorp as far as the statistics look at it: `lstat()`, `isreg()` and `getsize()`. -/
structure File where
  there : Bool := true
  reg : Bool
  size : Nat
  deriving DecidableEq

/-- sstats.py 74-118: the thirteen file attributes and `Errors` of a `SessionStatsTracker` -/
structure Totals where
  sourceFiles : Nat := 0
  sourceFileSize : Nat := 0
  mirrorFiles : Nat := 0
  mirrorFileSize : Nat := 0
  newFiles : Nat := 0
  newFileSize : Nat := 0
  deletedFiles : Nat := 0
  deletedFileSize : Nat := 0
  changedFiles : Nat := 0
  changedSourceSize : Nat := 0
  changedMirrorSize : Nat := 0
  incrementFiles : Nat := 0
  incrementFileSize : Nat := 0
  errors : Nat := 0
  deriving DecidableEq

/-- sstats.py 351-355 -/
def addSourceFile (t : Totals) (f : File) : Totals :=
  let t := { t with sourceFiles := t.sourceFiles + 1 }
  if f.reg then { t with sourceFileSize := t.sourceFileSize + f.size } else t

/-- sstats.py 357-361 -/
def addDestFile (t : Totals) (f : File) : Totals :=
  let t := { t with mirrorFiles := t.mirrorFiles + 1 }
  if f.reg then { t with mirrorFileSize := t.mirrorFileSize + f.size } else t

/-- `rorp and rorp.lstat()` -/
def present : Option File → Option File
  | some f => if f.there then some f else none
  | none => none

/-- sstats.py 363-378 -/
def addChanged (t : Totals) (src dst : Option File) : Totals :=
  match present src, present dst with
  | some s, some d =>
    let t := { t with changedFiles := t.changedFiles + 1 }
    let t := if s.reg then { t with changedSourceSize := t.changedSourceSize + s.size } else t
    if d.reg then { t with changedMirrorSize := t.changedMirrorSize + d.size } else t
  | some s, none =>
    let t := { t with newFiles := t.newFiles + 1 }
    if s.reg then { t with newFileSize := t.newFileSize + s.size } else t
  | none, some d =>
    let t := { t with deletedFiles := t.deletedFiles + 1 }
    if d.reg then { t with deletedFileSize := t.deletedFileSize + d.size } else t
  | none, none => t

/-- sstats.py 380-384 -/
def addIncrement (t : Totals) (f : File) : Totals :=
  let t := { t with incrementFiles := t.incrementFiles + 1 }
  if f.reg then { t with incrementFileSize := t.incrementFileSize + f.size } else t

/-- The success flag of a pair (RS 2213-2218). -/
inductive Flag where
  | none     -- 0: nothing done, or failed
  | updated  -- 1
  | deleted  -- 2
  deriving DecidableEq

/-- A pair leaving the cache: the arguments of `_post_process`. -/
structure Pair where
  src : Option File
  dst : Option File
  changed : Bool
  success : Flag
  deriving DecidableEq

/-- RS 2425-2447: the part of `_post_process` that does statistics -/
def postProcess (t : Totals) (p : Pair) : Totals :=
  let t :=
    if !p.changed || p.success ≠ .none then
      let t := match p.src with
        | some f => addSourceFile t f
        | none => t
      match p.dst with
      | some f => addDestFile t f
      | none => t
    else t
  if p.success ≠ .none then addChanged t p.src p.dst else t

/-- What happens to the statistics during a session, in any order. -/
inductive Event where
  | pair (p : Pair)
  | increment (f : File)
  | error
  deriving DecidableEq

/-- one event changes the counters: RS 2422-2452 `_post_process`, sstats.py 376-392 -/
def step (t : Totals) : Event → Totals
  | .pair p => postProcess t p
  | .increment f => addIncrement t f
  | .error => { t with errors := t.errors + 1 }

/-- sstats.py 337-349: a fresh tracker has zeros; then all events of the session -/
def session (evs : List Event) : Totals := evs.foldl step {}

/-! ### The statistics file (sstats.py 74-330)

Numbers are counted in hundredths, as the times are written with two decimals. -/

/-- sstats.py 74-134: the names of the statistics -/
inductive Attr where
  | StartTime | EndTime | ElapsedTime | Errors | TotalDestinationSizeChange
  | SourceFiles | SourceFileSize | MirrorFiles | MirrorFileSize | NewFiles | NewFileSize
  | DeletedFiles | DeletedFileSize | ChangedFiles | ChangedSourceSize | ChangedMirrorSize
  | IncrementFiles | IncrementFileSize
  deriving DecidableEq

open Attr

/-- sstats.py 99-118 -/
def Attr.name : Attr → Bytes
  | StartTime => lit "StartTime"
  | EndTime => lit "EndTime"
  | ElapsedTime => lit "ElapsedTime"
  | Errors => lit "Errors"
  | TotalDestinationSizeChange => lit "TotalDestinationSizeChange"
  | SourceFiles => lit "SourceFiles"
  | SourceFileSize => lit "SourceFileSize"
  | MirrorFiles => lit "MirrorFiles"
  | MirrorFileSize => lit "MirrorFileSize"
  | NewFiles => lit "NewFiles"
  | NewFileSize => lit "NewFileSize"
  | DeletedFiles => lit "DeletedFiles"
  | DeletedFileSize => lit "DeletedFileSize"
  | ChangedFiles => lit "ChangedFiles"
  | ChangedSourceSize => lit "ChangedSourceSize"
  | ChangedMirrorSize => lit "ChangedMirrorSize"
  | IncrementFiles => lit "IncrementFiles"
  | IncrementFileSize => lit "IncrementFileSize"

/-- sstats.py 99-114, in the order of the file -/
def fileAttrs : List Attr :=
  [SourceFiles, SourceFileSize, MirrorFiles, MirrorFileSize, NewFiles, NewFileSize, DeletedFiles, DeletedFileSize,
    ChangedFiles, ChangedSourceSize, ChangedMirrorSize, IncrementFiles, IncrementFileSize]

/-- sstats.py 120-135: is the value a number of bytes? -/
def inBytes : Attr → Bool
  | SourceFileSize | MirrorFileSize | NewFileSize | DeletedFileSize | ChangedSourceSize | ChangedMirrorSize
  | IncrementFileSize => true
  | _ => false

/-- sstats.py 118 `_stat_attrs` -/
def allAttrs : List Attr := [StartTime, EndTime, ElapsedTime, Errors, TotalDestinationSizeChange] ++ fileAttrs

/-- A `SessionStatsCalc` object: the attributes that are not None, in hundredths. -/
abbrev Obj := Attr → Option Int

/-- `setattr` -/
def Obj.set (s : Obj) (a : Attr) (v : Option Int) : Obj := fun b => if b = a then v else s b

/-- sstats.py 197-216 `_get_total_dest_size_change` -/
def totalDestSizeChange (s : Obj) : Option Int :=
  match s NewFileSize, s ChangedSourceSize, s IncrementFileSize, s DeletedFileSize, s ChangedMirrorSize with
  | some a, some b, some c, some d, some e => some ((a + b + c) - (d + e))
  | _, _, _, _, _ => none

/-- sstats.py 266-269: the elapsed time is computed unless it is known -/
def elapsed (s : Obj) : Option Int :=
  match s StartTime, s EndTime, s ElapsedTime with
  | some a, some b, none => some (b - a)
  | _, _, e => e

/-- `"%.2f" % x` -/
def fmtCent (x : Int) : Bytes :=
  (if x < 0 then [45] else []) ++ fmtNat (x.natAbs / 100) ++
    [46, UInt8.ofNat (48 + x.natAbs % 100 / 10), UInt8.ofNat (48 + x.natAbs % 10)]

/-- One line of the file; `pretty` is the explanation in parentheses. -/
def statLine (a : Attr) (value : Bytes) (pretty : Option Bytes) : Bytes :=
  a.name ++ 32 :: value ++ (match pretty with | some p => 32 :: 40 :: p ++ [41] | none => []) ++ [10]

variable (pretty : Attr → Int → Bytes)

/-- sstats.py 246-266 `_get_timestats_string`; `pretty` stands for `Time.timetopretty`, `Time.inttopretty` -/
def timeLine (a : Attr) : Option Int → Bytes
  | some x => statLine a (fmtCent x) (some (pretty a x))
  | none => []

/-- sstats.py 271-280 `fileline`; `pretty` stands for `convert.to_human_size_str`. The values are
whole numbers in every object that is written to a file. -/
def fileLine (s : Obj) (a : Attr) : Bytes :=
  match s a with
  | some x => statLine a (fmtInt (x / 100)) (if inBytes a then some (pretty a x) else none)
  | none => []

/-- sstats.py 300-304 -/
def totalLine : Option Int → Bytes
  | some x => statLine TotalDestinationSizeChange (fmtInt (x / 100)) (some (pretty TotalDestinationSizeChange x))
  | none => []

/-- sstats.py 305-307 -/
def errorsLine : Option Int → Bytes
  | some x => statLine Errors (fmtInt (x / 100)) none
  | none => []

/-- sstats.py 284-295 `_get_miscstats_string` -/
def miscString (s : Obj) : Bytes := totalLine pretty (totalDestSizeChange s) ++ errorsLine (s Errors)

/-- sstats.py 238-244 `_get_stats_string` -/
def statsString (s : Obj) : Bytes :=
  timeLine pretty StartTime (s StartTime) ++ timeLine pretty EndTime (s EndTime) ++ timeLine pretty ElapsedTime (elapsed s) ++
    fileAttrs.flatMap (fileLine pretty s) ++ miscString pretty s

/-- the bytes `str.split()` separates at -/
def isSpace (c : UInt8) : Bool := c = 32 ∨ (9 ≤ c.toNat ∧ c.toNat ≤ 13) ∨ (28 ≤ c.toNat ∧ c.toNat ≤ 31)

/-- `split()` before dropping empty words -/
def splitWs : Bytes → List Bytes
  | [] => [[]]
  | c :: r =>
    if isSpace c then [] :: splitWs r
    else
      match splitWs r with
      | [] => [[c]]
      | x :: xs => (c :: x) :: xs

/-- `line.split()` -/
def words (l : Bytes) : List Bytes := (splitWs l).filter (· ≠ [])

/-- The double nearest to a whole number (IEEE 754, ties to even). -/
def toDouble (n : Nat) : Nat :=
  if n < 2 ^ 53 then n else
  let e := n.log2 - 52
  let q := n / 2 ^ e
  let r := n % 2 ^ e
  if 2 * r < 2 ^ e ∨ (2 * r = 2 ^ e ∧ q % 2 = 0) then q * 2 ^ e else (q + 1) * 2 ^ e

/-- `float` on what follows the sign; only the forms that are written: digits, or digits with two decimals
(numbers with two decimals are taken to be what they say) -/
def parseAbs (s : Bytes) : Option Nat :=
  match splitOn 46 s with
  | [w] => (parseNat w).map fun n => 100 * toDouble n
  | [w, f] =>
    if f.length = 2 then
      match parseNat w, parseNat f with
      | some n, some m => some (100 * n + m)
      | _, _ => none
    else none
  | _ => none

/-- sstats.py 325-330 `float(value_string)` -/
def parseDec (s : Bytes) : Option Int :=
  match s with
  | 45 :: r => (parseAbs r).map fun n : Nat => -(n : Int)
  | r => (parseAbs r).map fun n : Nat => (n : Int)

/-- sstats.py 316-332: one line; `none` is a `StatsException` -/
def readLine (s : Obj) (l : Bytes) : Option Obj :=
  if l = [] then some s else
  match words l with
  | name :: value :: _ =>
    match allAttrs.find? (fun a => a.name = name) with
    | some a => (parseDec value).map fun v => s.set a (some v)
    | none => none
  | _ => none

/-- sstats.py 297-320 `_set_stats_from_string` -/
def readStats (text : Bytes) (s : Obj) : Option Obj := (splitLines text).foldlM readLine s

/-! ### Averages (sstats.py 155-180) -/

/-- sstats.py 159-167: one attribute of one object -/
def avgStep (acc v : Option Int) : Option Int :=
  match v with
  | none => none
  | some x => acc.map (x + ·)

/-- sstats.py 152-176 `calc_average`; without objects it divides by zero, the error is `none`. Values are
exact fractions here: numerator in hundredths and the number of objects. -/
def calcAverage (l : List Obj) : Option (Attr → Option (Int × Nat)) :=
  if l.length = 0 then none else
  some fun a =>
    if a = StartTime ∨ a = EndTime then none
    else (l.foldl (fun acc s => avgStep acc (s a)) (some 0)).map fun v => (v, l.length)

end Verif.SStats
