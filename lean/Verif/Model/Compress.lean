import Verif.Model.IncName
/-
Compression of increments: `src/rdiffbackup/locations/increment.py` 90-288, and reading them back:
`src/rdiffbackup/locations/_repo_shadow.py` 2908-3147, with the names of the files and their bytes.

Simplifications: one directory of files (whose names needn't be shortened, C80), no attributes; `Codec` stands for gzip, librsync and
Python's `re`; files that can't be read, and failures of special files, are left out.
-/
namespace Verif.Compress
open Verif.IncName

abbrev Bytes := List UInt8
abbrev Name := List Char

/-- gzip (`None` where Python's GzipFile raises an exception) and librsync: the difference `basis` → `new`, and the patched basis -/
structure Codec where
  gz : Bytes → Bytes
  gunzip : Bytes → Option Bytes
  delta : (basis new : Bytes) → Bytes
  patch : (basis delta : Bytes) → Option Bytes

/-- what is under a name: a regular file, or something else (symbolic link, device, …) -/
inductive Node
  | reg (b : Bytes)
  | other (x : Nat)
  deriving DecidableEq

/-- the settings of a session (increment.py 110-127 `init`): `--compression`, and what `--not-compressed-regexp` matches -/
structure Settings where
  compression : Bool
  notCompressed : Option (Name → Bool)

/-- increment.py 220-226 `_is_compressed` -/
def isCompressed (s : Settings) (mirror : Name) : Bool :=
  s.compression && (match s.notCompressed with | none => true | some r => !r mirror)

def Node.isReg : Node → Bool
  | .reg _ => true
  | .other _ => false

/-- rpath.py 1090-1119 `write_from_fileobj`, `open` for writing -/
def encode (C : Codec) (compress : Bool) (b : Bytes) : Bytes := if compress then C.gz b else b

/-- rpath.py 1090-1103 `open` for reading, and read all -/
def decode (C : Codec) (compressed : Bool) (b : Bytes) : Option Bytes := if compressed then C.gunzip b else some b

/-- rpath.py 1471-1534, 1635-1640 `copy_with_attribs`: only the data of regular files are compressed -/
def copy (C : Codec) (compress : Bool) : Node → Node
  | .reg b => .reg (encode C compress b)
  | .other x => .other x

/-- increment.py 229-254 `_make_snapshot_increment`: type, whether the name ends in .gz, what is written -/
def snapshotIncrement (C : Codec) (s : Settings) (n : Name) (mirror : Node) : IncType × Bool × Node :=
  (.snapshot, isCompressed s n && mirror.isReg, copy C (isCompressed s n) mirror)

/-- increment.py 257-284 `_make_diff_increment`; Rdiff.py 55-64 `write_delta`: from the new file to the mirror -/
def diffIncrement (C : Codec) (s : Settings) (n : Name) (new mirror : Bytes) : IncType × Bool × Node :=
  (.diff, isCompressed s n, .reg (encode C (isCompressed s n) (C.delta new mirror)))

/-- increment.py 130-154 `make_increment` (without directories) -/
def makeIncrement (C : Codec) (s : Settings) (n : Name) (new mirror : Option Node) : IncType × Bool × Node :=
  match mirror with
  | none => (.missing, false, .reg [])
  | some m =>
    match new, m with
    | some (.reg b), .reg a => diffIncrement C s n b a
    | _, m => snapshotIncrement C s n m

/-- a backup: when, the UTC offset (minutes) and style in which times are written, the settings, what is backed up -/
structure Session where
  time : Int
  compat : Bool
  off : Int
  settings : Settings
  files : Name → Option Node

/-- the repository: time of the last backup, mirror, increments (a directory: names, and what is there) -/
structure Repo where
  time : Int
  mirror : Name → Option Node
  incs : List (Name × Node)

/-- one file: if it has changed, the increment is made with the time of the last backup (increment.py 157-180 `get_increment` fails if the
name is used already), and the mirror becomes the new file (_repo_shadow.py 2745-2780) -/
def stepFile (C : Codec) (s : Session) (R : Repo) (n : Name) : Option Repo :=
  if R.mirror n = s.files n then some R
  else
    let i := makeIncrement C s.settings n (s.files n) (R.mirror n)
    let name := incName s.compat s.off n R.time i.1 i.2.1
    if name ∈ R.incs.map Prod.fst then none
    else some { R with mirror := fun m => if m = n then s.files n else R.mirror m, incs := R.incs ++ [(name, i.2.2)] }

def stepFiles (C : Codec) (s : Session) : List Name → Repo → Option Repo
  | [], R => some R
  | n :: r, R => (stepFile C s R n).bind (stepFiles C s r)

/-- a backup; `order`: the names in the order they are processed -/
def backup (C : Codec) (s : Session) (order : List Name) (R : Repo) : Option Repo :=
  (stepFiles C s order R).map fun R' => { R' with time := s.time }

/-- the first backup, then the others, the last one first -/
def history (C : Codec) (first : Session) : List (Session × List Name) → Option Repo
  | [] => some ⟨first.time, first.files, []⟩
  | (s, order) :: r => (history C first r).bind (backup C s order)

/-- an increment as it is found: _repo_shadow.py 3090-3101 `add_to_dict`, 3075-3122: the increments of a file `n`, among all names -/
def incsOf (dir : List (Name × Node)) (n : Name) : List (IncInfo × Node) :=
  dir.filterMap fun x =>
    match parseIncName x.1 with
    | some i => if i.type ≠ .data ∧ i.base = n then some (i, x.2) else none
    | none => none

def insertInc (x : IncInfo × Node) : List (IncInfo × Node) → List (IncInfo × Node)
  | [] => [x]
  | y :: l => if x.1.time ≤ y.1.time then x :: y :: l else y :: insertInc x l

/-- _repo_shadow.py 2965-2980 `get_newer_incs` -/
def newerIncs (t : Int) (l : List (IncInfo × Node)) : List (IncInfo × Node) :=
  (l.filter fun x => t ≤ x.1.time).foldr insertInc []

/-- _repo_shadow.py 2952-2963: up to and with the first that isn't a difference; the mirror (a `snapshot`, not compressed, 2947-2948) if there
is none -/
def upTo (mirror : IncInfo × Option Node) : List (IncInfo × Node) → List (IncInfo × Option Node)
  | [] => [mirror]
  | (i, x) :: l => if i.type = .diff then (i, some x) :: upTo mirror l else [(i, some x)]

/-- _repo_shadow.py 2940-2964 `set_relevant_incs` (before it is reversed); `T`: time of the mirror -/
def relevantIncs (t T : Int) (l : List (IncInfo × Node)) (mirror : Option Node) (n : Name) : List (IncInfo × Option Node) :=
  let m := (⟨false, T, .snapshot, n⟩, mirror)
  if l.isEmpty || T ≤ t then [m] else upTo m (newerIncs t l)

/-- _repo_shadow.py 3124-3147 `_get_first_fp` -/
def firstFp (C : Codec) : IncInfo × Option Node → Option Bytes
  | (i, some (.reg b)) => if i.type = .snapshot then decode C i.compressed b else none
  | _ => none

/-- _repo_shadow.py 3003-3024: apply differences -/
def applyDiffs (C : Codec) (fp : Bytes) : List (IncInfo × Option Node) → Option Bytes
  | [] => some fp
  | (i, some (.reg b)) :: r =>
    if i.type = .diff then
      match (decode C i.compressed b).bind (C.patch fp) with
      | some fp => applyDiffs C fp r
      | none => none
    else none
  | _ => none

/-- _repo_shadow.py 3000-3049 `get_restore_fp`: the data of `n` as they were at `t`; an empty file if the oldest isn't a regular one; `none` if
something goes wrong -/
def restoreData (C : Codec) (dir : List (Name × Node)) (R : Repo) (t : Int) (n : Name) : Option Bytes :=
  let l := relevantIncs t R.time (incsOf dir n) (R.mirror n) n
  match l with
  | (_, some (.reg _)) :: _ =>
    match l.reverse with
    | x :: r => (firstFp C x).bind fun fp => applyDiffs C fp r
    | [] => none
  | _ => some []

end Verif.Compress
