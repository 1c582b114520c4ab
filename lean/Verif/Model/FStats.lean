import Verif.Model.SStats
/-
File statistics: `src/rdiffbackup/singletons/fstats.py` 75-488, `utils/buffer.py` 28-88, `sstats.py` 178-195, `_repo_shadow.py` (RS) 1146-1205, 2452.

Simplifications: compression is left out; a file with children has these in a list (`Forest`: first child and next brother); ratios are fractions `num / unit`, and all values
are multiplied by `unit` when read, so that cut-offs are whole numbers; rounding of floating point numbers isn't modelled.
-/
namespace Verif.FStats
open Verif Verif.Quoting Verif.MetaRecord Verif.FlatFile

/-! ### the lines -/

/-- buffer.py 35-47 a buffer for writing: what has been written to the file, and the lines which haven't -/
structure Buf where
  out : Bytes
  lines : List Bytes

/-- `separator.join(lines) + separator` -/
def joinSep (sep : UInt8) : List Bytes → Bytes
  | [] => [sep]
  | [l] => l ++ [sep]
  | l :: r => l ++ sep :: joinSep sep r

/-- buffer.py 62-66 `flush` -/
def Buf.flush (sep : UInt8) (b : Buf) : Buf := if b.lines ≠ [] then ⟨b.out ++ joinSep sep b.lines, []⟩ else b

/-- buffer.py 68-71 `write`; `max`: `max_lines` -/
def Buf.write (max : Nat) (sep : UInt8) (b : Buf) (l : Bytes) : Buf :=
  let b := { b with lines := b.lines ++ [l] }
  if max ≤ b.lines.length then b.flush sep else b

/-- buffer.py 57-60 `close` after some lines have been written -/
def writeAll (max : Nat) (sep : UInt8) (ls : List Bytes) : Bytes := ((ls.foldl (Buf.write max sep) ⟨[], []⟩).flush sep).out

/-- buffer.py 73-88 `_replenish_buffer` and 49-55 `__iter__`: the lines which are read, given the blocks which are returned by successive reads, and what is left of the last one -/
def readBlocks (sep : UInt8) : Bytes → List Bytes → List Bytes
  | rest, [] => if rest ≠ [] then [rest] else []
  | rest, b :: bs =>
    let split := match splitOn sep b with
      | [] => []
      | x :: xs => (rest ++ x) :: xs
    split.dropLast ++ readBlocks sep (split.getLast?.getD []) bs

/-- fstats.py 129-136 `_get_size` -/
def getSize : Option SStats.File → Bytes
  | none => lit "NA"
  | some f => if f.reg then fmtNat f.size else [48]

/-- an entry: the arguments of `add_stats` (fstats.py 95-101) -/
structure Entry where
  index : List Bytes
  src : Option SStats.File
  dst : Option SStats.File
  changed : Bool
  inc : Option SStats.File

/-- fstats.py 95-116 `add_stats`: the line of an entry. `changed` is 0 or 1 (RS 2243, 2264). -/
def entryLine (e : Entry) : Bytes :=
  quotePath (indexPath e.index) ++ 32 :: (fmtNat (if e.changed then 1 else 0) ++ 32 :: (getSize e.src ++ 32 :: (getSize e.dst ++ 32 :: getSize e.inc)))

/-- fstats.py 81-84 `_HEADER` -/
def header : List Bytes := [lit "# Format of each line in file statistics file:", lit "# Filename Changed SourceSize MirrorSize IncrementSize"]

/-- fstats.py 86-122 the file of statistics of a session -/
def fileText (max : Nat) (sep : UInt8) (es : List Entry) : Bytes := writeAll max sep (header ++ es.map entryLine)

/-- values of a file or directory: how many have changed, size in the source, size of increments -/
structure Vals where
  changed : Int
  source : Int
  inc : Int
  deriving DecidableEq

/-- fstats.py 210-215 `__iadd__` -/
def Vals.add (a b : Vals) : Vals := ⟨a.changed + b.changed, a.source + b.source, a.inc + b.inc⟩
/-- fstats.py 217-222 `__isub__` -/
def Vals.sub (a b : Vals) : Vals := ⟨a.changed - b.changed, a.source - b.source, a.inc - b.inc⟩
instance : Add Vals := ⟨Vals.add⟩
instance : Sub Vals := ⟨Vals.sub⟩

/-- fstats.py 202-208 `__ge__`: at least as large in any of the values -/
def Vals.ge (a b : Vals) : Bool := b.changed ≤ a.changed || b.source ≤ a.source || b.inc ≤ a.inc

/-- fstats.py 393-403: `NA` counts as nothing -/
def sizeOf (s : Bytes) : Option Nat := if s = lit "NA" then some 0 else parseNat s

/-- fstats.py 370-405 one line of `_yield_fs_objs`: the regular expression `(.*) ([0-9]+) ([0-9]+|NA) ([0-9]+|NA) ([0-9]+|NA)`. As the last four groups have no blanks, they are the last four words. -/
def parseLine (unit : Nat) (l : Bytes) : Option (List Bytes × Vals) :=
  if l.head? = some 35 then none
  else match (splitOn 32 l).reverse with
    | i :: m :: s :: c :: f :: fs =>
      match parseNat c, sizeOf s, sizeOf m, sizeOf i with
      | some c, some s, some _, some i =>
        let name := (f :: fs).reverse
        let name := name.tail.foldl (fun a b => a ++ 32 :: b) (name.headD [])
        some (if name = [46] then [] else splitOn 47 name, ⟨unit * c, unit * s, unit * i⟩)
      | _, _, _, _ => none
    | _ => none

/-- fstats.py 367-405 `_yield_fs_objs` -/
def parse (unit : Nat) (ls : List Bytes) : List (List Bytes × Vals) := ls.filterMap (parseLine unit)

/-! ### totals of directories -/

/-- a file and its values -/
abbrev FS (α : Type) := List α × Vals

section
variable {α : Type} [DecidableEq α]

/-- fstats.py 174-178 `is_child` -/
def isChild (a parent : List α) : Bool := a ≠ [] && decide (a.dropLast = parent)
/-- fstats.py 180-184 `is_brother` -/
def isBrother (a b : List α) : Bool := a ≠ [] && b ≠ [] && decide (a.dropLast = b.dropLast)

/-- fstats.py 438-451: the loop of `_accumulate_fs`; the stack with its top in front, and the files which come -/
def accLoop : List (FS α) → List (FS α) → List (FS α)
  | [], _ => []
  | top :: stack, fs :: rest =>
    if isChild fs.1 top.1 then accLoop (fs :: top :: stack) rest
    else top :: (match stack with
      | [] => []
      | p :: stack' => accLoop ((p.1, p.2 + top.2) :: stack') (fs :: rest))
  | top :: stack, [] =>
    top :: (match stack with
      | [] => []
      | p :: stack' => accLoop ((p.1, p.2 + top.2) :: stack') [])
termination_by s l => 2 * l.length + s.length

/-- fstats.py 408-451 `_accumulate_fs`. `none`: an exception. -/
def accumulate : List (FS α) → Option (List (FS α))
  | [] => none
  | root :: rest => if root.1 ≠ [] then none else some (accLoop [root] rest)

/-! ### trees -/

/-- A list of `FileStat` objects, with their names, values and lists of children. -/
inductive Forest (α : Type) where
  | nil
  | cons (name : List α) (v : Vals) (children : Forest α) (rest : Forest α)

/-- a `FileStat` object: its name, values and children -/
structure Node (α : Type) where
  name : List α
  v : Vals
  children : Forest α

/-- `list.append` -/
def Forest.append : Forest α → Node α → Forest α
  | .nil, n => .cons n.name n.v n.children .nil
  | .cons a v c r, n => .cons a v c (r.append n)

/-- fstats.py 478-488 the loop of `_make_tree_one_level`, with the children found, the current file and those which come. `none`: the iterator has come to its end, an exception.
`fuel`: at least the number of files which come. -/
def levelLoop : Nat → List α → Forest α → Node α → List (FS α) → Option (Node α × List (FS α))
  | 0, _, _, _, _ => none
  | fuel + 1, first, children, fs, rest =>
    if isChild first fs.name then some ({ fs with children := children }, rest)
    else if isBrother first fs.name then
      match rest with
      | [] => none
      | n :: rest => levelLoop fuel first (children.append fs) ⟨n.1, n.2, .nil⟩ rest
    else
      match rest with
      | [] => none
      | n :: rest =>
        match levelLoop fuel fs.name (Forest.nil.append fs) ⟨n.1, n.2, .nil⟩ rest with
        | none => none
        | some (fs', rest') => levelLoop fuel first children fs' rest'

/-- fstats.py 463-465 the loop of `_make_root_tree` -/
def rootLoop : Nat → Node α → List (FS α) → Option (Node α)
  | 0, _, _ => none
  | fuel + 1, fs, rest =>
    if fs.name = [] then some fs
    else match rest with
      | [] => none
      | n :: rest =>
        match levelLoop (rest.length + 1) fs.name (Forest.nil.append fs) ⟨n.1, n.2, .nil⟩ rest with
        | none => none
        | some (fs', rest') => rootLoop fuel fs' rest'

/-- fstats.py 454-465 `_make_root_tree`; `none`: `None`, which fails an assertion (262), or an exception -/
def makeRoot : List (FS α) → Option (Node α)
  | [] => none
  | fs :: rest => rootLoop (rest.length + 1) ⟨fs.1, fs.2, .nil⟩ rest

/-- fstats.py 254-260 `make`, given the files -/
def makeTree (cutoff : Vals) (es : List (FS α)) : Option (Node α) :=
  (accumulate es).bind fun acc => makeRoot (acc.filter fun fs => fs.2.ge cutoff)

/-! ### sums over sessions -/

/-- the sum of the values of the files of a list -/
def Forest.sum : Forest α → Vals
  | .nil => ⟨0, 0, 0⟩
  | .cons _ v _ r => v + r.sum

/-- `others.get(name)` (fstats.py 288) -/
def Forest.get : Forest α → List α → Option (Vals × Forest α)
  | .nil, _ => none
  | .cons a v c r, n => if a = n then some (v, c) else r.get n

/-- the others, without those which are in `mine` -/
def Forest.erase : Forest α → List α → Forest α
  | .nil, _ => .nil
  | .cons a v c r, n => if a = n then r else .cons a v c (r.erase n)

/-- fstats.py 286-312: the children of a file, merged: first mine, then the others which aren't among mine (286-292). The values of a file which is in both are those of mine without its children
(295-296), the merged children's, and those of the other without its children (297-298, 312). -/
def Forest.merge : Forest α → Forest α → Forest α
  | .nil, others => others
  | .cons a v c r, others =>
    match others.get a with
    | none => .cons a v c (r.merge others)
    | some (v', c') =>
      let m := c.merge c'
      .cons a (v - c.sum + m.sum + (v' - c'.sum)) m (r.merge (others.erase a))

/-- fstats.py 277-312 `merge_tree`. `none`: the exception. -/
def mergeTree (mine other : Node α) : Option (Node α) :=
  if mine.name ≠ other.name then none
  else
    let m := mine.children.merge other.children
    some ⟨mine.name, mine.v - mine.children.sum + m.sum + (other.v - other.children.sum), m⟩

/-- fstats.py 225-234 a tree with its cut-offs -/
structure Tree (α : Type) where
  cutoff : Vals
  root : Node α

/-- fstats.py 237-263 `make` -/
def make (cutoff : Vals) (es : List (FS α)) : Option (Tree α) := (makeTree cutoff es).map fun t => ⟨cutoff, t⟩

/-- fstats.py 265-275 `__iadd__`, `__add__` -/
def addTrees (a b : Tree α) : Option (Tree α) := (mergeTree a.root b.root).map fun t => ⟨a.cutoff + b.cutoff, t⟩

/-- RS 1190-1205 `_get_files_sum`: cut-offs and files of all sessions -/
def filesSum : List (Vals × List (FS α)) → Option (Tree α)
  | [] => none
  | s :: ss => (make s.1 s.2).bind fun t => ss.foldlM (fun t s => (make s.1 s.2).bind fun t' => addTrees t t') t

/-! ### the largest directories -/

/-- fstats.py 328-344 `helper`, for a list of files: those which are listed, with their values, and the amount they make up; `f`: `fs_func`, `cut`: `abs_cutoff` -/
def top (f : Vals → Int) (cut : Int) : Forest α → List (List α × Int) × Int
  | .nil => ([], 0)
  | .cons a v c r =>
    let rest := top f cut r
    if f v ≤ cut then rest
    else
      let below := top f cut c
      let current := f v - below.2
      if cut ≤ current then ((a, current) :: (below.1 ++ rest.1), f v + rest.2) else (below.1 ++ rest.1, below.2 + rest.2)

/-- fstats.py 314-346 `get_top_fs` -/
def topFs (f : Vals → Int) (t : Tree α) : List (List α × Int) := (top f (f t.cutoff) (.cons t.root.name t.root.v t.root.children .nil)).1

/-- fstats.py 353-356 `get_line`: the percentage, as a fraction; `none`: division by zero -/
def percentage (f : Vals → Int) (t : Tree α) (val : Int) : Option (Int × Int) := if f t.root.v = 0 then none else some (100 * val, f t.root.v)
end

/-- sstats.py 178-195 `get_cutoff`: with the ratio `num / unit` -/
def getCutoff (num : Nat) (t : SStats.Totals) : Vals :=
  ⟨num * (t.newFiles + t.changedFiles + t.newFiles), num * t.sourceFileSize, num * t.incrementFileSize⟩

/-- RS 1162-1166, 1180-1205: the files, as they are in the repository, of one session: its statistics and the blocks of the file of statistics, as they are read -/
def sessionFiles (num unit : Nat) (sep : UInt8) (s : SStats.Totals × List Bytes) : Vals × List (FS Bytes) := (getCutoff num s.1, parse unit (readBlocks sep [] s.2))

/-- RS 1146-1205 `get_statistics`, the second result -/
def statistics (num unit : Nat) (sep : UInt8) (ss : List (SStats.Totals × List Bytes)) : Option (Tree Bytes) := filesSum (ss.map (sessionFiles num unit sep))

end Verif.FStats
