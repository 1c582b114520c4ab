import Verif.Model.Quoting
import Mathlib.Data.List.Lex
/-
Model of `src/rdiffbackup/meta/__init__.py` 35-151 `FlatExtractor` (reading metadata files).

The file is its content which is still to be read, and the sizes of the coming reads: the `k`-th `read(blocksize)` returns
`sizes k + 1` bytes, or what is left (the code has blocks of 32768 bytes, except where a read returns less).
`pre` is the start of the first line of a record, `File ` or `# file: ` (record_boundary_regexp, meta/__init__.py 42, stdattr.py 67).
The parameters `fuel` bound loops whose every round uses up a byte.
-/
namespace Verif.FlatFile
open Verif.Quoting (nl)

/-- bytes of an ASCII literal -/
def lit (s : String) : Bytes := s.toList.map fun c => UInt8.ofNat c.toNat

/-- `r` starts with a complete first line of a record: `pre(.*?)\n` -/
def startsLine (pre r : Bytes) : Bool := pre.isPrefixOf r && (r.drop pre.length).contains nl

/-- leftmost match of `\n(pre(.*?))\n`; position (counted from `k`) of the group -/
def scan (pre : Bytes) : Bytes → Nat → Option Nat
  | [], _ => none
  | c :: r, k => if c == nl && startsLine pre r then some (k + 1) else scan pre r (k + 1)

/-- meta/__init__.py 140 `record_boundary_regexp.search(self.buf, 1)`, `m.start(1)` (`^` does not match at 1) -/
def searchFrom1 (pre buf : Bytes) : Option Nat := scan pre (buf.drop 1) 1

/-- meta/__init__.py 115 `record_boundary_regexp.search(self.buf)`, `m.start(1)` -/
def search (pre buf : Bytes) : Option Nat := if startsLine pre buf then some 0 else scan pre buf 0

/-- the extractor (47-51) and the file -/
structure St where
  buf : Bytes
  rest : Bytes
  k : Nat
  atEnd : Bool
  deriving DecidableEq

/-- meta/__init__.py 47-51 `__init__`: nothing read yet -/
def open' (content : Bytes) : St := ⟨[], content, 0, false⟩

section
variable (pre : Bytes) (sizes : Nat → Nat)

/-- 137-151 `_get_next_pos` -/
def getNextPos : Nat → St → Nat × St
  | 0, s => (s.buf.length, { s with atEnd := true })
  | fuel + 1, s =>
    match searchFrom1 pre s.buf with
    | some p => (p, s)
    | none =>
      let new := s.rest.take (sizes s.k + 1)
      if new = [] then (s.buf.length, { s with k := s.k + 1, atEnd := true })
      else getNextPos fuel { s with buf := s.buf ++ new, rest := s.rest.drop (sizes s.k + 1), k := s.k + 1 }

/-- 69-79 `_iterate_records` -/
def iterateRecords : Nat → St → List Bytes
  | 0, _ => []
  | fuel + 1, s =>
    let (p, s) := getNextPos pre sizes (s.rest.length + 1) s
    if s.atEnd then if p ≠ 0 then [s.buf.take p] else []
    else s.buf.take p :: iterateRecords fuel { s with buf := s.buf.drop p }

/-- 53-67 `iterate`; `toObj`: `_record_to_object`, `none` is a ParsingError or ValueError. (After an error in the last record the loop
ends by `break` instead of going on to find nothing.) -/
def iterate {β : Type} (toObj : Bytes → Option β) (content : Bytes) : List β :=
  (iterateRecords pre sizes (content.length + 1) (open' content)).filterMap toObj

variable {α : Type} [LinearOrder α] (toIndex : Bytes → List α)

/-- 114-123: the inner loop of `_skip_to_index` -/
def skipInner (index : List α) : Nat → Bytes → Option Bytes
  | 0, _ => none
  | fuel + 1, buf =>
    match search pre buf with
    | none => none
    | some p =>
      let line := (buf.drop p).takeWhile (· != nl)
      if index ≤ toIndex (line.drop pre.length) then some (buf.drop p)
      else skipInner index fuel (buf.drop (p + line.length))

/-- `fileobj.readline()` -/
def readline : Bytes → Bytes × Bytes
  | [] => ([], [])
  | c :: r => if c == nl then ([c], r) else ((c :: (readline r).1), (readline r).2)

/-- 105-130 `_skip_to_index` -/
def skipToIndex (index : List α) : Nat → St → St
  | 0, s => { s with atEnd := true }
  | fuel + 1, s =>
    let rest' := s.rest.drop (sizes s.k + 1)
    let buf := s.rest.take (sizes s.k + 1) ++ (readline rest').1
    let s := { s with buf := buf, rest := (readline rest').2, k := s.k + 1 }
    if buf = [] then { s with atEnd := true }
    else
      match skipInner pre toIndex index (buf.length + 1) buf with
      | some b => { s with buf := b }
      | none => skipToIndex index fuel s

variable {β : Type} (toObj : Bytes → Option β) (idx : β → List α)

/-- 86-95: the loop of `_iterate_starting_with` -/
def startingLoop (index : List α) : Nat → St → List β
  | 0, _ => []
  | fuel + 1, s =>
    let (p, s) := getNextPos pre sizes (s.rest.length + 1) s
    match toObj (s.buf.take p) with
    | none => if s.atEnd then [] else startingLoop index fuel { s with buf := s.buf.drop p }
    | some obj =>
      if (idx obj).take index.length ≠ index then []
      else obj :: (if s.atEnd then [] else startingLoop index fuel { s with buf := s.buf.drop p })

/-- 81-96 `_iterate_starting_with`, 267-272 `FlatFile.get_objects` with a restriction -/
def iterateStartingWith (index : List α) (content : Bytes) : List β :=
  let s := skipToIndex pre sizes toIndex index (content.length + 1) (open' content)
  if s.atEnd then [] else startingLoop pre sizes toObj idx index (content.length + 1) s

/-- 267-272 `FlatFile.get_objects` -/
def getObjects (restrict : List α) (content : Bytes) : List β :=
  if restrict = [] then iterate pre sizes toObj content
  else iterateStartingWith pre sizes toIndex toObj idx restrict content

end

/-! ### writing -/

/-- a file open for writing: what has been written, and `_record_buffer` -/
structure Writer where
  out : Bytes
  buf : List Bytes
  deriving DecidableEq

/-- 288-297 `_write_record`; `max`: `_max_buffer_size` (170: 100) -/
def writeRecord (max : Nat) (w : Writer) (rec : Bytes) : Writer :=
  let buf := w.buf ++ [rec]
  if max ≤ buf.length then ⟨w.out ++ buf.flatten, []⟩ else ⟨w.out, buf⟩

/-- 274-279 `close` -/
def closeWriter (w : Writer) : Bytes := if w.buf ≠ [] then w.out ++ w.buf.flatten else w.out

/-- 263-265 `write_object` for all objects, then `close`; `none` if an object can't be turned into a record -/
def writeObjects {β : Type} (max : Nat) (toRecord : β → Option Bytes) (objs : List β) : Option Bytes :=
  (objs.foldlM (fun w o => (toRecord o).map (writeRecord max w)) ⟨[], []⟩).map closeWriter

end Verif.FlatFile
