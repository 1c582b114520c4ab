import Verif.Model.MetaRecord
/-
Model of reading metadata files whose content is damaged: `src/rdiffbackup/meta/__init__.py` 53-79 `FlatExtractor.iterate` and
`_iterate_records`, `src/rdiffbackup/meta/stdattr.py` 97-151 `AttrExtractor._record_to_object`, with the exception which isn't caught.
(`FlatFile.iterate` and `MetaRecord.recordToObject` don't tell the exceptions apart, as there are none for what has been written.)
-/
namespace Verif.MetaDamage
open Verif.Quoting Verif.FlatFile Verif.MetaRecord

/-- the outcome of stdattr.py 97-151 `_record_to_object`: an object; a ValueError, for which the record is ignored (meta/__init__.py
58-67); an UnboundLocalError, as `index` is only assigned for a field `File` (stdattr.py 119-120, 151) -/
inductive Outcome
  | object (r : Rorp)
  | ignored
  | unbound
  deriving DecidableEq

/-- stdattr.py 97-151 `_record_to_object` -/
def parseRecord (record : Bytes) : Outcome :=
  match ((splitLines record).filterMap parseLine).foldlM setField (none, { index := [] }) with
  | some (some i, r) => .object { r with index := i }
  | some (none, _) => .unbound
  | none => .ignored

/-- meta/__init__.py 53-67 `iterate` over the text records: the objects, and whether an exception ends the reading -/
def collect : List Bytes → List Rorp × Bool
  | [] => ([], false)
  | x :: xs =>
    match parseRecord x with
    | .object r => (r :: (collect xs).1, (collect xs).2)
    | .ignored => collect xs
    | .unbound => ([], true)

/-- meta/__init__.py 53-79: reading a `mirror_metadata` file; `sizes`: of the reads -/
def readAll (sizes : Nat → Nat) (content : Bytes) : List Rorp × Bool :=
  collect (iterateRecords (lit "File ") sizes (content.length + 1) (open' content))

end Verif.MetaDamage
