import Verif.Model.TimeStr
/-
Model of the names of increment files: `src/rdiffbackup/locations/increment.py` 157-180 `get_increment`, 186-210
`_parse_increment_name`, 33-54 `StoredRPath.get_incfiles_list`, 56-80 `isincfile`.

File names are lists of characters (bytes in the code).
-/
namespace Verif.IncName
open Verif.TimeStr

/-- increment.py 198: the types -/
inductive IncType
  | snapshot | dir | missing | diff | data
  deriving DecidableEq

/-- increment.py 198 and 205: the words in the file names -/
def IncType.str : IncType → List Char
  | .snapshot => "snapshot".toList
  | .dir => "dir".toList
  | .missing => "missing".toList
  | .diff => "diff".toList
  | .data => "data".toList

/-- increment.py 198 `ext not in {...}` -/
def parseType (s : List Char) : Option IncType :=
  if s = "snapshot".toList then some .snapshot
  else if s = "dir".toList then some .dir
  else if s = "missing".toList then some .missing
  else if s = "diff".toList then some .diff
  else if s = "data".toList then some .data
  else none

/-- `b".".join` -/
def joinDot : List (List Char) → List Char
  | [] => []
  | [a] => a
  | a :: b :: r => a ++ '.' :: joinDot (b :: r)

/-- `basename.split(b".")` -/
def splitDot : List Char → List (List Char)
  | [] => [[]]
  | c :: r =>
    if c = '.' then [] :: splitDot r
    else
      match splitDot r with
      | [] => [[c]]
      | x :: xs => (c :: x) :: xs

/-- increment.py 165-166 `addtostr`, with the type strings of 213-215 (missing), 227-233 (snapshot, snapshot.gz), 256-262 (diff,
diff.gz), 285-287 (dir) and of metadata and statistics files (data, data.gz); `off`: UTC offset of the local time zone at `t` -/
def incName (compat : Bool) (off : Int) (base : List Char) (t : Int) (ty : IncType) (gz : Bool) : List Char :=
  joinDot [base, timetostring compat off t, if gz then ty.str ++ ".gz".toList else ty.str]

/-- increment.py 188-209: what is remembered of a name: compressed, time, type, base -/
structure IncInfo where
  compressed : Bool
  time : Int
  type : IncType
  base : List Char
  deriving DecidableEq

/-- increment.py 186-210 `_parse_increment_name` (without the time string itself) -/
def parseIncName (name : List Char) : Option IncInfo :=
  match (splitDot name).reverse with
  | [] => none
  | last :: rest =>
    if last = "gz".toList then
      match rest with
      | ext :: ts :: b :: bs =>
        match parseType ext, stringtotime ts with
        | some ty, some t => some ⟨true, t, ty, joinDot (b :: bs).reverse⟩
        | _, _ => none
      | _ => none
    else
      match rest with
      | ts :: b :: bs =>
        match parseType last, stringtotime ts with
        | some ty, some t => some ⟨false, t, ty, joinDot (b :: bs).reverse⟩
        | _, _ => none
      | _ => none

/-- increment.py 33-54 `get_incfiles_list` (unsorted): `dir`: the names in the directory -/
def incfilesList (dir : List (List Char)) (base : List Char) (from' to' : Option Int) : List (List Char) :=
  dir.filter fun name =>
    base.isPrefixOf name &&
      match parseIncName name with
      | some i => i.base == base && from'.all (fun b => b ≤ i.time) && to'.all (fun e => i.time ≤ e)
      | none => false

end Verif.IncName
