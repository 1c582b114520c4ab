import Verif.Model.FsQuoting

/-
How it is detected what a file system does with names: `src/rdiffbackup/locations/fs_abilities.py` (FA) 127-192, 210-235, 253-318, 350-426, 652-764, 766-782, `rdiff_backup/robust.py` 84-98
(`listrp`), `rpath.py` 902-910 (`touch`), 949-971 (`delete`), 1043-1045 (`append`), 1699-1712 (`get_rpath_data`).

Simplifications: nothing changes while the file system is examined; the other abilities (attributes, hard links) are left out, but for what their tests leave behind; removing a file which has been
created succeeds, and is noticed at once; running on Windows itself (`sys.platform`) is left out.
-/
namespace Verif.Detect
open Verif Verif.Filenames Verif.FsQuoting

/-- a file system: names with the same `canon` are names of the same file; `accepts`: files can be created under the name; `device`: is answered whether it is there or not -/
structure Sys where
  canon : Bytes → Bytes
  accepts : Bytes → Bool
  device : Bytes → Bool

/-- looking at a file; `hidden`: not there, or permission denied (rpath.py 1706-1712); `error`: other errors -/
inductive Look
  | ok
  | hidden
  | error
  deriving DecidableEq

/-- a directory, in the order of `listrp`; what can't be listed has nothing in it (robust.py 84-98) -/
inductive Dir
  | nil
  | file (name : Bytes) (look : Look) (rest : Dir)
  | dir (name : Bytes) (sub rest : Dir)

/-- the listing -/
def Dir.names : Dir → List Bytes
  | .nil => []
  | .file n _ r => n :: r.names
  | .dir n _ r => n :: r.names

/-- the file with a name -/
def search (S : Sys) (x : Bytes) : Dir → Look
  | .nil => .hidden
  | .file n l r => if S.canon n = S.canon x then l else search S x r
  | .dir n _ r => if S.canon n = S.canon x then .ok else search S x r

/-- `append` and `lstat` -/
def look (S : Sys) (d : Dir) (x : Bytes) : Look := if S.device x then .ok else search S x d

/-- `bytes.swapcase` -/
def swapcase (n : Bytes) : Bytes := n.map fun c => if 65 ≤ c.toNat ∧ c.toNat ≤ 90 then c + 32 else if 97 ≤ c.toNat ∧ c.toNat ≤ 122 then c - 32 else c

/-- 380-397 `find_letter`; `whole`: the directory whose rest is looked at. `none`: an error -/
def findLetter (whole : Dir) : Dir → Option (Option (Dir × Bytes))
  | .nil => some none
  | .file n l r =>
    match l with
    | .error => none
    | .ok => if n ≠ swapcase n then some (some (whole, n)) else findLetter whole r
    | .hidden => findLetter whole r
  | .dir n sub r =>
    if n ≠ swapcase n then some (some (whole, n))
    else match findLetter sub sub with
      | none => none
      | some (some t) => some (some t)
      | some none => findLetter whole r

/-- 399-411 `test_triple` -/
def testTriple (S : Sys) (d : Dir) (n : Bytes) : Option Bool :=
  if swapcase n ∈ d.names then some true
  else match look S d (swapcase n) with
    | .ok => some false
    | .hidden => some true
    | .error => none

/-- 375-426 `_detect_case_sensitive_readonly` -/
def caseReadonly (S : Sys) (root : Dir) : Option Bool :=
  match findLetter root root with
  | none => none
  | some none => some true
  | some (some (d, n)) => testTriple S d n

/-- the name of the device which is tried, `con` -/
def con : Bytes := [99, 111, 110]

/-- 670-680 `_detect_escape_dos_devices` in a directory which isn't empty -/
def dosReadonly (S : Sys) (root : Dir) : Bool :=
  match look S root con with
  | .ok => true
  | .hidden => false
  | .error => true

/-- 731-764 `_detect_escape_trailing_spaces_readonly`: the loop -/
def trailingLoop (S : Sys) (root : Dir) : List Bytes → Bool
  | [] => false
  | n :: r =>
    if look S root n ≠ .ok then trailingLoop S root r
    else if n.getLast? = some 46 ∨ n.getLast? = some 32 then false
    else if n ++ [46] ∈ root.names then false
    else match look S root (n ++ [46]) with
      | .ok => true
      | _ => trailingLoop S root r

/-- 127-154 `_detect_readonly`, 766-782. `none`: failed -/
def readonly (S : Sys) (root : Dir) : Option Fsa :=
  (caseReadonly S root).map fun c => { caseSensitive := c, extended := none, winReserved := false, escapeDos := dosReadonly S root, escapeTrailing := trailingLoop S root root.names }

/-! ## With writing -/

/-- `lstat` in the temporary directory with these files -/
def there (S : Sys) (d : List Bytes) (x : Bytes) : Bool := d.any (fun n => S.canon n = S.canon x) || S.device x

/-- rpath.py 902-910 `touch` -/
def touch (S : Sys) (d : List Bytes) (x : Bytes) : Option (List Bytes) :=
  if there S d x then some d else if S.accepts x then some (x :: d) else none

/-- rpath.py 949-971 `delete` of a file -/
def delete (S : Sys) (d : List Bytes) (x : Bytes) : List Bytes := d.filter fun n => S.canon n ≠ S.canon x

/-- 259 `5-_ a.snapshot.gz` -/
def ordinary : Bytes := [53, 45, 95, 32, 97, 46, 115, 110, 97, 112, 115, 104, 111, 116, 46, 103, 122]
/-- 270 -/
def extendedName : Bytes := [117, 110, 105, 195, 161, 194, 132, 194, 137]
/-- 301 `:\"` -/
def reservedName : Bytes := [58, 92, 34]
/-- `A` -/
def upperA : Bytes := [65]
/-- `a` -/
def lowerA : Bytes := [97]
/-- `foo` -/
def foo : Bytes := [102, 111, 111]
/-- `foo.` -/
def fooDot : Bytes := [102, 111, 111, 46]
/-- 218-219 `hardlinked_file1`, `hl`, which are left behind -/
def left : List Bytes := [[104, 97, 114, 100, 108, 105, 110, 107, 101, 100, 95, 102, 105, 108, 101, 49], [104, 108]]

/-- 253-294 `_detect_extended_filenames`: what is detected, and the directory -/
def extendedNames (S : Sys) (d : List Bytes) : Option (Bool × List Bytes) :=
  match touch S d ordinary with
  | none => none
  | some d1 =>
    let d2 := delete S d1 ordinary
    match touch S d2 extendedName with
    | none => some (false, d2)
    | some d3 => some (true, delete S d3 extendedName)

/-- 296-318 `_detect_win_reserved_filenames` -/
def reservedNames (S : Sys) (d : List Bytes) : Bool × List Bytes :=
  match touch S d reservedName with
  | none => (true, d)
  | some d1 => (false, delete S d1 reservedName)

/-- 350-373 `_detect_case_sensitive_readwrite` -/
def caseReadwrite (S : Sys) (d : List Bytes) : Option (Bool × List Bytes) :=
  match touch S d upperA with
  | none => none
  | some d1 => if there S d1 lowerA then
      let d2 := delete S d1 lowerA
      if there S d2 upperA then none else some (false, d2)
    else some (true, delete S d1 upperA)

/-- 682-722 `_detect_escape_trailing_spaces_readwrite` -/
def trailingReadwrite (S : Sys) (d : List Bytes) : Option Bool :=
  if there S d fooDot then none
  else match touch S d foo with
    | none => none
    | some d1 => if !there S d1 foo then none
      else if there S d1 fooDot then some true
      else match touch S d1 fooDot with
        | none => some true
        | some d2 => some (!there S d2 fooDot)

/-- 156-192 `_detect_readwrite`, in a new directory. `none`: failed -/
def readwrite (S : Sys) : Option Fsa := do
  let (ext, d) ← extendedNames S []
  let (res, d) := reservedNames S d
  let (cs, d) ← caseReadwrite S d
  let d ← touch S d foo
  let d := left ++ delete S d foo
  let dos := there S d con
  let trailing ← trailingReadwrite S d
  return { caseSensitive := cs, extended := some ext, winReserved := res, escapeDos := dos, escapeTrailing := trailing }

end Verif.Detect
