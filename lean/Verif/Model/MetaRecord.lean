import Verif.Model.FlatFile
/-
Model of the records of `mirror_metadata` files: `src/rdiffbackup/meta/stdattr.py` 64-139 `AttrExtractor`, 142-213
`AttrFile._object_to_record`; of the data dictionary of `src/rdiff_backup/rpath.py` (`RORPath`), of `RORPath.__eq__` (132-171) and of
`get_rpath_data` (1698-1773).

Simplifications: strings are byte strings (names are UTF-8 text in the code); MacOS resource forks and carbon files, extended attributes
and ACLs are left out (the latter two have their own files); `int` accepts an optional minus sign and digits.
-/
namespace Verif.MetaRecord
open Verif.Quoting Verif.FlatFile

/-- rpath.py 132-171, stdattr.py 164-237: the values of `data['type']` (`None` is handled by the callers) -/
inductive FType
  | reg | dir | sock | fifo | sym | dev
  deriving DecidableEq

/-- stdattr.py 170-176: the word written after `Type` -/
def FType.str : FType → Bytes
  | .reg => lit "reg" | .dir => lit "dir" | .sock => lit "sock" | .fifo => lit "fifo" | .sym => lit "sym" | .dev => lit "dev"

/-- stdattr.py 99-150: the word read after `Type` -/
def FType.ofStr (s : Bytes) : Option FType :=
  if s = lit "reg" then some .reg else if s = lit "dir" then some .dir else if s = lit "sock" then some .sock
  else if s = lit "fifo" then some .fifo else if s = lit "sym" then some .sym else if s = lit "dev" then some .dev else none

/-- RORPath: index and data dictionary; a field is `none` if the key is missing. `type`: the value `None` is `none`.
`uname`, `gname`: the outer option says whether there is the key, the inner one is the value (`None` or a name). -/
structure Rorp where
  index : List Bytes
  type : Option FType := none
  size : Option Int := none
  nlink : Option Int := none
  inode : Option Int := none
  devloc : Option Int := none
  mtime : Option Int := none
  uid : Option Int := none
  gid : Option Int := none
  perms : Option Int := none
  uname : Option (Option Bytes) := none
  gname : Option (Option Bytes) := none
  linkname : Option Bytes := none
  devnums : Option (Bytes × Int × Int) := none
  sha1 : Option Bytes := none
  mirrorname : Option Bytes := none
  incname : Option Bytes := none
  deriving DecidableEq

/-! ### numbers -/

/-- decimal digits, for `b"%i"` -/
def digitsAux : Nat → Nat → Bytes → Bytes
  | 0, _, acc => acc
  | fuel + 1, n, acc =>
    if n < 10 then UInt8.ofNat (48 + n) :: acc else digitsAux fuel (n / 10) (UInt8.ofNat (48 + n % 10) :: acc)

/-- `b"%i" % n` for natural numbers (stdattr.py 164-237) -/
def fmtNat (n : Nat) : Bytes := digitsAux (n + 1) n []

/-- `b"%i" % x` -/
def fmtInt (x : Int) : Bytes := if x < 0 then 45 :: fmtNat x.natAbs else fmtNat x.natAbs

/-- an ASCII digit -/
def isDigit (c : UInt8) : Bool := 48 ≤ c.toNat && c.toNat ≤ 57

/-- Python's `int` on digits only (stdattr.py 99-150) -/
def parseNat (s : Bytes) : Option Nat :=
  if s ≠ [] ∧ s.all isDigit then some (s.foldl (fun a c => 10 * a + (c.toNat - 48)) 0) else none

/-- `int` -/
def parseInt (s : Bytes) : Option Int :=
  match s with
  | 45 :: r => (parseNat r).map fun n => -(n : Int)
  | r => (parseNat r).map fun n => (n : Int)

/-! ### writing -/

/-- rpath.py 408-416 `get_indexpath`, `path_join` (components do not start with a slash) -/
def joinSlash : List Bytes → Bytes
  | [] => []
  | [a] => a
  | a :: b :: r => a ++ 47 :: joinSlash (b :: r)

/-- rpath.py `get_indexpath`: `.` for the empty index, else joined by `/` -/
def indexPath (index : List Bytes) : Bytes := if index = [] then [46] else joinSlash index

/-- `b"  Field %b\n"` -/
def line (field data : Bytes) : Bytes := 32 :: 32 :: (field ++ 32 :: data ++ [nl])

/-- stdattr.py 164-237: `b"  Field %i\n"` -/
def intLine (field : Bytes) (x : Int) : Bytes := line field (fmtInt x)

/-- `rorpath.getuname() or ":"` -/
def nameOr (n : Option (Option Bytes)) : Bytes :=
  match n with
  | some (some s) => if s = [] then [58] else s
  | _ => [58]

/-- stdattr.py 164-237 `_object_to_record`; `hardlinks`: generics.preserve_hardlinks; `none` is a KeyError -/
def objectToRecord (hardlinks : Bool) (r : Rorp) : Option Bytes :=
  let file := lit "File " ++ quotePath (indexPath r.index) ++ [nl]
  match r.type with
  | none => some (file ++ line (lit "Type") (lit "None"))
  | some ty => do
    let specific ←
      match ty with
      | .reg => do
        let size ← r.size
        let links ←
          if hardlinks && decide (1 < r.nlink.getD 1) then do
            let inode ← r.inode
            let devloc ← r.devloc
            pure (intLine (lit "NumHardLinks") (r.nlink.getD 1) ++ intLine (lit "Inode") inode ++ intLine (lit "DeviceLoc") devloc)
          else pure []
        pure (intLine (lit "Size") size ++ links ++ (match r.sha1 with | some d => line (lit "SHA1Digest") d | none => []))
      | .dir | .sock | .fifo => pure []
      | .sym => do
        let l ← r.linkname
        pure (line (lit "SymData") (quotePath l))
      | .dev => do
        let (c, major, minor) ← r.devnums
        pure (line (lit "DeviceNum") (c ++ 32 :: fmtInt major ++ 32 :: fmtInt minor))
    let time ← if ty ≠ .sym ∧ ty ≠ .dev then r.mtime.map (intLine (lit "ModTime")) else pure []
    let uid ← r.uid
    let gid ← r.gid
    let alt := match r.mirrorname, r.incname with
      | some m, _ => line (lit "AlternateMirrorName") m
      | none, some i => line (lit "AlternateIncrementName") i
      | none, none => []
    pure (file ++ line (lit "Type") ty.str ++ specific ++ time ++ intLine (lit "Uid") uid ++ line (lit "Uname") (nameOr r.uname) ++
      intLine (lit "Gid") gid ++ line (lit "Gname") (nameOr r.gname) ++ intLine (lit "Permissions") (r.perms.getD 0) ++ alt)

/-! ### reading -/

/-- `[A-Za-z0-9]` -/
def isAlnum (c : UInt8) : Bool :=
  (65 ≤ c.toNat && c.toNat ≤ 90) || (97 ≤ c.toNat && c.toNat ≤ 122) || (48 ≤ c.toNat && c.toNat ≤ 57)

/-- stdattr.py 68 `line_parsing_regexp`, on one line -/
def parseLine (l : Bytes) : Option (Bytes × Bytes) :=
  let l := l.dropWhile (· == 32)
  let field := l.takeWhile isAlnum
  match field, l.dropWhile isAlnum with
  | _ :: _, 32 :: c :: data => some (field, c :: data)
  | _, _ => none

/-- the lines of a text -/
def splitLines : Bytes → List Bytes
  | [] => [[]]
  | c :: r =>
    if c = nl then [] :: splitLines r
    else
      match splitLines r with
      | [] => [[c]]
      | x :: xs => (c :: x) :: xs

/-- `split(b"/")` and `split(b" ")` -/
def splitOn (d : UInt8) : Bytes → List Bytes
  | [] => [[]]
  | c :: r =>
    if c = d then [] :: splitOn d r
    else
      match splitOn d r with
      | [] => [[c]]
      | x :: xs => (c :: x) :: xs

/-- stdattr.py 89-95 `_filename_to_index` -/
def filenameToIndex (q : Bytes) : List Bytes := if q = [46] then [] else splitOn 47 (unquotePath q)

/-- stdattr.py 111-114: `:` and `None` stand for None -/
def decodeName (data : Bytes) : Option Bytes := if data = [58] ∨ data = lit "None" then none else some data

/-- stdattr.py 107-134: one field; `none` is a ValueError. Result: the index (once the field File has been seen) and the data -/
def setField (st : Option (List Bytes) × Rorp) (fd : Bytes × Bytes) : Option (Option (List Bytes) × Rorp) :=
  let (i, r) := st
  let (f, d) := fd
  if f = lit "Size" then (parseInt d).map fun x => (i, { r with size := some x })
  else if f = lit "NumHardLinks" then (parseInt d).map fun x => (i, { r with nlink := some x })
  else if f = lit "Inode" then (parseInt d).map fun x => (i, { r with inode := some x })
  else if f = lit "DeviceLoc" then (parseInt d).map fun x => (i, { r with devloc := some x })
  else if f = lit "ModTime" then (parseInt d).map fun x => (i, { r with mtime := some x })
  else if f = lit "Uid" then (parseInt d).map fun x => (i, { r with uid := some x })
  else if f = lit "Gid" then (parseInt d).map fun x => (i, { r with gid := some x })
  else if f = lit "Permissions" then (parseInt d).map fun x => (i, { r with perms := some x })
  else if f = lit "Type" then some (i, { r with type := (decodeName d).bind FType.ofStr })
  else if f = lit "SHA1Digest" then some (i, { r with sha1 := decodeName d })
  else if f = lit "Uname" then some (i, { r with uname := some (decodeName d) })
  else if f = lit "Gname" then some (i, { r with gname := some (decodeName d) })
  else if f = lit "File" then some (some (filenameToIndex d), r)
  else if f = lit "SymData" then some (i, { r with linkname := some (unquotePath d) })
  else if f = lit "DeviceNum" then
    match splitOn 32 d with
    | [c, ma, mi] =>
      match parseInt ma, parseInt mi with
      | some ma, some mi => some (i, { r with devnums := some (c, ma, mi) })
      | _, _ => none
    | _ => none
  else if f = lit "AlternateMirrorName" then some (i, { r with mirrorname := some d })
  else if f = lit "AlternateIncrementName" then some (i, { r with incname := some d })
  else some (i, r)

/-- stdattr.py 97-139 `_record_to_object` -/
def recordToObject (record : Bytes) : Option Rorp :=
  match ((splitLines record).filterMap parseLine).foldlM setField (none, { index := [] }) with
  | some (some i, r) => some { r with index := i }
  | _ => none

/-! ### comparing -/

/-- `key not in other.data or self.data[key] != other.data[key]` for a key which `self` may have -/
def sameKey {β : Type} [DecidableEq β] (a b : Option β) : Bool :=
  match a with
  | none => true
  | some x => b == some x

/-- rpath.py 163-167: user and group names -/
def sameName (a b : Option (Option Bytes)) : Bool :=
  match a with
  | none => true
  | some x =>
    match b.join with
    | none => true
    | some y => y = [] || y = lit "None" || some y == x

/-- generics.compare_inode, generics.preserve_hardlinks -/
structure Cfg where
  compareInode : Bool
  hardlinks : Bool

/-- rpath.py 132-171 `__eq__` (without the keys of files and of other platforms) -/
def Rorp.eqv (c : Cfg) (a b : Rorp) : Bool :=
  let isreg := a.type == some .reg
  let inode := isreg && a.nlink.getD 1 != 1 && c.compareInode && c.hardlinks
  let special := a.type == some .dev || a.type == some .sock || a.type == some .fifo || a.type == some .sym
  let sym := a.type == some .sym
  a.index == b.index &&
  ((special && b.type == some .reg && b.size == some 0) || a.type == b.type) &&
  (!inode || (sameKey a.inode b.inode && sameKey a.devloc b.devloc)) &&
  (!isreg || sameKey a.size b.size) &&
  (sym || (sameKey a.uid b.uid && sameKey a.gid b.gid && sameName a.uname b.uname && sameName a.gname b.gname)) &&
  sameKey a.mtime b.mtime && sameKey a.perms b.perms && sameKey a.linkname b.linkname && sameKey a.devnums b.devnums &&
  sameKey a.sha1 b.sha1 && sameKey a.mirrorname b.mirrorname && sameKey a.incname b.incname

/-- What `lstat` gives (rpath.py 1706-1771). -/
structure Stat where
  type : FType
  size : Int
  perms : Int
  uid : Int
  gid : Int
  inode : Int
  devloc : Int
  nlink : Int
  mtime : Int
  uname : Option Bytes
  gname : Option Bytes
  linkname : Bytes
  devnums : Bytes × Int × Int

/-- rpath.py 1698-1773 `get_rpath_data` for an existing file -/
def fromStat (index : List Bytes) (s : Stat) : Rorp :=
  { index, type := some s.type, size := some s.size, perms := some s.perms, uid := some s.uid, gid := some s.gid, inode := some s.inode,
    devloc := some s.devloc, nlink := some s.nlink, uname := some s.uname, gname := some s.gname,
    devnums := if s.type = .dev then some s.devnums else none,
    linkname := if s.type = .sym then some s.linkname else none,
    mtime := if s.type = .sym ∨ s.type = .dev then none else some s.mtime }

end Verif.MetaRecord
