import Verif.Model.MetaRecord
import Verif.Model.AclQuote
import Verif.Model.Collate
/-
Model of extended attributes and access control lists: `src/rdiffbackup/meta/ea.py` (EA below) and
`src/rdiffbackup/meta/acl_posix.py` (ACL below): their records in the files `extended_attributes` and `access_control_lists`, their
joining with the paths, and how they are read from and written to a file.

Simplifications: names are byte strings (the code decodes and encodes user and group names with `os.fsdecode`, `os.fsencode`, which
are inverse to each other); what has no entries is the empty list (the code has `None` or an empty list and only tests for truth);
attributes are association lists in the order of the dictionary. MacOS resource forks are left out.
-/
namespace Verif.Attrs
open Verif Verif.Quoting Verif.FlatFile Verif.MetaRecord Verif.Collate

/-! ### base64 (Python's `base64.b64encode`, `base64.b64decode`) -/

/-- the alphabet -/
def b64char (n : Nat) : UInt8 :=
  if n < 26 then UInt8.ofNat (65 + n) else if n < 52 then UInt8.ofNat (97 + (n - 26)) else if n < 62 then UInt8.ofNat (48 + (n - 52))
  else if n = 62 then 43 else 47

/-- position in the alphabet -/
def b64val (c : UInt8) : Option Nat :=
  if 65 ≤ c.toNat ∧ c.toNat ≤ 90 then some (c.toNat - 65)
  else if 97 ≤ c.toNat ∧ c.toNat ≤ 122 then some (c.toNat - 97 + 26)
  else if 48 ≤ c.toNat ∧ c.toNat ≤ 57 then some (c.toNat - 48 + 52)
  else if c = 43 then some 62 else if c = 47 then some 63 else none

/-- `base64.b64encode` (EA 271) -/
def b64encode : Bytes → Bytes
  | [] => []
  | [a] => [b64char (a.toNat / 4), b64char (a.toNat % 4 * 16), 61, 61]
  | [a, b] => [b64char (a.toNat / 4), b64char (a.toNat % 4 * 16 + b.toNat / 16), b64char (b.toNat % 16 * 4), 61]
  | a :: b :: c :: r =>
    b64char (a.toNat / 4) :: b64char (a.toNat % 4 * 16 + b.toNat / 16) :: b64char (b.toNat % 16 * 4 + c.toNat / 64) ::
      b64char (c.toNat % 64) :: b64encode r

/-- the loop of CPython's `a2b_base64` (not strict): `quad` characters of a group have been seen, `left` are the bits left over, `pads`
padding characters have been seen; other characters are skipped; `none`: binascii.Error, which is a ValueError -/
def b64loop (quad left pads : Nat) : Bytes → Option Bytes
  | [] => if quad = 0 then some [] else none
  | c :: r =>
    if c = 61 then
      if 2 ≤ quad then
        if 4 ≤ quad + (pads + 1) then some [] else b64loop quad left (pads + 1) r
      else b64loop quad left pads r
    else
      match b64val c with
      | none => b64loop quad left pads r
      | some v =>
        if quad = 0 then b64loop 1 v 0 r
        else if quad = 1 then (b64loop 2 (v % 16) 0 r).map (UInt8.ofNat (left * 4 + v / 16) :: ·)
        else if quad = 2 then (b64loop 3 (v % 4) 0 r).map (UInt8.ofNat (left * 16 + v / 4) :: ·)
        else (b64loop 0 0 0 r).map (UInt8.ofNat (left * 64 + v) :: ·)

/-- `base64.b64decode` (EA 245) -/
def b64decode (s : Bytes) : Option Bytes := b64loop 0 0 0 s

/-! ### extended attributes -/

/-- EA 56-65 `ExtendedAttributes`: index and dictionary -/
structure Ea where
  index : List Bytes
  attrs : List (Bytes × Bytes)
  deriving DecidableEq

/-- EA 156-158 `set`: `attr_dict[name] = value` -/
def setAttr (attrs : List (Bytes × Bytes)) (name value : Bytes) : List (Bytes × Bytes) :=
  match attrs with
  | [] => [(name, value)]
  | a :: r => if a.1 = name then (name, value) :: r else a :: setAttr r name value

/-- `b"\n".join` (EA 273) -/
def joinNl : List Bytes → Bytes
  | [] => []
  | [l] => l
  | l :: m :: r => l ++ nl :: joinNl (m :: r)

/-- EA 267-272: the line of an attribute -/
def eaLine (a : Bytes × Bytes) : Bytes := if a.2 = [] then a.1 else AclQuote.quote a.1 ++ lit "=0s" ++ b64encode a.2

/-- EA 262-273 `_object_to_record` -/
def eaToRecord (ea : Ea) : Bytes :=
  joinNl ((lit "# file: " ++ AclQuote.quote (indexPath ea.index)) :: ea.attrs.map eaLine) ++ [nl]

/-- `bytes.strip()` (EA 229) -/
def strip (s : Bytes) : Bytes := ((s.dropWhile AclQuote.isSpace).reverse.dropWhile AclQuote.isSpace).reverse

/-- EA 220-225, ACL 281-285, meta/__init__.py 132-137 `_filename_to_index` -/
def aclIndex (q : Bytes) : List Bytes := if q = [46] then [] else splitOn 47 (AclQuote.unquote q)

/-- EA 228-246: a line; `none`: ParsingError or ValueError. (The test for `#`, EA 232, compares a number with a byte string and is never
true.) -/
def eaReadLine (attrs : List (Bytes × Bytes)) (line : Bytes) : Option (List (Bytes × Bytes)) :=
  let l := strip line
  if l = [] then some attrs
  else if (61 : UInt8) ∉ l then some (setAttr attrs l [])
  else
    let name := l.takeWhile (· != 61)
    let value := l.drop (name.length + 1)
    if value.take 2 ≠ lit "0s" then none else (b64decode (value.drop 2)).map (setAttr attrs name)

/-- EA 213-246 `EAExtractor._record_to_object` -/
def eaOfRecord (record : Bytes) : Option Ea :=
  match splitOn nl record with
  | [] => none
  | first :: lines =>
    if first.take 8 ≠ lit "# file: " then none
    else (lines.foldlM eaReadLine []).map (⟨aclIndex (first.drop 8), ·⟩)

/-- EA 287-298 `write_object`, meta_mgr.py `CombinedWriter.write_object`: the file written for the extended attributes of all paths;
empty ones are left out -/
def eaFile (max : Nat) (eas : List Ea) : Option Bytes :=
  writeObjects max (fun ea => some (eaToRecord ea)) (eas.filter fun ea => ea.attrs ≠ [])

/-- EA 85-120 `read_from_rp`: what is taken of the attributes of a file (which is not a directory on MacOS) -/
def eaOfFile (index : List Bytes) (xattrs : List (Bytes × Bytes)) : Ea :=
  ⟨index, xattrs.filter fun a => !(lit "system.").isPrefixOf a.1⟩

/-- EA 168-204 `_clear_rp`: those which may not be removed stay -/
def clearFile (removable : Bytes → Bool) (xattrs : List (Bytes × Bytes)) : List (Bytes × Bytes) := xattrs.filter fun a => !removable a.1

/-- EA 122-150 `write_to_rp`: those which can't be set are skipped with a message -/
def eaToFile (removable settable : Bytes → Bool) (ea : Ea) (xattrs : List (Bytes × Bytes)) : List (Bytes × Bytes) :=
  ea.attrs.foldl (fun x a => if settable a.1 then setAttr x a.1 a.2 else x) (clearFile removable xattrs)

/-! ### access control lists -/

/-- ACL 413-432: the first two components of an entry: the type and, for the types `u` and `g`, number and name -/
inductive Who
  | owner
  | user (id : Option Int) (name : Option Bytes)
  | owningGroup
  | group (id : Option Int) (name : Option Bytes)
  | mask
  | other
  deriving DecidableEq

/-- ACL 413-432: an entry of `entry_list` -/
structure Entry where
  who : Who
  perms : Nat
  deriving DecidableEq

/-- ACL 48-66 `AccessControlLists` -/
structure Acl where
  index : List Bytes
  entries : List Entry
  defaults : List Entry
  deriving DecidableEq

/-- ACL 155, 160: `"%s" % (uname or uid)` -/
def nameOrId (id : Option Int) (name : Option Bytes) : Bytes :=
  match name with
  | some (c :: n) => c :: n
  | _ =>
    match id with
    | some i => fmtInt i
    | none => lit "None"

/-- ACL 149-163 -/
def Who.text : Who → Bytes
  | .owner => lit "user::"
  | .user id name => lit "user:" ++ nameOrId id name ++ lit ":"
  | .owningGroup => lit "group::"
  | .group id name => lit "group:" ++ nameOrId id name ++ lit ":"
  | .mask => lit "mask::"
  | .other => lit "other::"

/-- ACL 170-174: `permstring` -/
def permText (p : Nat) : Bytes :=
  [if p / 4 % 2 = 1 then 114 else 45, if p / 2 % 2 = 1 then 119 else 45, if p % 2 = 1 then 120 else 45]

/-- ACL 147-175 `_entrytuple_to_text` -/
def entryText (e : Entry) : Bytes := e.who.text ++ permText e.perms

/-- ACL 68-80 `__str__` -/
def Acl.text (a : Acl) : Bytes :=
  if a.entries = [] then [] else joinNl (a.entries.map entryText ++ a.defaults.map fun e => lit "default:" ++ entryText e)

/-- ACL 104-117 `is_basic`; `none`: AssertionError -/
def Acl.isBasic (a : Acl) : Option Bool :=
  if a.entries = [] ∧ a.defaults = [] then some true
  else if 3 ≤ a.entries.length then some (a.entries.length = 3 && a.defaults = []) else none

/-- ACL 184-191: number and name of a qualifier; `int`: Python's `int`, `none` is a ValueError -/
def idOrName (int : Bytes → Option Int) (q : Bytes) : Option Int × Option Bytes :=
  match int q with
  | some i => (some i, none)
  | none => (none, some q)

/-- ACL 182-217: type and qualifier; `none`: ValueError -/
def whoOf (int : Bytes → Option Int) (type q : Bytes) : Option Who :=
  if q ≠ [] then
    if type = lit "user" then some (.user (idOrName int q).1 (idOrName int q).2)
    else if type = lit "group" then some (.group (idOrName int q).1 (idOrName int q).2)
    else none
  else if type = lit "user" then some .owner
  else if type = lit "group" then some .owningGroup
  else if type = lit "mask" then some .mask
  else if type = lit "other" then some .other
  else none

/-- ACL 219-225, 58: `_perm_re.fullmatch`, and the bits; `none`: ValueError -/
def permOf : Bytes → Option Nat
  | [r, w, x] =>
    if (r = 114 ∨ r = 45) ∧ (w = 119 ∨ w = 45) ∧ (x = 120 ∨ x = 45) then
      some ((if r = 114 then 4 else 0) + (if w = 119 then 2 else 0) + (if x = 120 then 1 else 0))
    else none
  | _ => none

/-- ACL 177-226 `_text_to_entrytuple` -/
def entryOf (int : Bytes → Option Int) (text : Bytes) : Option Entry :=
  match splitOn 58 text with
  | [type, q, p] =>
    match whoOf int type q, permOf p with
    | some w, some p => some ⟨w, p⟩
    | _, _ => none
  | _ => none

/-- `str.strip()` (ACL 137), ASCII whitespace only -/
def isStrSpace (c : UInt8) : Bool := AclQuote.isSpace c || (28 ≤ c.toNat && c.toNat ≤ 31)

/-- `str.strip()` (ACL 137) -/
def strStrip (s : Bytes) : Bytes := ((s.dropWhile isStrSpace).reverse.dropWhile isStrSpace).reverse

/-- ACL 132-145: a line; `none`: ValueError -/
def aclReadLine (int : Bytes → Option Int) (st : List Entry × List Entry) (line : Bytes) : Option (List Entry × List Entry) :=
  let l := strStrip (line.takeWhile (· != 35))
  if l = [] then some st
  else if (lit "default:").isPrefixOf l then (entryOf int (l.drop 8)).map fun e => (st.1, st.2 ++ [e])
  else (entryOf int l).map fun e => (st.1 ++ [e], st.2)

/-- ACL 301-307 `_object_to_record` -/
def aclToRecord (a : Acl) : Bytes := lit "# file: " ++ AclQuote.quote (indexPath a.index) ++ [nl] ++ a.text ++ [nl]

/-- ACL 272-285 `ACLExtractor._record_to_object`, 130-145 `_set_from_text`. (A record without newline, which `_iterate_records` never
yields, is an error here; the code cuts its last byte.) -/
def aclOfRecord (int : Bytes → Option Int) (record : Bytes) : Option Acl :=
  if nl ∉ record then none
  else
    let first := record.takeWhile (· != nl)
    if !(lit "# file: ").isPrefixOf first then none
    else ((splitOn nl (record.drop first.length)).foldlM (aclReadLine int) ([], [])).map fun st => ⟨aclIndex (first.drop 8), st.1, st.2⟩

/-- ACL 319-330 `write_object` for all paths: those which need no access control list are left out; `none`: AssertionError -/
def aclsToWrite : List Acl → Option (List Acl)
  | [] => some []
  | a :: r =>
    match a.isBasic, aclsToWrite r with
    | some true, some l => some l
    | some false, some l => some (a :: l)
    | _, _ => none

/-- the file `access_control_lists` -/
def aclFile (max : Nat) (acls : List Acl) : Option Bytes := (aclsToWrite acls).bind (writeObjects max fun a => some (aclToRecord a))

/-- ACL 240-252: whether number and name agree -/
def samePair (id1 : Option Int) (name1 : Option Bytes) (id2 : Option Int) (name2 : Option Bytes) : Bool :=
  if id1 = id2 ∧ name1 = name2 then true
  else
    match name1 with
    | some (c :: n) => name2 = some (c :: n)
    | _ =>
      match name2 with
      | some (_ :: _) => false
      | _ => id1 = id2

/-- ACL 234-252: one pair of entries -/
def sameEntry (a b : Entry) : Bool :=
  a.perms = b.perms &&
  match a.who, b.who with
  | .user i n, .user j m => samePair i n j m
  | .group i n, .group j m => samePair i n j m
  | .owner, .owner | .owningGroup, .owningGroup | .mask, .mask | .other, .other => true
  | _, _ => false

/-- ACL 228-253 `_cmp_entry_list` -/
def sameEntries : List Entry → List Entry → Bool
  | [], [] => true
  | a :: l, b :: m => sameEntry a b && sameEntries l m
  | _, _ => false

/-- ACL 82-96 `__eq__`; `none`: AssertionError -/
def Acl.eqv (a b : Acl) : Option Bool :=
  match a.isBasic with
  | none => none
  | some true => b.isBasic
  | some false => some (sameEntries a.entries b.entries && sameEntries a.defaults b.defaults)

/-- an entry of the access control list of a file: type, number of user or group, permissions (posix1e.Entry) -/
inductive PWho
  | owner | user (id : Int) | owningGroup | group (id : Int) | mask | other
  deriving DecidableEq

/-- posix1e.Entry -/
structure PEntry where
  who : PWho
  perms : Nat
  deriving DecidableEq

/-- the user and group databases: `usrgrp.uid2uname`, `usrgrp.gid2gname`, `usrgrp.uname2uid`, `usrgrp.gname2gid` -/
structure System where
  uname : Int → Option Bytes
  gname : Int → Option Bytes
  uid : Bytes → Option Int
  gid : Bytes → Option Int

/-- ACL 450-466 `entry_to_tuple` -/
def entryOfFile (sys : System) (e : PEntry) : Entry :=
  ⟨match e.who with
    | .owner => .owner
    | .user i => .user (some i) (sys.uname i)
    | .owningGroup => .owningGroup
    | .group i => .group (some i) (sys.gname i)
    | .mask => .mask
    | .other => .other, e.perms⟩

/-- map/owners.py 91-102 `_Map.map_acl`: what `map_acl_user` and `map_acl_group` do by default (the other maps: C29) -/
def mapAcl (name2id : Bytes → Option Int) (id : Option Int) (name : Option Bytes) : Option Int :=
  match name with
  | some (c :: n) => name2id (c :: n)
  | _ => id

/-- ACL 518-549: one entry; `none`: dropped -/
def entryToFile (sys : System) (e : Entry) : Option PEntry :=
  (match e.who with
    | .owner => some .owner
    | .user id name => (mapAcl sys.uid id name).map .user
    | .owningGroup => some .owningGroup
    | .group id name => (mapAcl sys.gid id name).map .group
    | .mask => some .mask
    | .other => some .other : Option PWho).map fun w => ⟨w, e.perms⟩

/-- ACL 469-550 `_list_to_acl` (with map_names; without `--never-drop-acls`) -/
def listToAcl (sys : System) (l : List Entry) : List PEntry := l.filterMap (entryToFile sys)

/-! ### joining -/

/-- EA 275-285, ACL 309-317 `join_iter`: `none`: AssertionError -/
def joinIter {K R O : Type} [LinearOrder K] (ridx : R → K) (oidx : O → K) (blank : K → O) (rs : List R) (os : List O) :
    Option (List (R × O)) :=
  (collate2 ridx oidx rs os).mapM fun
    | (some r, some o) => some (r, o)
    | (some r, none) => some (r, blank (ridx r))
    | (none, _) => none

end Verif.Attrs
