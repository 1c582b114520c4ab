/-
Model of `src/rdiffbackup/locations/map/owners.py` and `src/rdiffbackup/utils/usrgrp.py`.

Users and groups are treated alike (`is_user` only selects the database), so there is one database here. Names are lists of characters, ids are
integers. Python's `int(str)` (`none`: ValueError) and `str.strip` are parameters.
-/
namespace Verif.Owners

/-- Python's `str` -/
abbrev Str := List Char

/-- the system's database (/etc/passwd, /etc/group): names and ids in order -/
abbrev Db := List (Str × Int)

/-- `pwd.getpwnam(name).pw_uid`, `none`: KeyError -/
def getpwnam (db : Db) (name : Str) : Option Int := (db.find? fun e => e.1 = name).map (·.2)
/-- `pwd.getpwuid(uid).pw_name`, `none`: KeyError -/
def getpwuid (db : Db) (id : Int) : Option Str := (db.find? fun e => e.2 = id).map (·.1)

/-- usrgrp.py 36-41: `_uid2uname` and `_uname2uid`: `none`: not in the dictionary -/
structure Cache where
  uid2uname : Int → Option (Option Str)
  uname2uid : Str → Option (Option Int)

/-- usrgrp.py 30-44: the dictionaries are empty at the start -/
def Cache.empty : Cache := ⟨fun _ => none, fun _ => none⟩

/-- usrgrp.py 44-60 `uid2uname` (`gid2gname` 63-79); not Windows -/
def uid2uname (db : Db) (c : Cache) (id : Int) : Option Str × Cache :=
  match c.uid2uname id with
  | some r => (r, c)
  | none =>
    match getpwuid db id with
    | some name => (some name, ⟨fun i => if i = id then some (some name) else c.uid2uname i, fun n => if n = name then some (some id) else c.uname2uid n⟩)
    | none => (none, { c with uid2uname := fun i => if i = id then some none else c.uid2uname i })

/-- usrgrp.py 82-98 `uname2uid` (`gname2gid` 101-117); not Windows -/
def uname2uid (db : Db) (c : Cache) (name : Str) : Option Int × Cache :=
  match c.uname2uid name with
  | some r => (r, c)
  | none =>
    match getpwnam db name with
    | some id => (some id, ⟨fun i => if i = id then some (some name) else c.uid2uname i, fun n => if n = name then some (some id) else c.uname2uid n⟩)
    | none => (none, { c with uname2uid := fun n => if n = name then some none else c.uname2uid n })

/-- owners.py 124-126: the dictionaries of a `_DefinedMap` -/
structure Defined where
  names : Str → Option (Option Int)
  ids : Int → Option (Option Int)

/-- `str.split(c)` -/
def split (c : Char) : Str → List Str
  | [] => [[]]
  | x :: xs => if x = c then [] :: split c xs else match split c xs with
    | [] => [[x]]
    | y :: ys => (x :: y) :: ys

variable (int : Str → Option Int) (strip : Str → Str)

/-- owners.py 168-180 `_get_new_id`: `name2id` doesn't raise KeyError -/
def newId (name2id : Str → Option Int) (s : Str) : Option Int :=
  match int s with
  | some n => some n
  | none => name2id s

/-- owners.py 130-146: a line of the mapping; `none`: fatal error -/
def addLine (name2id : Str → Option Int) (m : Defined) (line : Str) : Option Defined :=
  if strip line = [] then some m
  else
    match split ':' (strip line) with
    | [old, new] =>
      match int old with
      | some n => some { m with ids := fun i => if i = n then some (newId int name2id new) else m.ids i }
      | none => some { m with names := fun s => if s = old then some (newId int name2id new) else m.names s }
    | _ => none

/-- owners.py 112-141 `_DefinedMap.__init__`; a mapping given as a string is split into lines first (128-129) -/
def define (name2id : Str → Option Int) (lines : List Str) : Option Defined :=
  lines.foldlM (addLine int strip name2id) ⟨fun _ => none, fun _ => none⟩

/-- owners.py 153-166 `_DefinedMap.map_acl`; `name = []` stands for `None` as well -/
def Defined.acl (m : Defined) (name2id : Str → Option Int) (id : Int) (name : Str) : Option Int :=
  let byId := match m.ids id with
    | some r => r
    | none => none
  if name = [] then byId
  else
    match m.names name with
    | some r => r
    | none =>
      match name2id name with
      | some n => some n
      | none => byId

/-- the three classes -/
inductive Map where
  | numerical
  | plain
  | defined (m : Defined)

/-- owners.py 195-223 `init_users_mapping`, `init_groups_mapping`; `mapping`: the content of the file (arguments.py 72-74), split into lines by 128-129;
`none`: fatal error -/
def initMap (name2id : Str → Option Int) (mapping : Option Str) (numericalIds : Bool) : Option Map :=
  if numericalIds then some .numerical
  else
    match mapping with
    | some (x :: xs) => (define int strip name2id (split '\n' (x :: xs))).map .defined
    | _ => some .plain

/-- a value of the dictionary of the command line arguments -/
inductive Val where
  | flag (b : Bool)
  | text (s : Str)

/-- the values argparse gives for the options `--user-mapping-file` (or `--group-mapping-file`) and `--preserve-numerical-ids`
(actions/__init__.py 354-370): the keys are the names of the options with `-` replaced by `_` -/
def values (mapping : Option Str) (preserve : Bool) : String → Option Val := fun key =>
  if key = "user_mapping_file" then mapping.map .text
  else if key = "preserve_numerical_ids" then some (.flag preserve)
  else none

/-- location.py 193-205 `_init_owners_mapping` -/
def initOwners (name2id : Str → Option Int) (vals : String → Option Val) : Option Map :=
  initMap int strip name2id
    (match vals "user_mapping_file" with
      | some (.text s) => some s
      | _ => none)
    (match vals "preserve_num_ids" with
      | some (.flag b) => b
      | _ => false)

/-- `map_acl`: 96-106, 159-172, 191-192 -/
def Map.acl (m : Map) (name2id : Str → Option Int) (id : Int) (name : Str) : Option Int :=
  match m with
  | .numerical => some id
  | .plain => if name = [] then some id else name2id name
  | .defined m => m.acl name2id id name

/-- `__call__`: 84-94, 148-157, 188-189 -/
def Map.call (m : Map) (name2id : Str → Option Int) (id : Int) (name : Str) : Int :=
  match m with
  | .numerical => id
  | .plain => if name = [] then id else (name2id name).getD id
  | .defined m => (m.acl name2id id name).getD id

end Verif.Owners
