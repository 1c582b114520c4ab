import Verif.Model.MetaRecord
/-
Model of what decides whether attributes (extended attributes, access control lists) are backed up and restored: the abilities of the
file systems, the options, the connections.
`src/rdiffbackup/locations/fs_abilities.py` 785-847 (`SetGlobals`), 973-983, 1158-1174, 1243-1252 (`_update_triple`), and what depends on it:
`src/rdiff_backup/rpath.py` 86-100, 131-170 (comparing), 471-488, 1227-1249 (`get_acl`, `get_ea`), 1578-1582, 1802-1805;
`src/rdiffbackup/meta_mgr.py` 71-101, 185-206 (which metadata files are read and written),
`src/rdiffbackup/locations/_repo_shadow.py` 566-594 (what is taken for changed), 2421-2451 (whose metadata is written), 956-980 (restore).

One kind of attributes, of a type `V` of values (`blank`: none), and one path: each kind and each path is dealt with on its own. All that is
compared besides is of a type `O`. The outcomes of the detection (`True`, `False`, `None`) and of options (`None`: an action hasn't got the
option) only matter as conditions: `Bool`. Updates which fail are not modelled here (see Repo.lean, C04).
-/
namespace Verif.Settings

/-- one side: its connection, and whether its file system supports the attributes -/
structure Side (Conn : Type) where
  conn : Conn
  support : Bool

/-- the settings: `*_active` and `*_write` of generics, `*_conn` of the specifics of each connection -/
structure Globals (Conn : Type) where
  active : Bool
  write : Bool
  conn : Conn → Bool

section
variable {Conn : Type} [DecidableEq Conn]

/-- `conn.specifics.set(conn_attr, value)` -/
def setConn (g : Globals Conn) (c : Conn) (v : Bool) : Globals Conn := { g with conn := fun d => if d = c then v else g.conn d }

/-- the initial values (generics.py 44-50, specifics.py 78-79) -/
def initial : Globals Conn := ⟨false, false, fun _ => false⟩

/-- FA 973-983 `Dir2RepoSetGlobals._update_triple`: backup -/
def dir2repo (src repo : Side Conn) (toggle : Bool) : Globals Conn :=
  let g : Globals Conn := { (initial : Globals Conn) with active := src.support && toggle }
  let g := setConn g src.conn (src.support && toggle)
  let g := { g with write := repo.support && toggle }
  setConn g repo.conn (repo.support && toggle)

/-- FA 1158-1174 `Repo2DirSetGlobals._update_triple`: restore -/
def repo2dir (repo target : Side Conn) (toggle : Bool) : Globals Conn :=
  let g : Globals Conn := { (initial : Globals Conn) with active := target.support && toggle, write := target.support && toggle }
  let g := setConn g target.conn (target.support && toggle)
  setConn g repo.conn (repo.support && toggle)

/-- FA 1243-1252 `SingleRepoSetGlobals._update_triple`: all other actions. None of them has the options of FILESYSTEM_PARSER
(actions/__init__.py 238-277; only backup.py 43 and restore.py 42 have it), so that `toggle` is `None`. -/
def singleRepo (repo : Side Conn) (toggle : Bool) : Globals Conn :=
  setConn { (initial : Globals Conn) with active := repo.support && toggle, write := repo.support && toggle } repo.conn (repo.support && toggle)

/-- FA 810-821 `set_acls`: a session with --never-drop-acls goes on -/
def neverDropOk (neverDrop : Bool) (g : Globals Conn) : Bool := !(neverDrop && !g.active)

variable {V O : Type} [DecidableEq V] [DecidableEq O]

/-- a path as it is passed around: what is always there, and the attributes if they are in the data dictionary -/
structure Rorp (O V : Type) where
  other : O
  attr : Option V
  deriving DecidableEq

/-- a path on a file system -/
structure File (O V : Type) where
  other : O
  attr : V
  deriving DecidableEq

/-- rpath.py 1802-1805 `_add_rpath_metadata`: the data of a path read on the connection `c`; a file system without support gives `blank`
(ea.py 88-91, acl_posix.py 381-383: EOPNOTSUPP) -/
def readPath (blank : V) (g : Globals Conn) (s : Side Conn) (f : File O V) : Rorp O V :=
  ⟨f.other, if g.conn s.conn then some (if s.support then f.attr else blank) else none⟩

/-- rpath.py 131-170 `__eq__`, 86-100 `_global_ignored_keys`: every key of the first one must be in the other one -/
def sameRorp (g : Globals Conn) (a b : Rorp O V) : Bool :=
  a.other == b.other && (!g.write || a.attr.isNone || a.attr == b.attr)

/-- what a backup has recorded of the path: `mirror_metadata`, and the file for the attributes (`none`: there is no such file; inside:
the record of this path, if it has one) -/
structure Recorded (O V : Type) where
  main : Option O
  file : Option (Option V)
  deriving DecidableEq

/-- nothing there yet -/
def Recorded.none : Recorded O V := ⟨.none, .none⟩

/-- meta_mgr.py 71-101 `get_metas_at_time`, ea.py 275-285 `join_iter`: blank ones for paths without record, or if there is no file -/
def readMeta (blank : V) (g : Globals Conn) (r : Recorded O V) : Option (Rorp O V) :=
  r.main.map fun o => ⟨o, if g.active then some ((r.file.getD .none).getD blank) else none⟩

/-- RS 566-594 `_sigs_iterator`: is the path taken for changed? -/
def changed (g : Globals Conn) (src dest : Option (Rorp O V)) : Bool :=
  match src, dest with
  | some s, some d => !sameRorp g s d
  | none, none => false
  | _, _ => true

/-- rpath.py 483-488 and 1244-1249 `get_ea`, 471-477 and 1227-1233 `get_acl`: what isn't in the dictionary is read from the file if the path
is one on this file system (a local source), else it's blank. (`here`: the file and its file system, if local) -/
def getAttr (blank : V) (r : Rorp O V) (here : Option (Side Conn × File O V)) : V :=
  match r.attr with
  | some v => v
  | none =>
    match here with
    | some (s, f) => if s.support then f.attr else blank
    | none => blank

/-- one backup of the path: RS 2421-2451 `_post_process` writes the metadata of the source if the path was changed, else the one which was
recorded (EA 287-298: a blank one has no record; meta_mgr.py 188-206: nothing is written for attributes which aren't active) -/
def backup (blank : V) (src repo : Side Conn) (toggle : Bool) (st : Recorded O V) (f : Option (File O V)) : Recorded O V :=
  let g := dir2repo src repo toggle
  let s := f.map (readPath blank g src)
  let d := readMeta blank g st
  let obj : Option (O × V) :=
    if changed g s d then
      s.map fun r => (r.other, getAttr blank r (if src.conn = repo.conn then f.map (src, ·) else none))
    else d.map fun r => (r.other, getAttr (Conn := Conn) blank r none)
  ⟨obj.map (·.1), if g.active then some (match obj with
    | some (_, v) => if v = blank then none else some v
    | none => none) else none⟩

/-- a session of a history: its sides, the option and the path on the source -/
structure Session (Conn O V : Type) where
  src : Side Conn
  repo : Side Conn
  toggle : Bool
  file : Option (File O V)

/-- the backups of a history, one after the other -/
def run (blank : V) (h : List (Session Conn O V)) : Recorded O V :=
  h.foldl (fun st s => backup blank s.src s.repo s.toggle st s.file) Recorded.none

/-- rpath.py 1578-1582 `copy_attribs`: the attributes of the path which is written; a new file has none -/
def writtenAttr (blank : V) (g : Globals Conn) (r : Rorp O V) : V :=
  if g.write then getAttr (Conn := Conn) blank r none else blank

/-- RS 956-980: a restore of the path over what is there, `old`; the file which is there afterwards -/
def restore (blank : V) (repo target : Side Conn) (toggle : Bool) (st : Recorded O V) (old : Option (File O V)) : Option (File O V) :=
  let g := repo2dir repo target toggle
  match readMeta blank g st with
  | none => none
  | some m =>
    match old with
    | none => some ⟨m.other, writtenAttr blank g m⟩
    | some f => if sameRorp g m (readPath blank g target f) then some f else some ⟨m.other, writtenAttr blank g m⟩

/-- DS 170-182, 238-279: does `compare` report the path as changed? (compare.py 103 sets the repository up as for a backup, but 41: it has
no options of FILESYSTEM_PARSER, `toggle` is `None`) -/
def compareReports (blank : V) (src repo : Side Conn) (st : Recorded O V) (f : Option (File O V)) : Bool :=
  let g := dir2repo src repo false
  changed g (f.map (readPath blank g src)) (readMeta blank g st)

end

/-! ### hard links -/

/-- FA 847-851 `set_hardlinks`: `dest`: of the file system; `option`: --hard-links, `None` where the action hasn't got it -/
def preserveHardlinks (dest : Bool) (option : Option Bool) : Bool := dest && option.getD false

/-- meta_mgr.py 115-150 `recreate_attr`: the metadata `rs` of the time to which the repository is regressed, put together from snapshot and
differences, is written as a new snapshot -/
def recreateAttr (preserve : Bool) (max : Nat) (rs : List MetaRecord.Rorp) : Option Bytes :=
  FlatFile.writeObjects max (MetaRecord.objectToRecord preserve) rs

end Verif.Settings
