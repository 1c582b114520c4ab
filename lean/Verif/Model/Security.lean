import Verif.Model.Glob
import Verif.Model.Quoting
/-
What a server answers: `src/rdiff_backup/Security.py`, called for each request by `src/rdiff_backup/connection.py` 549-568 `_answer_request`.
Paths are bytes; 47 is the slash, 46 the dot. POSIX only (`os.path.altsep` is `None`).
-/
namespace Verif.Security
open Verif.Quoting Verif.Glob

/-- Security.py 33-39 `_security_level`; `override` is set by tests only (rdiffbackup/run.py 100-104). -/
inductive Level
  | override | minimal | readOnly | updateOnly | readWrite
  deriving DecidableEq, Repr

/-- actions/*.py `security`; `none` is for the actions without one (`complete`, `info`). -/
inductive Class
  | none | server | backup | restore | validate
  deriving DecidableEq, Repr

/-- An argument of a request, as `connection.py` 340-420 has made it from what came through the pipe: a path on a connection, which is or is not the local
one of the server, or bytes, or a string, or anything else (numbers, dictionaries, iterators, paths without base, ...). -/
inductive Arg
  | rpath (isLocal : Bool) (base : Bytes) (index : List Bytes)
  | bytes (b : Bytes)
  | str (s : String)
  | other
  deriving DecidableEq

/-- connection.py `ConnectionRequest` with its arguments -/
structure Request where
  fn : String
  args : List Arg
  deriving DecidableEq

/-- The variables of Security.py 39-48, and `RepoShadow._base_dir` (local only; without the paths of other connections).  `restrict` is `_restrict_path`,
of which `_restrict_path_list` is the split. -/
structure Server where
  level : Level
  cls : Class
  restrict : Option Bytes
  base : Option (Bytes × List Bytes)
  deriving DecidableEq

/-- one step of `os.path.join` -/
def joinOne (a b : Bytes) : Bytes :=
  if b.head? = some 47 then b else if a = [] || a.getLast? = some 47 then a ++ b else a ++ 47 :: b

/-- rpath.py 103-122 `path_join` -/
def pathJoin (a : Bytes) (bs : List Bytes) : Bytes := bs.foldl joinOne a

/-- `bytes.isalnum` for one byte -/
def isAlnum (c : UInt8) : Bool := 48 ≤ c && c ≤ 57 || 65 ≤ c && c ≤ 90 || 97 ≤ c && c ≤ 122

/-- rpath.py 996-998: the components that stay -/
def kept (p : Bytes) : List Bytes := (split p).filter fun x => x ≠ [] && x ≠ [46]

/-- rpath.py 1001-1003: two slashes and a letter or digit -/
def isUnc (p : Bytes) : Bool := (p.drop 1).head? = some 47 && (p.drop 2).head?.any isAlnum

/-- rpath.py 990-1007 `normalize` -/
def normalize (p : Bytes) : Bytes :=
  if p.head? = some 47 then (if isUnc p then 47 :: 47 :: pathJoin [] (kept p) else 47 :: pathJoin [] (kept p))
  else if pathJoin [] (kept p) = [] then [46] else pathJoin [] (kept p)

/-- Security.py 325-350 `_vet_rpath` for a local path; `r` is the restriction. -/
def vetPath (r p : Bytes) : Bool :=
  let components := split (normalize p)
  if [46, 46] ∈ components then false
  else if r = [47] then true
  else components.take (split r).length = split r

/-- Security.py 113-116: one of the arguments -/
def vetArg (r : Bytes) : Arg → Bool
  | .rpath isLocal base index => if isLocal then vetPath r (pathJoin base index) else true
  | _ => true

/-- Security.py 60-65 `_file_requests`; the position is always 0 -/
def fileRequests : List String :=
  ["rpath.make_file_dict", "_repo_shadow.RepoShadow.init", "_dir_shadow.ReadDirShadow.init", "_dir_shadow.WriteDirShadow.init"]

/-- Security.py 68-71 `_globals_requests` -/
def globalsRequests : List String := ["generics.set_local", "specifics.set"]

/-- `os.fsencode` of a file name, for what is `bytes`, `str` or `os.PathLike` (strings in UTF-8; surrogate escapes are not modelled) -/
def fileName : Arg → Option Bytes
  | .rpath _ base index => some (pathJoin base index)
  | .bytes b => some b
  | .str s => some s.toUTF8.toList
  | .other => none

/-- Security.py 311-322 `_vet_filename` -/
def vetFilename (r : Bytes) (args : List Arg) : Bool :=
  match args with
  | [] => false
  | a :: _ => match fileName a with | none => false | some p => vetPath r p

/-- Security.py 196-218 -/
def minimalRequests : List String :=
  ["RedirectedRun", "VirtualFile.readfromid", "VirtualFile.closebyid", "specifics.get", "log.Log.log_to_file", "robust.install_signal_handlers",
   "SetConnections.add_redirected_conn", "_repo_shadow.RepoShadow.init", "_repo_shadow.RepoShadow.check", "_repo_shadow.RepoShadow.setup",
   "_repo_shadow.RepoShadow.setup_finish", "_repo_shadow.RepoShadow.exit", "log.Log.open_logfile_local", "log.Log.close_logfile_local",
   "log.ErrorLog.open_logfile_local", "log.ErrorLog.close_logfile_local", "log.ErrorLog.log_to_file"]

/-- Security.py 219-234 -/
def commonRequests : List String :=
  ["rpath.get_rpath_data", "_repo_shadow.RepoShadow.get_config", "_repo_shadow.RepoShadow.get_mirror_time", "_repo_shadow.RepoShadow.needs_regress",
   "_repo_shadow.RepoShadow.get_fs_abilities"]

/-- Security.py 235-263 -/
def readRequests : List String :=
  ["_dir_shadow.ReadDirShadow.compare_full", "_dir_shadow.ReadDirShadow.compare_hash", "_dir_shadow.ReadDirShadow.compare_meta",
   "_dir_shadow.ReadDirShadow.get_diffs", "_dir_shadow.ReadDirShadow.get_fs_abilities", "_dir_shadow.ReadDirShadow.get_select",
   "_dir_shadow.ReadDirShadow.set_select", "_repo_shadow.RepoShadow.init_loop", "_repo_shadow.RepoShadow.get_increment_times",
   "_repo_shadow.RepoShadow.set_select", "_repo_shadow.RepoShadow.finish_loop", "_repo_shadow.RepoShadow.get_diffs",
   "_repo_shadow.RepoShadow.list_files_changed_since", "_repo_shadow.RepoShadow.list_files_at_time", "_repo_shadow.RepoShadow.init_and_get_loop",
   "_repo_shadow.RepoShadow.verify", "_dir_shadow.ReadDirShadow.init", "_dir_shadow.ReadDirShadow.check", "_dir_shadow.ReadDirShadow.setup",
   "_repo_shadow.RepoShadow.get_increments", "_repo_shadow.RepoShadow.get_increments_sizes", "_repo_shadow.RepoShadow.get_parsed_time"]

/-- Security.py 264-278 -/
def updateRequests : List String :=
  ["VirtualFile.writetoid", "_repo_shadow.RepoShadow.close_statistics", "_repo_shadow.RepoShadow.get_sigs", "_repo_shadow.RepoShadow.apply",
   "_repo_shadow.RepoShadow.remove_current_mirror", "_repo_shadow.RepoShadow.set_config", "_repo_shadow.RepoShadow.touch_current_mirror",
   "sstats.SessionsStats.add_error_local"]

/-- Security.py 279-296 -/
def writeRequests : List String :=
  ["_repo_shadow.RepoShadow.regress", "_repo_shadow.RepoShadow.remove_increments_older_than", "_dir_shadow.WriteDirShadow.get_fs_abilities",
   "_dir_shadow.WriteDirShadow.get_sigs_select", "_dir_shadow.WriteDirShadow.apply", "_dir_shadow.WriteDirShadow.set_select",
   "_dir_shadow.WriteDirShadow.init", "_dir_shadow.WriteDirShadow.check", "_dir_shadow.WriteDirShadow.setup",
   "_repo_shadow.RepoShadow.force_regress", "_repo_shadow.RepoShadow.remove_file"]

/-- Security.py 297-307 -/
def serverRequests : List String :=
  ["SetConnections.init_connection_remote", "specifics.set_api_version", "log.Log.set_verbosity", "log.Log.set_parsable"]

/-- Security.py 192-308 `_set_allowed_requests` -/
def allowed (cls : Class) (level : Level) : List String :=
  minimalRequests ++
  (if level = .readOnly ∨ level = .updateOnly ∨ level = .readWrite then commonRequests else []) ++
  (if level = .readOnly ∨ level = .readWrite then readRequests else []) ++
  (if level = .updateOnly ∨ level = .readWrite then updateRequests else []) ++
  (if level = .readWrite then writeRequests else []) ++
  (if cls = .server then serverRequests else [])

/-- Security.py 121-123: not one of the `_disallowed_server_globals`; without argument an IndexError -/
def globalOk (args : List Arg) : Bool :=
  match args with
  | [] => false
  | a :: _ => a ≠ .str "server"

/-- Security.py 109-124 `vet_request`: is the request executed? (Every exception, a Violation or another one, keeps it from being executed:
connection.py 560-568.) -/
def vetRequest (s : Server) (rq : Request) : Bool :=
  if s.level = .override then true
  else
    (match s.restrict with
      | none => true
      | some r => rq.args.all (vetArg r) && (if rq.fn ∈ fileRequests then vetFilename r rq.args else true)) &&
    (rq.fn ∈ allowed s.cls s.level || rq.fn ∈ globalsRequests && globalOk rq.args)

/-- Security.py 127-189 `_set_security_level`; `pairs` are the locations: is there a command (then it is remote), and the path. `tmp` is
`tempfile.gettempdirb()`. `none`: an exception. -/
def setSecurityLevel (cls : Class) (level : Level) (restrict : Option Bytes) (pairs : List (Bool × Bytes)) (tmp : Bytes) : Option (Level × Option Bytes) :=
  match cls with
  | .none | .server => some (level, restrict)
  | .backup =>
    match pairs with
    | [] => none
    | cp1 :: rest =>
      let cp2 := rest.headD cp1
      if cp1.1 = cp2.1 then some (.minimal, some tmp)
      else if !cp1.1 then some (.readOnly, some cp1.2)
      else some (.updateOnly, some cp2.2)
  | .restore =>
    match pairs with
    | [] => none
    | cp1 :: rest =>
      let cp2 := rest.headD cp1
      if rest = [] ∨ cp1.1 = cp2.1 then some (.minimal, some tmp)
      else if !cp1.1 then some (.readOnly, some cp1.2)
      else some (.readWrite, some cp2.2)
  | .validate => if pairs = [] then none else some (.minimal, some tmp)

/-- Security.py 74-90 `initialize` (a keyword in Lean): an empty restriction is none -/
def start (cls : Class) (pairs : List (Bool × Bytes)) (level : Level) (restrict : Option Bytes) (tmp : Bytes) : Option Server :=
  (setSecurityLevel cls level restrict pairs tmp).map fun x =>
    { level := x.1, cls := cls, base := none,
      restrict := match x.2 with | none => none | some r => if r = [] then none else some (normalize r) }

/-- rpath.py 1011-1027 `dirsplit`, the directory -/
def dirname (p : Bytes) : Bytes :=
  if 47 ∈ normalize p then join (split (normalize p)).dropLast else [46]

/-- rpath.py 1029-1037 `get_parent_rp` -/
def parentRp (rp : Bytes × List Bytes) : Bytes × List Bytes :=
  if rp.2 ≠ [] then (rp.1, rp.2.dropLast)
  else if dirname (pathJoin rp.1 rp.2) ≠ [] then (dirname (pathJoin rp.1 rp.2), [])
  else ([47], [])

/-- What the search for the base directory asks the file system: is this a directory with `rdiff-backup-data` in it? And does the name look like an increment
file (increment.py `isincfile`)? -/
structure World where
  isRepo : Bytes → Bool
  isInc : Bytes → Bool

/-- `b"rdiff-backup-data"` -/
def dataName : Bytes := [114, 100, 105, 102, 102, 45, 98, 97, 99, 107, 117, 112, 45, 100, 97, 116, 97]

/-- _repo_shadow.py 508-516: the parents, `n` of them -/
def searchUp (w : World) : Nat → Bytes × List Bytes → Option (Bytes × List Bytes)
  | 0, _ => none
  | n + 1, rp => if w.isRepo (pathJoin (parentRp rp).1 (parentRp rp).2) then some (parentRp rp) else searchUp w n (parentRp rp)

/-- _repo_shadow.py 447-522 `_get_repository_dirs`, the base directory. (In line 486 the increment must be directly in `rdiff-backup-data/increments`; what else
is like an increment gives no repository, and the result does not matter; here the directory above the data directory is also given then.) -/
def repositoryDir (w : World) (rp : Bytes × List Bytes) : Bytes × List Bytes :=
  let list := split (pathJoin rp.1 rp.2)
  if w.isInc (pathJoin rp.1 rp.2) then
    if dataName ∈ list then (join (list.take (list.idxOf dataName)), []) else rp
  else if w.isRepo (pathJoin rp.1 rp.2) then rp
  else (searchUp w (list.length - 1) rp).getD rp

/-- What the execution of a request does to the variables that the next requests are vetted with. `RepoShadow.init` (_repo_shadow.py 93-146) sets `_base_dir`,
with the search if `can_be_sub_path`, and `RepoShadow.setup` (150-159) calls `Security.reset_restrict_path` with it (Security.py 93-106), unless it fails before.
What the other requests do is not modelled. -/
inductive Effect (w : World) (s : Server) (rq : Request) : Server → Prop
  | same : Effect w s rq s
  | init (isLocal : Bool) (b : Bytes) (i : List Bytes) (rest : List Arg) : rq.fn = "_repo_shadow.RepoShadow.init" → rq.args = .rpath isLocal b i :: rest →
      Effect w s rq { s with base := if isLocal then some (b, i) else none }
  | initSub (isLocal : Bool) (b : Bytes) (i : List Bytes) (rest : List Arg) : rq.fn = "_repo_shadow.RepoShadow.init" → rq.args = .rpath isLocal b i :: rest →
      Effect w s rq { s with base := if isLocal then some (repositoryDir w (b, i)) else none }
  | setup (b : Bytes) (i : List Bytes) : rq.fn = "_repo_shadow.RepoShadow.setup" → s.base = some (b, i) →
      Effect w s rq { s with restrict := some (normalize (pathJoin b i)) }

/-- connection.py 549-572: a request comes in and is executed (`true`), or not. -/
inductive Answer (w : World) (s : Server) (rq : Request) : Bool → Server → Prop
  | refused : vetRequest s rq = false → Answer w s rq false s
  | executed {s' : Server} : vetRequest s rq = true → Effect w s rq s' → Answer w s rq true s'

/-- What happened: the file system at the time of the request (it may change between requests), the request, and whether it was executed. -/
structure Event where
  world : World
  request : Request
  executed : Bool

/-- Requests come in one after the other. -/
inductive Run : Server → List Event → Server → Prop
  | nil {s : Server} : Run s [] s
  | cons {s s' s'' : Server} {e : Event} {es : List Event} : Answer e.world s e.request e.executed s' → Run s' es s'' → Run s (e :: es) s''

end Verif.Security
