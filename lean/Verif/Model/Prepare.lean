import Verif.Model.FlatFile
/-
Preparation of actions: what is checked, and what is created and deleted before an action starts. `src/rdiffbackup/run.py` 79-138, `locations/location.py` 84-190, `locations/_repo_shadow.py` (RS) 150-195,
297-444, 2059-2107, `locations/_dir_shadow.py` (DS) 313-344, `locations/{directory,repository}.py`, `actions/*.py` (`connect`, `check`, `setup`).

Simplifications: permissions aren't modelled. What is tried after the locking (abilities of the file system, quoting, parsing of times, log files) is one step which may fail; the files which it writes in the data directory, or for
a moment in the target, are left out.
-/
namespace Verif.Prepare
open Verif.Quoting Verif.FlatFile

abbrev Path := List Bytes

/-- what is at a path -/
inductive Obj where
  | dir
  | file (content : Bytes)
  | other
  deriving DecidableEq

/-- the files of a file system; the root is always there -/
abbrev FS := List (Path × Obj)

/-- rpath.py `lstat` -/
def look (fs : FS) (p : Path) : Option Obj := if p = [] then some .dir else (fs.find? fun x => x.1 = p).map (·.2)

/-- rpath.py `isdir` -/
def isDir (fs : FS) (p : Path) : Bool := look fs p = some .dir

/-- rpath.py `listdir` -/
def names (fs : FS) (p : Path) : List Bytes := fs.filterMap fun x => if x.1.dropLast = p then x.1.getLast? else none

/-- What the environment decides. -/
structure Env where
  /-- whether a directory can be made, a file be deleted -/
  mayMkdir : Path → Bool
  mayDelete : Path → Bool
  /-- what can't be deleted with a directory -/
  stays : Path → Bool
  /-- RS 155 the last backup isn't in the past -/
  notPast : FS → Bool
  /-- another process has the lock -/
  locked : Bool
  /-- RS 2080-2084 what is written to the lock file -/
  identifier : Bytes
  /-- the later steps succeed -/
  rest : Bool

/-- command line options -/
structure Opts where
  force : Bool
  createFullPath : Bool

/-- rpath.py 835-841 `mkdir`. `none`: an exception. -/
def mkdir (e : Env) (fs : FS) (p : Path) : Option FS :=
  if look fs p = none ∧ isDir fs p.dropLast ∧ e.mayMkdir p then some (fs ++ [(p, .dir)]) else none

/-- rpath.py 843-849 `makedirs`: the directories of a path, one after the other; together with what had been made when one of them failed -/
def makeAll (e : Env) : FS → List Path → FS × Bool
  | fs, [] => (fs, true)
  | fs, p :: ps =>
    if isDir fs p then makeAll e fs ps
    else match mkdir e fs p with
      | none => (fs, false)
      | some fs => makeAll e fs ps

/-- the path and all directories above it, the upper ones first -/
def above (p : Path) : List Path := (List.range (p.length + 1)).map fun n => p.take n

/-- rpath.py 949-971 `delete` of something else than a directory -/
def unlink (e : Env) (fs : FS) (p : Path) : Option FS := if e.mayDelete p then some (fs.filter fun x => x.1 ≠ p) else none

/-- rpath.py 949-971 `delete` of a directory: what remains, and whether all could be deleted -/
def rmtree (e : Env) (fs : FS) (p : Path) : FS × Bool :=
  (fs.filter fun x => !decide (p <+: x.1) || e.stays x.1, !fs.any fun x => decide (p <+: x.1) && e.stays x.1)

/-! ### locations -/

/-- location.py 117-133 `_is_existing` -/
def isExisting (fs : FS) (p : Path) : Bool := (look fs p).isSome && isDir fs p

/-- location.py 135-156 `_is_writable` -/
def isWritable (o : Opts) (fs : FS) (p : Path) : Bool := if (look fs p).isSome && !isDir fs p then o.force else true

/-- location.py 158-188 `_create` -/
def create (e : Env) (o : Opts) (fs : FS) (p : Path) : FS × Bool :=
  let fs' := if (look fs p).isSome && !isDir fs p && o.force then unlink e fs p else some fs
  match fs' with
  | none => (fs, false)
  | some fs =>
    if (look fs p).isNone then
      if o.createFullPath then makeAll e fs (above p)
      else match mkdir e fs p with
        | none => (fs, false)
        | some fs => (fs, true)
    else (fs, true)

/-- DS 314-335 `check` of the target of a restore: an error? -/
def writeDirCheck (o : Opts) (fs : FS) (p : Path) : Bool := isWritable o fs p && (if isDir fs p && names fs p ≠ [] then o.force else true)

/-- RS 116-118: the parts of a repository -/
def dataDir (p : Path) : Path := p ++ [lit "rdiff-backup-data"]
def incsDir (p : Path) : Path := dataDir p ++ [lit "increments"]
def lockFile (p : Path) : Path := dataDir p ++ [lit "lock.yml"]

/-- RS 297-317 `_is_existing` -/
def repoIsExisting (fs : FS) (p : Path) : Bool := isExisting fs p && isDir fs (dataDir p)

/-- RS 319-347 `_is_writable` -/
def repoIsWritable (o : Opts) (fs : FS) (p : Path) : Bool :=
  isWritable o fs p && (if isDir fs p && names fs p ≠ [] && (look fs (dataDir p)).isNone then o.force else true)

/-- location.py 84-97 `check` of a repository -/
def repoCheck (o : Opts) (mustExist mustBeWritable : Bool) (fs : FS) (p : Path) : Bool :=
  (!mustExist || repoIsExisting fs p) && (!mustBeWritable || repoIsWritable o fs p)

/-- RS 417-436 `_is_failed_initial_backup`. If there is something else than a directory, listing it raises an exception: `none`. -/
def failedInitial (fs : FS) (p : Path) : Option Bool :=
  match look fs (dataDir p) with
  | none => some false
  | some .dir =>
    let l := names fs (dataDir p)
    some (!l.any (fun n => (lit "current_mirror").isPrefixOf n) && decide ((l.filter fun n => (lit "error_log").isPrefixOf n).length ≤ 1) &&
      decide ((l.filter fun n => (lit "mirror_metadata").isPrefixOf n).length ≤ 1))
  | some _ => none

/-- RS 391-413: make a part of the repository, if it isn't there -/
def ensure (e : Env) (fs : FS) (p : Path) : FS × Bool :=
  if (look fs p).isNone then
    match mkdir e fs p with
    | none => (fs, false)
    | some fs => (fs, true)
  else (fs, true)

/-- RS 349-414 `_create` of a repository; an exception is a failure -/
def repoCreate (e : Env) (o : Opts) (fs : FS) (p : Path) : FS × Bool :=
  match create e o fs p with
  | (fs, false) => (fs, false)
  | (fs, true) =>
    let go : FS → FS × Bool := fun fs =>
      match ensure e fs (dataDir p) with
      | (fs, false) => (fs, false)
      | (fs, true) => ensure e fs (incsDir p)
    match failedInitial fs p with
    | none => (fs, false)
    | some false => go fs
    | some true =>
      if (look fs (lockFile p)).isSome && !o.force then (fs, false)
      else match rmtree e fs (dataDir p) with
        | (fs, false) => (fs, false)
        | (fs, true) => go fs

/-- RS 2059-2107 `_lock`; `none`: there is no lock file -/
def lock (e : Env) (exclusive : Bool) (fs : FS) (p : Path) : FS × Option Bool :=
  if (look fs (lockFile p)).isNone && !exclusive then (fs, none)
  else if e.locked then (fs, some false)
  else if exclusive then ((fs.filter fun x => x.1 ≠ lockFile p) ++ [(lockFile p, .file e.identifier)], some true)
  else (fs, some true)

/-- RS 150-195 `setup`, and repository.py 68-109 -/
def repoSetup (e : Env) (o : Opts) (mustBeWritable checkTime : Bool) (fs : FS) (p : Path) : FS × Bool :=
  match (if mustBeWritable then repoCreate e o fs p else (fs, true)) with
  | (fs, false) => (fs, false)
  | (fs, true) =>
    if checkTime && e.notPast fs then (fs, false)
    else
      let l := lock e mustBeWritable fs p
      if l.2 = some false && !o.force then (l.1, false)
      else (l.1, e.rest)

/-! ### actions -/

/-- the actions, with the paths they are given, after those in repositories have been found (RS 447-522, C63) -/
inductive Action where
  | backup (source repo : Path)
  | restore (repo target : Path)
  | regress (repo : Path)
  | remove (repo : Path)
  | compare (source repo : Path)
  | read (repo : Path)  -- list, verify (calculate prepares nothing)
  deriving DecidableEq

/-- `check` of the actions: actions/backup.py 72-82, restore.py 79-146, regress.py 66-75, remove.py 87-130, compare.py 80-90, list_.py 95-104, verify.py 70-79. `options`: the other checks, of options, succeed. -/
def check (o : Opts) (options : Bool) (fs : FS) : Action → Bool
  | .backup s r => isExisting fs s && repoCheck o false true fs r && options
  | .restore r t => repoCheck o true false fs r && writeDirCheck o fs t && options
  | .regress r => repoCheck o true true fs r && options
  | .remove r => repoCheck o true true fs r && options
  | .compare s r => isExisting fs s && repoCheck o true false fs r && options
  | .read r => repoCheck o true false fs r && options

/-- `setup` of the actions: actions/backup.py 84-105, restore.py 148-185, regress.py 77-88, remove.py 132-143, compare.py 92-113, list_.py 106-124, verify.py 81-96 -/
def setup (e : Env) (o : Opts) (fs : FS) : Action → FS × Bool
  | .backup _ r => repoSetup e o true true fs r
  | .restore r t =>
    match repoSetup e o false false fs r with
    | (fs, false) => (fs, false)
    | (fs, true) => match create e o fs t with
      | (fs, false) => (fs, false)
      | (fs, true) => (fs, e.rest)
  | .regress r => repoSetup e o true false fs r
  | .remove r => repoSetup e o true false fs r
  | .compare _ r => repoSetup e o false false fs r
  | .read r => repoSetup e o false false fs r

/-- run.py 79-138: the steps before `run`; whether `run` is reached -/
def prepare (e : Env) (o : Opts) (options : Bool) (fs : FS) (a : Action) : FS × Bool := if check o options fs a then setup e o fs a else (fs, false)

end Verif.Prepare
