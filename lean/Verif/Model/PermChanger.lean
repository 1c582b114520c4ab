import Mathlib.Data.List.Lex
/-
Access to unreadable files of the mirror during a restore by a user that is not root: `src/rdiffbackup/locations/_repo_shadow.py`
3174-3243 (`_PermissionChanger`), and how `_CachedRF` uses it (2827-2900).
-/
namespace Verif.PermChanger
variable {α : Type} [LinearOrder α]

/-- what RS 3174-3243 asks of a file: `isreg`, `isdir` -/
inductive Kind where
  | reg | dir | other
  deriving DecidableEq, Repr

/-- which permission bits apply to the process -/
inductive Cls where
  | owner | group | other
  deriving DecidableEq, Repr

/-- a file of the repository: type, which permission bits apply to the process, permissions -/
structure File where
  kind : Kind
  cls : Cls
  perms : Nat
  deriving DecidableEq, Repr

/-- rpath.py 921-928 `readable` -/
def readable (f : File) : Bool :=
  match f.cls with
  | .owner => f.perms % 0o1000 ≥ 0o400
  | .group => f.perms % 0o100 ≥ 0o40
  | .other => f.perms % 0o10 ≥ 0o4

/-- rpath.py 930-937 `executable`; also what the kernel asks for before it looks into a directory -/
def executable (f : File) : Bool :=
  match f.cls with
  | .owner => f.perms % 0o200 ≥ 0o100
  | .group => f.perms % 0o20 ≥ 0o10
  | .other => f.perms % 0o2 ≥ 0o1

/-- The files below the mirror's base directory, which itself is taken to be accessible (the class does not look at it). -/
abbrev FS (α : Type) := List α → Option File

/-- `os.lstat`: `none` is an exception (EACCES), `some none` a file which does not exist. The first ancestor that is no directory, or can't be searched, decides. -/
def lstat (fs : FS α) (p : List α) : Option (Option File) :=
  match (List.range' 1 (p.length - 1)).find? (fun k => match fs (p.take k) with
      | some f => !(f.kind = .dir && executable f)
      | none => true) with
  | none => some (fs p)
  | some k =>
    match fs (p.take k) with
    | some f => if f.kind = .dir then none else some none
    | none => some none

/-- the effect of chmod -/
def setPerms (fs : FS α) (p : List α) (perms : Nat) : FS α :=
  fun q => if q = p then (fs p).map fun f => { f with perms := perms } else fs q

/-- rpath.py 741-759 `chmod`: fails if the file can't be reached, does not exist, or is not one's own. (The permission mask, which is
for file systems without the high bits, is left out.) -/
def chmod (fs : FS α) (p : List α) (perms : Nat) : Option (FS α) :=
  match lstat fs p with
  | some (some f) => if f.cls = .owner then some (setPerms fs p perms) else none
  | _ => none

/-- RS 3183-3188; `fs` is the file system -/
structure St (α : Type) where
  fs : FS α
  current : List α := []
  opened : List (List α × Nat) := []

/-- RS 3208-3216 `_restore_old` -/
def restoreOld (index : List α) : FS α → List (List α × Nat) → Option (FS α × List (List α × Nat))
  | fs, [] => some (fs, [])
  | fs, e :: rest =>
    if e.1 < index.take e.1.length then
      match chmod fs e.1 e.2 with
      | none => none
      | some fs => restoreOld index fs rest
    else some (fs, e :: rest)

/-- RS 3221-3223: the permissions are not sufficient -/
def needsChange (f : File) : Bool :=
  (f.kind = .reg && !readable f) || (f.kind = .dir && !(executable f && readable f))

/-- RS 3226-3229 -/
def relaxed (f : File) : Nat := if f.kind = .reg then 0o400 ||| f.perms else 0o700 ||| f.perms

/-- RS 3220-3229: the body of the loop of `_add_chmod_new` -/
def addOne (fs : FS α) (opened : List (List α × Nat)) (p : List α) : Option (FS α × List (List α × Nat)) :=
  match lstat fs p with
  | none => none
  | some none => some (fs, opened)
  | some (some f) =>
    if needsChange f then
      match chmod fs p (relaxed f) with
      | none => none
      | some fs => some (fs, (p, f.perms) :: opened)
    else some (fs, opened)

/-- RS 3218-3229 `_add_chmod_new` -/
def addAll : FS α → List (List α × Nat) → List (List α) → Option (FS α × List (List α × Nat))
  | fs, opened, [] => some (fs, opened)
  | fs, opened, p :: ps =>
    match addOne fs opened p with
    | none => none
    | some (fs, opened) => addAll fs opened ps

/-- RS 3238-3241 -/
def common (old index : List α) : Nat :=
  ((List.range index.length).reverse.find? fun i => old.take i = index.take i).getD 0

/-- RS 3231-3243 `_get_new_rp_list` -/
def newList (old index : List α) : List (List α) :=
  (List.range' (common old index + 1) (index.length - common old index)).map index.take

/-- RS 3190-3199 `__call__`, for a file without alternate name (with one, nothing is done) -/
def call (st : St α) (index : List α) : Option (St α) :=
  if index = [] ∨ index ≤ st.current then some { st with current := index }
  else
    match restoreOld index st.fs st.opened with
    | none => none
    | some (fs, opened) =>
      match addAll fs opened (newList st.current index) with
      | none => none
      | some (fs, opened) => some { fs := fs, current := index, opened := opened }

/-- RS 3174-3243: `__call__` for one index after the other -/
def callAll (st : St α) : List (List α) → Option (St α)
  | [] => some st
  | i :: is =>
    match call st i with
    | none => none
    | some st => callAll st is

/-- RS 3201-3204 `finish` -/
def finish (fs : FS α) : List (List α × Nat) → Option (FS α)
  | [] => some fs
  | e :: rest =>
    match chmod fs e.1 e.2 with
    | none => none
    | some fs => finish fs rest

/-- RS 2856-2900: getting one file from the cache. If needed its directory is listed (2886-2888), and it may be found (2862-2864) or not. -/
structure Access (α : Type) where
  index : List α
  lists : Bool
  found : Bool

/-- RS 3174-3243 and its users 2908-3120: which indexes are given to the permission changer before this access -/
def Access.calls (a : Access α) : List (List α) :=
  (if a.lists then [a.index.dropLast] else []) ++ (if a.found then [a.index] else [])

end Verif.PermChanger
