import Verif.Model.IncName
import Verif.Model.Repo
import Verif.Model.Sort
/-
Which repository, which file in it and which time are meant by the path given to `restore` (or `list`, `remove file`):
`src/rdiffbackup/locations/_repo_shadow.py` 446-522 `_get_repository_dirs`, `src/rdiff_backup/rpath.py` 990-1037, 1324-1328,
`src/rdiffbackup/actions/restore.py` 95-178.

Paths are lists of characters (bytes in the code), on a POSIX system.  The file system is given by `listing`: the names in a
directory, `none` for anything else.
-/
namespace Verif.RepoDirs
open Verif.IncName

/-- `split(b"/")` (rpath.py 1328 `get_path_as_list`) -/
def splitSlash : List Char → List (List Char)
  | [] => [[]]
  | c :: r =>
    if c = '/' then [] :: splitSlash r
    else
      match splitSlash r with
      | [] => [[c]]
      | x :: xs => (c :: x) :: xs

/-- `b"/".join` -/
def joinSlash : List (List Char) → List Char
  | [] => []
  | [a] => a
  | a :: b :: r => a ++ '/' :: joinSlash (b :: r)

/-- rpath.py 998 `isalnum` of a byte -/
def isAlnum (c : Char) : Bool :=
  (48 ≤ c.toNat && c.toNat ≤ 57) || (65 ≤ c.toNat && c.toNat ≤ 90) || (97 ≤ c.toNat && c.toNat ≤ 122)

/-- rpath.py 990-1009 `normalize` (104-124 `path_join` of names without slashes) -/
def normalize (p : List Char) : List Char :=
  let np := joinSlash ((splitSlash p).filter fun x => x ≠ [] && x ≠ ['.'])
  match p with
  | '/' :: '/' :: c :: _ => if isAlnum c then '/' :: '/' :: np else '/' :: np
  | '/' :: _ => '/' :: np
  | _ => if np = [] then ['.'] else np

/-- rpath.py 1011-1027 `dirsplit`, the first component -/
def dirname (p : List Char) : List Char :=
  let n := normalize p
  if '/' ∉ n then ['.'] else joinSlash (splitSlash n).dropLast

/-- rpath.py 1029-1037 `get_parent_rp` of a path without index -/
def parent (p : List Char) : List Char :=
  let d := dirname p
  if d = [] then ['/'] else d

/-- `rdiff-backup-data` -/
def dataName : List Char := "rdiff-backup-data".toList
/-- `increments` -/
def incsName : List Char := "increments".toList

/-- RS 447-460: what is found out: the base directory of the repository, the path in it, and 'base', 'subpath' or 'inc' -/
inductive RefType where
  | base | subpath | inc
  deriving DecidableEq, Repr

/-- RS 455-459: the returned tuple; `none` instead of the type `None` -/
structure Ref where
  base : List Char
  idx : List (List Char)
  type : RefType
  deriving DecidableEq, Repr

/-- RS 502-506, 510-514: is it a directory with `rdiff-backup-data` in it? -/
def hasData (listing : List Char → Option (List (List Char))) (p : List Char) : Bool :=
  match listing p with
  | some names => names.contains dataName
  | none => false

/-- RS 477-488: the place of `increments` in the path (as `inc_idx`), and the path of the file in the repository -/
def incPlace (pl : List (List Char)) (base : List Char) : Option (Nat × List (List Char)) :=
  if pl.contains incsName then
    some (pl.idxOf incsName, (pl.drop (pl.idxOf incsName + 1)).dropLast ++ [(splitSlash base).getLast?.getD []])
  else if (incsName ++ ['.']).isPrefixOf (pl.getLast?.getD []) then some (pl.length - 1, [])
  else none

/-- RS 468-500: the path of an increment file; `base`: its `inc_basestr` -/
def incRef (pl : List (List Char)) (base : List Char) : Option Ref :=
  if pl.contains dataName then
    match incPlace pl base with
    | some x => if x.1 = pl.idxOf dataName + 1 then some ⟨joinSlash (pl.take (pl.idxOf dataName)), x.2, .inc⟩ else none
    | none => none
  else none

/-- RS 507-515: the search upwards; `cur` is `parent_rp`, `e` is `element` minus one, then the number of steps to go -/
def walkUp (listing : List Char → Option (List (List Char))) (pl : List (List Char)) (cur : List Char) (e : Nat) : Nat → Option Ref
  | 0 => none
  | k + 1 =>
    if hasData listing (parent cur) then some ⟨parent cur, pl.drop (pl.length - (e + 1)), .subpath⟩
    else walkUp listing pl (parent cur) (e + 1) k

/-- RS 446-522 `_get_repository_dirs`; `isincfile` (increment.py 56-80) looks at the whole path, as a path given by the user
has no index -/
def repoDirs (listing : List Char → Option (List (List Char))) (path : List Char) : Option Ref :=
  match parseIncName path with
  | some i => incRef (splitSlash path) i.base
  | none =>
    if hasData listing path then some ⟨path, [], .base⟩
    else walkUp listing (splitSlash path) path 0 ((splitSlash path).length - 1)

/-- restore.py 116-131: the options which select by the names of files -/
def fileSelections : List String :=
  ["include", "exclude", "exclude-filelist", "include-filelist", "exclude-filelist-stdin", "include-filelist-stdin",
    "exclude-globbing-filelist", "include-globbing-filelist", "exclude-globbing-filelist-stdin",
    "include-globbing-filelist-stdin", "exclude-regexp", "include-regexp"]

/-- The time to restore: as given by the user (see C20), or in seconds. -/
inductive When where
  | given (s : List Char)
  | seconds (t : Int)
  deriving DecidableEq, Repr

/-- restore.py 97-114: the options `--at` (`[]`: not given) and `--increment` afterwards; `none` is an error -/
def checkTime (type : RefType) (at' : List Char) (increment : Bool) : Option (List Char × Bool) :=
  match type with
  | .inc => if at' ≠ [] then none else some (at', true)
  | _ => if increment then none else some (if at' = [] then "now".toList else at', increment)

/-- restore.py 118, 132-145: not a part of the repository and a selection of files -/
def checkSelections (idx : List (List Char)) (selections : List String) : Bool :=
  !(selections ≠ [] && idx ≠ [] && selections.any fileSelections.contains)

/-- restore.py 97-145 (check), 164-178 (setup): the time to restore; `incTime`: `getinctime` of the given path -/
def restoreTime (ref : Ref) (incTime : Int) (at' : List Char) (increment : Bool) (selections : List String) : Option When :=
  match checkTime ref.type at' increment with
  | none => none
  | some v =>
    if checkSelections ref.idx selections then
      if v.1 ≠ [] then some (.given v.1) else if v.2 then some (.seconds incTime) else none
    else none

/-- The whole way from the command line to (repository, path in it, time); increment.py 88-90 `getinctime`. -/
def resolveArgs (listing : List Char → Option (List (List Char))) (path at' : List Char) (increment : Bool) (selections : List String) :
    Option (Ref × When) :=
  match repoDirs listing path with
  | none => none
  | some ref =>
    match restoreTime ref (((parseIncName path).map (·.time)).getD 0) at' increment selections with
    | none => none
    | some w => some (ref, w)

section
variable {α A C S H Δ L : Type} [LinearOrder α] [DecidableEq A] [DecidableEq S] [DecidableEq H] [DecidableEq L]

/-- RS 805-822 `get_increment_times`, sorted and without duplicates; with a path (`rp.index`), its increments instead of those of the
root directory -/
def sessionTimes (st : Repo.State α A C S H Δ) (mt : Nat) (idx : List α) : List Nat :=
  Sort.sortBy (fun x y => decide (x ≤ y)) (mt :: (st.incs.filter (fun f => f.idx = idx)).map (·.time) ++ st.metas.map (·.time)).eraseDups

/-- What the interpretation of times depends on: `strptime`, `--use-compatible-timestamps`, the time zone (minutes) and the current time. -/
structure Clock where
  pretty : List Char → Option Int
  compat : Bool
  off : Int
  now : Nat

/-- RS 781-801 `get_parsed_time` -/
def parsedTime (k : Clock) (st : Repo.State α A C S H Δ) (idx : List α) (s : List Char) : Option Int :=
  match Repo.mirrorTime st with
  | some (some mt) => TimeStr.genstrtotime k.pretty k.compat k.off k.now ((sessionTimes st mt idx).map Int.ofNat) s
  | _ => none

/-- restore.py 164-178: the time in seconds -/
def actionTime (k : Clock) (st : Repo.State α A C S H Δ) (idx : List α) : When → Option Int
  | .given s => parsedTime k st idx s
  | .seconds t => some t

/-- The command `rdiff-backup restore [--at ..] [--increment] path ...`: restore.py 90-235, with the repositories (Model/Repo) which there are,
in which `enc` is used for the names; the result is what the repository side provides. A time before 1970 is restored like 0: there are no backups of that time. -/
def restoreArg (o : Repo.Ops A C H Δ L) (enc : List Char → α) (repos : List Char → Option (Repo.State α A C S H Δ)) (k : Clock)
    (listing : List Char → Option (List (List Char))) (path at' : List Char) (increment : Bool) (selections : List String) :
    Option (List (List α × Repo.Node A C S)) :=
  match resolveArgs listing path at' increment selections with
  | none => none
  | some x =>
    match repos x.1.base with
    | none => none
    | some st =>
      match actionTime k st (x.1.idx.map enc) x.2 with
      | none => none
      | some t => Repo.restore o st t.toNat (x.1.idx.map enc)
end

end Verif.RepoDirs
