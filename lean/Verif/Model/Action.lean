import Verif.Model.Remove
/-
Model of the actions "backup" and "regress" as far as the state of the repository is concerned:
`src/rdiffbackup/actions/backup.py` 105-155, `src/rdiffbackup/actions/__init__.py` 657-692,
`src/rdiffbackup/actions/regress.py`.
-/
namespace Verif.Repo
variable {α A C S H Δ L : Type} [LinearOrder α] [DecidableEq A] [DecidableEq S] [DecidableEq H] [DecidableEq L]

/-- actions/__init__.py 657-692 `_operate_regress` (without `force`); `none`: an error. `Needs.unknown` is Python's
`None`, so that nothing is done. -/
def operateRegress (o : Ops A C H Δ L) (st : State α A C S H Δ) (r : RSess α A C) : Option (State α A C S H Δ) :=
  match needsRegress st with
  | .yes => regress o st r
  | .error => none
  | .no => some st
  | .unknown => some st

/-- actions/regress.py 94-104 `run`, actions/__init__.py 657-692 `_operate_regress` with `force`: if no regress is needed, one
is forced (if that is refused, nothing happens). -/
def regressAction (o : Ops A C H Δ L) (force : Bool) (st : State α A C S H Δ) (r : RSess α A C) : Option (State α A C S H Δ) :=
  match needsRegress st with
  | .yes => regress o st r
  | .error => none
  | _ =>
    if force then
      match forceRegress st with
      | some st' => regress o st' r
      | none => some st
    else some st

/-- actions/backup.py 105-128 `run`: regress if needed, then a backup session -/
def backupAction (o : Ops A C H Δ L) (st : State α A C S H Δ) (r : RSess α A C) (s : Sess α A C S H Δ) :
    Option (State α A C S H Δ) :=
  (operateRegress o st r).bind fun st' => backup o st' s

/-- RS 416-436 `_is_failed_initial_backup`: no current_mirror and at most one metadata file. The number of error logs is not part of the
model; it is 1 after any interrupted first backup, as the data directory is removed before the next. A missing data directory
(then the code says no) need not be distinguished from an empty one. -/
def isFailedInitial (st : State α A C S H Δ) : Bool := st.marks.isEmpty && decide (st.metas.length ≤ 1)

/-- RS 349-414 `_create`, 438-444 `_clean_failed_initial_backup`: what is left of an interrupted first backup is removed
from the data directory, unless there is a lock file (and no `--force`). The mirror stays as it is.
`none`: refused. Creating the directories does not fail here. -/
def createRepo (force locked : Bool) (st : State α A C S H Δ) : Option (State α A C S H Δ) :=
  if isFailedInitial st then
    if locked && !force then none else some { st with incs := [], incdirs := [[]], metas := [] }
  else some st

/-- The whole action "backup": RS 149-195 `setup` (locking is C32, time: see `sessionSteps`), then `backupAction`. -/
def fullBackup (o : Ops A C H Δ L) (force locked : Bool) (st : State α A C S H Δ) (r : RSess α A C) (s : Sess α A C S H Δ) :
    Option (State α A C S H Δ) :=
  (createRepo force locked st).bind fun st' => backupAction o st' r s

end Verif.Repo
