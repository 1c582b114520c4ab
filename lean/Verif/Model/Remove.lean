import Verif.Model.Regress
/-
Model of the removal of old backups: `_repo_shadow.py` (RS) 1206-1250 `remove_increments_older_than`,
1400-1466 `_get_removal_time` (without `--size`).
-/
namespace Verif.Repo
open Verif.MetaChain

variable {α A C S H Δ L : Type} [LinearOrder α]

/-- Answers of `_get_removal_time`: `None`, `-1`, or a time. -/
inductive Removal where
  | refused
  | nothing
  | before (t : Nat)
  deriving DecidableEq

/-- RS 1416-1419: the times of `increments.<time>.dir` older than the given time -/
def removalTimes (st : State α A C S H Δ) (older : Nat) : List Nat :=
  ((st.incs.filter (fun f => f.idx = [])).map (·.time)).filter (· < older)

/-- RS 1400-1466 `_get_removal_time` -/
def removalTime (st : State α A C S H Δ) (older : Nat) (force : Bool) : Removal :=
  match (removalTimes st older).max? with
  | none => .nothing
  | some m => if 1 < (removalTimes st older).length ∧ force = false then .refused else .before (m + 1)

/-- RS 1244-1249: everything with a time before `t` is deleted (increments, metadata and markers: all of them
look like increments, increment.py 55-92), and directories left empty (`increments` itself is created again when
needed, RS 399-411). -/
def removeBefore (st : State α A C S H Δ) (t : Nat) : State α A C S H Δ :=
  let incs := st.incs.filter (fun f => t ≤ f.time)
  { st with
    incs := incs
    incdirs := st.incdirs.filter (fun d => d = [] ∨ ∃ f ∈ incs, f.idx ≠ [] ∧ d <+: f.idx.dropLast)
    metas := st.metas.filter (fun f => t ≤ f.time)
    marks := st.marks.filter (fun m => t ≤ m) }

/-- RS 1206-1250; `none`: an error. -/
def removeOlder (st : State α A C S H Δ) (older : Nat) (force : Bool) : Option (State α A C S H Δ) :=
  match removalTime st older force with
  | .refused => none
  | .nothing => some st
  | .before t => some (removeBefore st t)

end Verif.Repo
