import Verif.Model.Repo
import Verif.Model.SStats
/-
The statistics events of a backup session of the model `Verif.Model.Repo`
(`src/rdiffbackup/locations/_repo_shadow.py` = RS).
-/
namespace Verif.Repo
open Verif.Collate Verif.FillIn Verif.TreeReducer Verif.MetaChain

section
variable {α A C S H Δ L : Type} [LinearOrder α] [DecidableEq A] [DecidableEq S] [DecidableEq H] [DecidableEq L]
variable (o : Ops A C H Δ L) (c : Ctx α A C S H Δ)

/-- a source rorp for the statistics: `isreg()`, `getsize()` -/
def statFile : Node A C S → SStats.File
  | .reg _ x => ⟨true, true, o.size x⟩
  | _ => ⟨true, false, 0⟩

/-- a rorp from the metadata -/
def statRec : MRec A S H → SStats.File
  | .reg _ sz _ => ⟨true, true, sz⟩
  | _ => ⟨true, false, 0⟩

/-- The success flag of a pair at the end (RS 2254-2260): set by `fast_process_file` (RS 2742-2780, 2506-2535),
`start_process_directory` and `_prepare_dir` (RS 2715-2729, 2782-2806, 2537-2549). For a directory filled in because of
changes below it, `cached` tells if it was still in the cache (RS 2727-2729). Failing to replace a directory is not
modelled (as in `Ctx.newRec`). -/
def Ctx.success (cached : List α → Bool) (i : List α) (src : Option (Node A C S)) (dst : Option (MRec A S H)) : SStats.Flag :=
  if changedPair o src dst then
    match src with
    | none => if isDirRec dst || (c.mirror i).isSome then .deleted else .none
    | some n =>
      if n.isDir || isDirRec dst then .updated else
      match c.patch o i with
      | .failed => .none
      | _ => .updated
  else if c.isFiller o i && cached i then .updated else .none

/-- what `_post_process` sees of a pair -/
def Ctx.statPair (cached : List α → Bool) (p : List α × Option (Node A C S) × Option (MRec A S H)) : SStats.Pair :=
  ⟨p.2.1.map (statFile o), p.2.2.map statRec, changedPair o p.2.1 p.2.2, c.success o cached p.1 p.2.1 p.2.2⟩

/-- increment.py 153: one event for each increment file made; `incSize` is the size it has on disk (0 for a symbolic link; increments may be
compressed) -/
def statInc (incSize : List α → Nat) : Step α A C S H Δ → Option SStats.Event
  | .newInc f => some (.increment ⟨true, true, incSize f.idx⟩)
  | _ => none

/-- The statistics of a session. -/
def sessionStats (cached : List α → Bool) (incSize : List α → Nat) (st : State α A C S H Δ) (s : Sess α A C S H Δ) :
    Option SStats.Totals :=
  match mirrorTime st, sessionSteps o st s with
  | some prev, some steps =>
    match destOf o st prev with
    | none => none
    | some dest =>
      let c : Ctx α A C S H Δ := ⟨st, s, prev, dest⟩
      some (SStats.session (steps.filterMap (statInc incSize) ++ c.pairs.map (fun p => .pair (c.statPair o cached p))))
  | _, _ => none

end
end Verif.Repo
