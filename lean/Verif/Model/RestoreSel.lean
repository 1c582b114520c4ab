import Verif.Model.RestoreAt
import Verif.Model.Selection
/-
Model of restoring with selection options: `src/rdiffbackup/actions/restore.py` 113-145, 180-184, 219-235, `src/rdiffbackup/locations/_repo_shadow.py` (RS)
846-881 and 908-993, `src/rdiffbackup/locations/_dir_shadow.py` (DS) 345-390.

The selection is applied twice with the same options: to the records of the backup (`filterIter`, C28) and to the files of the target (`iterate`, C27); both
as if in the target.  Simplifications: those of `Verif.RestoreDir`, except that types of files are looked up on disk in the unselected listing; both
selections are made completely before the target is changed (in the code they go on while it is changed, so that an exception in them comes in the middle).
-/
namespace Verif.RestoreDir
open Verif.Repo Verif.Collate Verif.FillIn Verif.TreeReducer Verif.MetaChain Verif.Selection

variable {α A C S H Δ L : Type} [LinearOrder α] [DecidableEq A] [DecidableEq S] [DecidableEq H]

/-- rpath.py 1699-1750 `make_file_dict`, as far as selection conditions look at it: the type of files which are neither regular nor directories, and the device -/
structure Look (A S : Type) where
  kind : S → Kind
  dev : A → Nat

/-- a file as the conditions of selection.py 500-642 see it -/
def Look.node (k : Look A S) (o : Ops A C H Δ L) : Node A C S → File
  | .dir a => ⟨.dir, 0, k.dev a⟩
  | .reg a x => ⟨.reg, o.size x, k.dev a⟩
  | .other a s => ⟨k.kind s, 0, k.dev a⟩

/-- selection.py 873-878: a record as the conditions see it.  (A record is never without data.) -/
def Look.record (k : Look A S) : Option (MRec A S H) → File
  | some (.dir a) => ⟨.dir, 0, k.dev a⟩
  | some (.reg a n _) => ⟨.reg, n, k.dev a⟩
  | some (.other a s) => ⟨k.kind s, 0, k.dev a⟩
  | none => ⟨.reg, 0, 0⟩

/-- selection.py 300-321 `_listdir_sorted` of all directories: the tree for `iterate` -/
def forestOf : List (List α × File) → Forest α
  | [] => .nil
  | ([], _) :: rest => forestOf rest
  | (n :: _, f) :: rest =>
    .cons n f (forestOf ((rest.takeWhile fun x => x.1.head? = some n).map fun x => (x.1.tail, x.2)))
      (forestOf (rest.dropWhile fun x => x.1.head? = some n))
  termination_by l => l.length
  decreasing_by
    · simp
    · simp only [List.length_map, List.length_cons]
      exact Nat.lt_succ_of_le (List.takeWhile_sublist _).length_le
    · exact Nat.lt_succ_of_le (List.dropWhile_sublist _).length_le

/-- DS 364-371 `get_sigs_select`: the selected files of the target -/
def keptFiles (k : Look A S) (o : Ops A C H Δ L) (cs : List (Cond α)) (target : Files α (Node A C S)) : Option (Files α (Node A C S)) :=
  match Repo.get target [] with
  | none => some target
  | some n =>
    match iterate cs (k.node o n) (forestOf ((target.filter fun x => x.1 ≠ []).map fun x => (x.1, k.node o x.2))) with
    | none => none
    | some out => some (target.filter fun x => x.1 ∈ out)

/-- RS 868-870: the selected records -/
def keptRecs (k : Look A S) (cs : List (Cond α)) (recs : List (Rec (List α) (MRec A S H))) : Option (List (Rec (List α) (MRec A S H))) :=
  match filterIter cs (recs.map fun r => (r.idx, k.record r.data)) with
  | none => none
  | some out => some (recs.filter fun r => r.idx ∈ out)

/-- the operations of a restore with selection conditions `cs`: actions/restore.py 229-232; `none` if something can't be read or selected -/
def selSteps (k : Look A S) (cs : List (Cond α)) (o : Ops A C H Δ L) (st : State α A C S H Δ) (t : Nat) (sub : List α) (W : Files α (Node A C S)) (top : α)
    (stamp : A) (junk : List α → C) (tmp : α) : Option (List (Step α A C S Unit Unit)) :=
  match mirrorTime st with
  | some (some mt) =>
    match setRestoreTime (incrementTimes st mt) t with
    | none => none
    | some rt =>
      match metaAtTime st.metas rt (fun i => sub.isPrefixOf i) with
      | none => none
      | some recs =>
        match keptRecs k cs recs, keptFiles k o cs (targetFiles top W) with
        | some recs', some files =>
          match diffsOf o st mt rt sub recs' files with
          | none => none
          | some ds =>
            let c : RCtx α A C S := ⟨rootDiff (targetFiles top W) ds, targetFiles top W, stamp, junk, tmp⟩
            match c.events with
            | none => none
            | some evs => some (evs.flatMap (c.stepsAt top))
        | _, _ => none
  | _ => none

/-- actions/restore.py 117-132: the options which select by path -/
def byPath : Cond α → Bool
  | .regexp .. | .all .. | .tuple .. | .glob .. | .filelist .. => true
  | _ => false

/-- RS 878-884 and DS 350-360 `set_select`, selection.py 150-194: the exclusion of `rdiff-backup-data` (`rb`) and the options given; no selection at all without options -/
def restoreOpts (rb : α) (cs : List (Cond α)) : List (Cond α) := if cs.isEmpty then [] else withRbdir rb cs

/-- actions/restore.py 85-145 `check` and 188-235 `run` with selection options: the world afterwards; `none` if refused or if an operation fails -/
def selCmd (force : Bool) (k : Look A S) (rb : α) (cs : List (Cond α)) (o : Ops A C H Δ L) (st : State α A C S H Δ) (t : Nat) (sub : List α)
    (W : Files α (Node A C S)) (top : α) (stamp : A) (junk : List α → C) (tmp : α) : Option (Files α (Node A C S)) :=
  if needsForce W top && !force then none
  else if sub ≠ [] && cs.any byPath then none
  else
    match selSteps k (restoreOpts rb cs) o st t sub W top stamp junk tmp with
    | none => none
    | some ss => (exec stamp ss (world W)).map (·.mirror)

end Verif.RestoreDir
