import Verif.Model.RestoreDir
/-
Model of restoring to any path: `src/rdiffbackup/locations/_dir_shadow.py` (DS) 305-334 `WriteDirShadow.check`, 372-527 `apply` and `_DirPatchITRB`, for a
target which may be a directory, another file, or missing, and for anything in (or not in) the backup.

The world is the directory which contains the target, a tree as in `Verif.Repo`; `top` is the name of the target in it.  Simplifications: those of
`Verif.RestoreDir` except that nothing is assumed about the types of target and of what is restored.
-/
namespace Verif.RestoreDir
open Verif.Repo Verif.Collate Verif.FillIn Verif.TreeReducer Verif.MetaChain

variable {α A C S H Δ L : Type} [LinearOrder α] [DecidableEq A] [DecidableEq S] [DecidableEq H]

/-- selection.py 240-298 `_iterate_rpath` without options: the files at and below the target.  (The target is yielded even if it is missing, line 274;
see `rootDiff`.) -/
def targetFiles (top : α) (W : Files α (Node A C S)) : Files α (Node A C S) :=
  W.filterMap fun x =>
    match x.1 with
    | [] => none
    | k :: i => if k = top then some (i, x.2) else none

/-- _repo_shadow.py 962-983: the target is listed even if missing, so there is a diff for it even if the backup has nothing there -/
def rootDiff (target : Files α (Node A C S)) (ds : List (List α × Option (Node A C S))) : List (List α × Option (Node A C S)) :=
  if (get target []).isNone && ds.all (fun x => x.1 ≠ []) then ([], none) :: ds else ds

variable (c : RCtx α A C S)

/-- DS 461-483 `_patch_to_temp` into `rp.get_temp_rpath(sibling=True)`: for the target itself that is next to it -/
def RCtx.writeAt (top : α) (i : List α) : Option (Node A C S) → List (Step α A C S H Δ)
  | none => []
  | some n => [.write (tmpOf c.tmp (top :: i)) (.reg c.stamp (c.junk i)), .write (tmpOf c.tmp (top :: i)) n]

/-- DS 423-428 `fast_process_file`; `rpath.rename` (rpath.py 1652-1653) of a file which isn't there deletes the destination, which must be there
(`os.unlink`, rpath.py 949-971) -/
def RCtx.fastAt (top : α) (i : List α) : List (Step α A C S H Δ) :=
  match c.diff i with
  | some n => c.writeAt top i (some n) ++ [.rename (tmpOf c.tmp (top :: i)) (top :: i)]
  | none => [.delete (top :: i)]

/-- DS 430-442 `start_process_directory`, 504-511 `_prepare_dir`, 513-527 `_set_dir_replacement` -/
def RCtx.startAt (top : α) (i : List α) : List (Step α A C S H Δ) :=
  if isDirNode (c.diff i) then
    (if isDirNode (c.base i) then [] else (if (c.base i).isSome then [.delete (top :: i)] else []) ++ [.mkdir (top :: i)])
  else c.writeAt top i (c.diff i)

/-- DS 442-453 `end_process_directory` -/
def RCtx.finishAt (top : α) (i : List α) : List (Step α A C S H Δ) :=
  match c.diff i with
  | some (.dir a) => [.chattr (top :: i) a]
  | some _ => [.rmdir (top :: i), .rename (tmpOf c.tmp (top :: i)) (top :: i)]
  | none => [.rmdir (top :: i)]

/-- DS 393-527 `_DirPatchITRB` with `basis_root_rp` the target -/
def RCtx.stepsAt (top : α) : Event α → List (Step α A C S H Δ)
  | .fast i => c.fastAt top i
  | .start i => c.startAt top i
  | .finish i => c.finishAt top i

/-- the operations of a restore: _repo_shadow.py 908-993 `get_diffs` and DS 372-389 `apply`; `none` if something can't be read -/
def restoreSteps (o : Ops A C H Δ L) (st : State α A C S H Δ) (t : Nat) (sub : List α) (W : Files α (Node A C S)) (top : α)
    (stamp : A) (junk : List α → C) (tmp : α) : Option (List (Step α A C S Unit Unit)) :=
  match mirrorTime st with
  | some (some mt) =>
    match setRestoreTime (incrementTimes st mt) t with
    | none => none
    | some rt =>
      match getDiffs o st mt rt sub (targetFiles top W) with
      | none => none
      | some ds =>
        let c : RCtx α A C S := ⟨rootDiff (targetFiles top W) ds, targetFiles top W, stamp, junk, tmp⟩
        match c.events with
        | none => none
        | some evs => some (evs.flatMap (c.stepsAt top))
  | _ => none

/-- a directory tree as a state of `Verif.Repo` -/
def world (W : Files α (Node A C S)) : State α A C S Unit Unit := ⟨W, [], [[]], [], []⟩

/-- actions/restore.py 219-235 `_operate_restore`: the world afterwards; `none` if an operation is refused -/
def restoreAt (o : Ops A C H Δ L) (st : State α A C S H Δ) (t : Nat) (sub : List α) (W : Files α (Node A C S)) (top : α)
    (stamp : A) (junk : List α → C) (tmp : α) : Option (Files α (Node A C S)) :=
  match restoreSteps o st t sub W top stamp junk tmp with
  | none => none
  | some ss => (exec stamp ss (world W)).map (·.mirror)

/-- DS 314-334 `check`: whether the target needs `--force`: it is a directory which isn't empty -/
def needsForce (W : Files α (Node A C S)) (top : α) : Bool :=
  isDirAt W [top] && W.any fun x => [top].isPrefixOf x.1 && x.1 ≠ [top]

/-- actions/restore.py 85-92 `check` (the target's) and 188-235 `run` -/
def restoreCmd (force : Bool) (o : Ops A C H Δ L) (st : State α A C S H Δ) (t : Nat) (sub : List α) (W : Files α (Node A C S)) (top : α)
    (stamp : A) (junk : List α → C) (tmp : α) : Option (Files α (Node A C S)) :=
  if needsForce W top && !force then none else restoreAt o st t sub W top stamp junk tmp

end Verif.RestoreDir
