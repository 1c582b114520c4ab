import Verif.Model.Repo
/-
Model of restoring into a directory which is there already: `src/rdiffbackup/locations/_repo_shadow.py` (RS) 908-993 `get_diffs`, and
`src/rdiffbackup/locations/_dir_shadow.py` (DS) 372-527 `WriteDirShadow.apply`, `_DirPatchITRB`.

The target is a directory tree with the operations of `Verif.Repo.apply` (a repository without increments, metadata and markers).
Simplifications: those of `Verif.Repo`; the target is listed in order (C27) before it is changed; no selection options; the top of the target and what
is restored are directories; a file's type and attributes on disk are those it had when listed until its turn comes (`can_fast_process`, DS 418-421, and
`FillInIter` look at the disk).  A wrong SHA1 only gives a warning (DS 485-508).
-/
namespace Verif.RestoreDir
open Verif.Repo Verif.Collate Verif.FillIn Verif.TreeReducer Verif.MetaChain

variable {α A C S H Δ L : Type} [LinearOrder α] [DecidableEq A] [DecidableEq S] [DecidableEq H]

/-- `mir_rorp == target_rorp`, `rpath.py` 132-171.  All the keys of `mir_rorp` are compared, and "sha1" is not in `target_rorp`. -/
def rEq (o : Ops A C H Δ L) (m : MRec A S H) (n : Node A C S) : Bool :=
  match m, n with
  | .dir a, .dir a' => a = a'
  | .reg a sz h, .reg a' x => h.isNone && a = a' && sz == o.size x
  | .other a s, .other a' s' => a = a' && s = s'
  | _, _ => false

/-- RS 962-973: is there a diff for the pair? -/
def differs (o : Ops A C H Δ L) : Option (Rec (List α) (MRec A S H)) × Option (List α × Node A C S) → Bool
  | (some r, some y) =>
    match r.data with
    | some m => !(rEq o m y.2)
    | none => true
  | _ => true

/-- RS 980-993 `_get_diff`: the file as it was, or one "missing" if the target has a file that the backup doesn't have.  `none` if the content can't be
restored. -/
def getDiff (o : Ops A C H Δ L) (st : State α A C S H Δ) (mt rt : Nat) (sub : List α) :
    Option (Rec (List α) (MRec A S H)) × Option (List α × Node A C S) → Option (List α × Option (Node A C S))
  | (none, some y) => some (y.1, none)
  | (some r, _) => (restoreOne o st mt rt ⟨sub ++ r.idx, r.data⟩).map fun x => (r.idx, some x.2)
  | (none, none) => none

/-- RS 884-905 `_subtract_indices` -/
def subtract (sub : List α) (recs : List (Rec (List α) (MRec A S H))) : List (Rec (List α) (MRec A S H)) :=
  recs.map fun r => ⟨r.idx.drop sub.length, r.data⟩

/-- RS 956-978 `_get_diffs_from_collated`; 919-922 -/
def diffsOf (o : Ops A C H Δ L) (st : State α A C S H Δ) (mt rt : Nat) (sub : List α) (recs : List (Rec (List α) (MRec A S H)))
    (target : Files α (Node A C S)) : Option (List (List α × Option (Node A C S))) :=
  allSome (((collate2 Rec.idx Prod.fst (subtract sub recs) target).filter (differs o)).map (getDiff o st mt rt sub))

/-- RS 909-922 `get_diffs` -/
def getDiffs (o : Ops A C H Δ L) (st : State α A C S H Δ) (mt rt : Nat) (sub : List α) (target : Files α (Node A C S)) :
    Option (List (List α × Option (Node A C S))) :=
  match metaAtTime st.metas rt (fun i => sub.isPrefixOf i) with
  | none => none
  | some recs => diffsOf o st mt rt sub recs target

/-- What `apply` has: the diffs, the target before, and what fresh and incomplete files look like. -/
structure RCtx (α A C S : Type) where
  diffs : List (List α × Option (Node A C S))
  target : Files α (Node A C S)
  stamp : A
  junk : List α → C
  tmp : α

variable (c : RCtx α A C S)

/-- DS 383-384: the diffs with fillers -/
def RCtx.filled : List (Bool × List α) := fillIn (c.diffs.map Prod.fst)

/-- the type of a file of the target when its turn comes -/
def RCtx.base (i : List α) : Option (Node A C S) := get c.target i

/-- the diff for a path (also a filler: rorpiter.py 410, 419 takes the file on disk) -/
def RCtx.diff (i : List α) : Option (Node A C S) :=
  match get c.diffs i with
  | some d => d
  | none => c.base i

/-- DS 418-421 `can_fast_process` -/
def RCtx.canFast (i : List α) : Bool := !(isDirNode (c.diff i)) && !(isDirNode (c.base i))

/-- DS 383-387 with C13 -/
def RCtx.events : Option (List (Event α)) := run (c.filled.map fun x => (x.2, c.canFast x.2))

/-- DS 461-477 `_patch_to_temp`: all diffs are snapshots; nothing is written for a missing file (`rpath.copy`, rpath.py 1486-1489) -/
def RCtx.writeTmp (i : List α) : Option (Node A C S) → List (Step α A C S H Δ)
  | none => []
  | some n => [.write (tmpOf c.tmp i) (.reg c.stamp (c.junk i)), .write (tmpOf c.tmp i) n]

/-- DS 423-428 `fast_process_file`; `rpath.rename` (rpath.py 1652-1653) of a file which isn't there deletes the destination -/
def RCtx.fastSteps (i : List α) : List (Step α A C S H Δ) :=
  match c.diff i with
  | some n => c.writeTmp i (some n) ++ [.rename (tmpOf c.tmp i) i]
  | none => if (c.base i).isSome then [.delete i] else []

/-- DS 430-442 `start_process_directory`, 504-511 `_prepare_dir`, 513-527 `_set_dir_replacement` -/
def RCtx.startSteps (i : List α) : List (Step α A C S H Δ) :=
  if isDirNode (c.diff i) then
    (if isDirNode (c.base i) then [] else (if (c.base i).isSome then [.delete i] else []) ++ [.mkdir i])
  else c.writeTmp i (c.diff i)

/-- DS 442-453 `end_process_directory` -/
def RCtx.finishSteps (i : List α) : List (Step α A C S H Δ) :=
  match c.diff i with
  | some (.dir a) => [.chattr i a]
  | some _ => [.rmdir i, .rename (tmpOf c.tmp i) i]
  | none => [.rmdir i]

/-- _dir_shadow.py 393-527 `_DirPatchITRB`: `fast_process_file`, `start_process_directory`, `end_process_directory` -/
def RCtx.eventSteps : Event α → List (Step α A C S H Δ)
  | .fast i => c.fastSteps i
  | .start i => c.startSteps i
  | .finish i => c.finishSteps i

/-- DS 372-389 `apply`: the target afterwards; `none` if an operation is refused -/
def RCtx.apply : Option (Files α (Node A C S)) :=
  match c.events with
  | none => none
  | some evs => (exec (H := Unit) (Δ := Unit) c.stamp (evs.flatMap c.eventSteps) ⟨c.target, [], [[]], [], []⟩).map (·.mirror)

/-- actions/restore.py 219-235 `_operate_restore` -/
def restoreTo (o : Ops A C H Δ L) (st : State α A C S H Δ) (t : Nat) (sub : List α) (target : Files α (Node A C S))
    (stamp : A) (junk : List α → C) (tmp : α) : Option (Files α (Node A C S)) :=
  match mirrorTime st with
  | some (some mt) =>
    match setRestoreTime (incrementTimes st mt) t with
    | none => none
    | some rt =>
      match getDiffs o st mt rt sub target with
      | none => none
      | some ds => RCtx.apply ⟨ds, target, stamp, junk, tmp⟩
  | _ => none

end Verif.RestoreDir
