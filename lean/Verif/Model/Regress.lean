import Verif.Model.Repo
/-
Model of the regress after a failed backup: `_repo_shadow.py` (RS) 1637-1723 `needs_regress`, `regress`,
1831-1944 `_set_regress_time`, `_regress_rbdir`, `_iterate_meta_rfs`, `_iterate_raw_rfs`,
3246-3402 `_RegressFile`, `_RepoRegressITRB`.

Simplifications: permissions are always sufficient (1929-1934, 3332); attributes of a directory are copied
even if they are already loosely equal (3349); a special file is never represented by an empty
regular file (`rpath.py` 249-251); the list of files is taken at the beginning (the code lists each directory
when it gets there, before anything in it is changed).
-/
namespace Verif.Repo
open Verif.Collate Verif.TreeReducer Verif.MetaChain

variable {α A C S H Δ L : Type} [LinearOrder α] [DecidableEq A] [DecidableEq S] [DecidableEq H] [DecidableEq L]

/-- RS 1637-1689 `needs_regress`: `none` is Python's `None`; `error`: no marker, or more than two. -/
inductive Needs where
  | unknown
  | no
  | yes
  | error
  deriving DecidableEq

/-- RS 1637-1689 `needs_regress`: no increments at all: `None`; otherwise by the number of current_mirror markers -/
def needsRegress (st : State α A C S H Δ) : Needs :=
  if st.incs.isEmpty && (st.incdirs.all (fun d => d.isEmpty)) then .unknown else
  match st.marks with
  | [] => .error
  | [_] => .no
  | [_, _] => .yes
  | _ => .error

/-- What a regress depends on besides the repository: the attributes of fresh files, the content of
incompletely written files, an unused name for temporary files. -/
structure RSess (α A C : Type) where
  stamp : A
  junk : List α → C
  tmp : α

/-- RS 1831-1854: newest marker (the failed backup), and the one before -/
def regressTimes (st : State α A C S H Δ) : Option (Nat × Nat) :=
  match st.marks with
  | [a, b] => if a ≤ b then some (b, a) else some (a, b)
  | _ => none

/-- RS 1867-1903 `_regress_rbdir` -/
def rbdirSteps (metas : Dir (List α) (MRec A S H)) (bad good : Nat) : Option (List (Step α A C S H Δ)) :=
  let diffs := metas.filter (fun f => f.time = good ∧ f.snap = false)
  let snaps := metas.filter (fun f => f.time = good ∧ f.snap = true)
  let dels : List (Step α A C S H Δ) := (metas.filter (fun f => f.time = bad)).map (fun f => .delMeta bad f.snap) ++
    diffs.map (fun _ => .delMeta good false)
  if diffs ≠ [] ∧ snaps = [] then
    match metaAtTime metas good (fun _ => true) with
    | none => none
    | some l => some (.putMeta ⟨good, true, l⟩ :: dels)
  else some dels

/-- ordered insertion without repetition -/
def insertKey (i : List α) : List (List α) → List (List α)
  | [] => [i]
  | j :: r => if i < j then i :: j :: r else if i = j then j :: r else j :: insertKey i r

/-- RS 1934-1956 `_iterate_raw_rfs`: all paths in the mirror or among the increments (files and
directories), in order -/
def rawKeys (st : State α A C S H Δ) : List (List α) :=
  (st.mirror.map Prod.fst ++ st.incs.map (·.idx) ++ st.incdirs).foldr insertKey []

/-- RS 1906-1931 `_iterate_meta_rfs`: metadata without any file is skipped with a warning -/
def regressRows (st : State α A C S H Δ) (recs : List (Rec (List α) (MRec A S H))) :
    List (List α × Option (MRec A S H)) :=
  (collate2 id Rec.idx (rawKeys st) recs).filterMap fun
    | (some k, y) => some (k, y.bind (·.data))
    | (none, _) => none

/-- `equal_loose`, `rpath.py` 218-270 -/
def looseEq (o : Ops A C H Δ L) : Option (MRec A S H) → Option (Node A C S) → Bool
  | none, none => true
  | some (.dir a), some (.dir a') => o.loose a = o.loose a'
  | some (.reg a sz _), some (.reg a' x) => o.loose a = o.loose a' && sz == o.size x
  | some (.other a s), some (.other a' s') => o.loose a = o.loose a' && s = s'
  | _, _ => false

/-- what a regress has at hand (RS 1692-1800): the repository, the session which interrupts, the time of the failed and of the good session, the metadata of the good one -/
structure RCtx (α A C S H Δ : Type) where
  st : State α A C S H Δ
  r : RSess α A C
  bad : Nat
  good : Nat
  recs : List (Rec (List α) (MRec A S H))

variable (o : Ops A C H Δ L) (c : RCtx α A C S H Δ)

/-- the file in the mirror (`mirror_rp` of RS `_RegressFile`) -/
def RCtx.mirror (i : List α) : Option (Node A C S) := get c.st.mirror i

/-- `metadata_rorp` -/
def RCtx.rorp (i : List α) : Option (MRec A S H) := (c.recs.find? (fun r => r.idx = i)).bind (·.data)

/-- RS 3258-3267 `_RegressFile.set_relevant_incs`, 2965-2979 `get_newer_incs`: increments of this file not older than the good session -/
def RCtx.newer (i : List α) : List (IncFile α A C S Δ) :=
  newerIncs (c.st.incs.filter (fun f => f.idx = i)) c.good

/-- `get_restore_fp`; an arbitrary content stands for the empty file used after an error -/
def RCtx.content (i : List α) : C :=
  (restoreFp o (setRelevantIncs (c.st.incs.filter (fun f => f.idx = i)) (c.mirror i) c.good c.bad)).getD (c.r.junk i)

/-- RS 3315-3317, 3367-3369: the increment is deleted -/
def RCtx.delSteps (i : List α) : List (Step α A C S H Δ) :=
  match c.newer i with
  | f :: _ => [.delInc i f.time]
  | [] => []

/-- RS 3371-3402 `_restore_orig_regfile` -/
def RCtx.regfileSteps (i : List α) (a : A) (sz : Nat) (h : Option H) : List (Step α A C S H Δ) :=
  match c.mirror i with
  | some (.reg _ x) =>
    if o.size x = sz ∧ h = some (o.sha x) then [.chattr i a]
    else [.write (tmpOf c.r.tmp i) (.reg c.r.stamp (c.r.junk i)),
      .write (tmpOf c.r.tmp i) (.reg c.r.stamp (c.content o i)), .chattr (tmpOf c.r.tmp i) a,
      .rename (tmpOf c.r.tmp i) i]
  | m => (if m.isSome then [.delete i] else []) ++ [.write i (.reg c.r.stamp (c.r.junk i)),
      .write i (.reg c.r.stamp (c.content o i)), .chattr i a]

/-- `delete` and `copy_with_attribs` for what is neither a regular file nor a directory -/
def RCtx.otherSteps (i : List α) : Option (MRec A S H) → List (Step α A C S H Δ)
  | some (.other a s) => (if (c.mirror i).isSome then [.delete i] else []) ++
      [.write i (.other c.r.stamp s), .chattr i a]
  | _ => if (c.mirror i).isSome then [.delete i] else []

/-- RS 3309-3326 `fast_process_file` -/
def RCtx.fastSteps (i : List α) : List (Step α A C S H Δ) :=
  (if looseEq o (c.rorp i) (c.mirror i) then [] else
    match c.rorp i with
    | some (.reg a sz h) => c.regfileSteps o i a sz h
    | m => c.otherSteps i m) ++ c.delSteps i

/-- RS 3328-3338 `start_process_directory` -/
def RCtx.startSteps (i : List α) : List (Step α A C S H Δ) :=
  if isDirRec (c.rorp i) then
    if isDirNode (c.mirror i) then [] else (if (c.mirror i).isSome then [.delete i] else []) ++ [.mkdir i]
  else []

/-- RS 3340-3369 `end_process_directory` -/
def RCtx.finishSteps (i : List α) : List (Step α A C S H Δ) :=
  (match c.rorp i with
    | some (.dir a) => [.chattr i a]
    | some (.reg a sz h) => c.regfileSteps o i a sz h
    | m => c.otherSteps i m) ++ c.delSteps i

/-- RS 3283-3369 `_RepoRegressITRB`: `fast_process_file`, `start_process_directory`, `end_process_directory` -/
def RCtx.eventSteps : Event α → List (Step α A C S H Δ)
  | .fast i => c.fastSteps o i
  | .start i => c.startSteps i
  | .finish i => c.finishSteps o i

/-- RS 3305-3307 `can_fast_process` -/
def RCtx.canFast (i : List α) (m : Option (MRec A S H)) : Bool := !(isDirNode (c.mirror i)) && !(isDirRec m)

/-- The operations of a regress, RS 1693-1723. `none`: it breaks off with an error; the assertion of 3259 is
checked for all files at the beginning here. -/
def regressSteps (st : State α A C S H Δ) (r : RSess α A C) : Option (List (Step α A C S H Δ)) :=
  match regressTimes st with
  | none => none
  | some (bad, good) =>
    match rbdirSteps st.metas bad good with
    | none => none
    | some ms =>
      match exec r.stamp ms st with
      | none => none
      | some st₁ =>
        match metaAtTime st₁.metas good (fun _ => true) with
        | none => none
        | some recs =>
          let c : RCtx α A C S H Δ := ⟨st₁, r, bad, good, recs⟩
          if (rawKeys st₁).any (fun i => 1 < (c.newer i).length) then none else
          match run ((regressRows st₁ recs).map (fun x => (x.1, c.canFast x.1 x.2))) with
          | none => none
          | some evs => some (ms ++ (evs.flatMap (c.eventSteps o) ++ [.unmark bad]))

/-- A complete regress. -/
def regress (st : State α A C S H Δ) (r : RSess α A C) : Option (State α A C S H Δ) :=
  (regressSteps o st r).bind fun steps => exec r.stamp steps st

/-- insertion of a time into an ascending list, without repetition (the `set` and `sorted` of RS 813, 821) -/
def insertTime (t : Nat) : List Nat → List Nat
  | [] => [t]
  | u :: r => if t < u then t :: u :: r else if t = u then u :: r else u :: insertTime t r

/-- RS 805-822 `get_increment_times`: without repetition and in ascending order -/
def sortedTimes (st : State α A C S H Δ) (mt : Nat) : List Nat := (incrementTimes st mt).foldr insertTime []

/-- RS 1727-1751 `force_regress`: with at least two backups, the newest of which is the mirror, a second marker
(`touch_current_mirror`, RS 655-677) with the time of the backup before; `none`: refused.  The order of the markers does
not matter, see `regressTimes`.  The mirror time (RS 743-779) is that of the only marker; not modelled: with two markers
(which happens only where `needs_regress` does not see them because there is no increment) the code goes on with the one listed
first by the file system. -/
def forceRegress (st : State α A C S H Δ) : Option (State α A C S H Δ) :=
  match st.marks with
  | [mt] =>
    match (sortedTimes st mt).reverse with
    | last :: prev :: _ => if last = mt then some { st with marks := st.marks ++ [prev] } else none
    | _ => none
  | _ => none

end Verif.Repo
