import Verif.Model.Repo
/-
Model of `_CachedRF`, through which restore, verify and compare find the mirror file and the increments of each path:
`src/rdiffbackup/locations/_repo_shadow.py` 2809-2905 (`_CachedRF`), 2908-2920, 3050-3123 (`_RestoreFile`).
Not modelled: changing permissions (C43), long names (C42).
-/
namespace Verif.Repo
open Verif.Collate Verif.MetaChain

variable {α A C S H Δ L : Type} [LinearOrder α]

/-- RS 2908-2922 `_RestoreFile`: index, mirror file (if it exists), increments -/
structure RestoreFile (α A C S Δ : Type) where
  idx : List α
  mirror : Option (Node A C S)
  incs : List (IncFile α A C S Δ)

/-- the set of names of a directory listing, in order (duplicates are dropped) -/
def insertName (i : List α) : List (List α) → List (List α)
  | [] => [i]
  | j :: l => if i < j then i :: j :: l else if i = j then j :: l else j :: insertName i l

/-- `robust.listrp`, `list.sort` -/
def sortNames : List (List α) → List (List α)
  | [] => []
  | i :: l => insertName i (sortNames l)

/-- the paths directly in directory `p` -/
def childrenOf (p : List α) (l : List (List α)) : List (List α) := l.filter fun i => i ≠ [] ∧ i.dropLast = p

/-- RS 3149-3158 `_yield_mirrorrps` of directory `p`, nothing if it is no directory (RS 3054-3057) -/
def mirrorNames (st : State α A C S H Δ) (p : List α) : List (List α) :=
  if isDirAt st.mirror p then sortNames (childrenOf p (st.mirror.map Prod.fst)) else []

/-- RS 3074-3123 `yield_inc_complexes`: the base names of increments, and the directories -/
def incNames (st : State α A C S H Δ) (p : List α) : List (List α) :=
  if st.incdirs.contains p then sortNames (childrenOf p (st.incs.map (·.idx) ++ st.incdirs)) else []

/-- RS 3063-3072: one row of the collated listings -/
def rowRf (st : State α A C S H Δ) : Option (List α) × Option (List α) → Option (RestoreFile α A C S Δ)
  | (some i, none) => some ⟨i, get st.mirror i, []⟩
  | (some i, some _) => some ⟨i, get st.mirror i, st.incs.filter (fun f => f.idx = i)⟩
  | (none, some i) => some ⟨i, none, st.incs.filter (fun f => f.idx = i)⟩
  | (none, none) => none

/-- RS 3050-3072 `yield_sub_rfs` -/
def subRfs (st : State α A C S H Δ) (p : List α) : List (RestoreFile α A C S Δ) :=
  (collate2 id id (mirrorNames st p) (incNames st p)).filterMap (rowRf st)

/-- how a pass of the loop in `_get_rf` ends -/
inductive Pass (α A C S Δ : Type) where
  | found (rf : RestoreFile α A C S Δ) (l : List (RestoreFile α A C S Δ))
  | missing (l : List (RestoreFile α A C S Δ))
  | again (l : List (RestoreFile α A C S Δ))
  | error

/-- RS 2857-2874 and 2876-2899 `_add_rfs`: one pass of the loop in `_get_rf`; `l`: `rf_list`. If the list is empty, the same pass goes on
with the new list, here the next one does.  For the base directory `_add_rfs` adds nothing but doesn't say so. -/
def rfPass (st : State α A C S H Δ) (i : List α) : List (RestoreFile α A C S Δ) → Pass α A C S Δ
  | [] =>
    if i = [] then .error else
    match subRfs st i.dropLast with
    | [] => .missing []
    | rf :: l => .again (rf :: l)
  | rf :: l =>
    if rf.idx = i then .found rf (rf :: l)
    else if i < rf.idx then
      if i.dropLast = rf.idx.dropLast then .missing (rf :: l)
      else if i = [] then .again (rf :: l)
      else
        match subRfs st i.dropLast with
        | [] => .missing (rf :: l)
        | rf' :: l' => .again (rf' :: l' ++ rf :: l)
    else .again l

/-- RS 2855-2874 `_get_rf` with at most `n` passes: what is returned (Python's None: `none`) and `rf_list` afterwards; `none` if the loop
has not ended (or with an exception) -/
def getRf (st : State α A C S H Δ) (i : List α) : Nat → List (RestoreFile α A C S Δ) → Option (Option (RestoreFile α A C S Δ) × List (RestoreFile α A C S Δ))
  | 0, _ => none
  | n + 1, l =>
    match rfPass st i l with
    | .found rf l' => some (some rf, l')
    | .missing l' => some (none, l')
    | .again l' => getRf st i n l'
    | .error => none

/-- requests one after the other, each with at most `n` passes -/
def getRfs (st : State α A C S H Δ) (n : Nat) : List (List α) → List (RestoreFile α A C S Δ) → Option (List (Option (RestoreFile α A C S Δ)))
  | [], _ => some []
  | i :: is, l =>
    match getRf st i n l with
    | none => none
    | some (r, l') => (getRfs st n is l').map (r :: ·)

/-- the file system as seen by the reading of increments: the data of an empty file; what `open` and `read` give for a link, fifo or device
(`none`: an exception ends the run) -/
structure Reading (C S : Type) where
  empty : C
  special : S → Option C

/-- `relevant_incs[-1].isreg()`: increments of types missing and dir are (empty) regular files -/
def relIsReg : Rel A C S Δ → Bool
  | .mirror (some n) => n.isReg
  | .mirror none => false
  | .inc (.snap n) => n.isReg
  | .inc _ => true

/-- RS 3124-3147 `_get_first_fp` and its error handling (3025-3031): a missing file (ENOENT) is substituted by an empty one (`.inr`, and no
patches are applied), opening a directory (EISDIR) and the assertion that the type is snapshot end the run (`none`) -/
def openFirst (F : Reading C S) : Rel A C S Δ → Option (C ⊕ C)
  | .mirror none => some (.inr F.empty)
  | .mirror (some (.reg _ x)) => some (.inl x)
  | .mirror (some (.dir _)) => none
  | .mirror (some (.other _ s)) => (F.special s).map .inl
  | .inc (.snap (.reg _ x)) => some (.inl x)
  | .inc (.snap (.dir _)) => none
  | .inc (.snap (.other _ s)) => (F.special s).map .inl
  | .inc _ => none

/-- RS 3000-3049 `get_restore_fp`: the data, `none` if an exception ends the run. Differences which librsync can't apply (then the data
are empty, too) are not modelled: `patch` is total. -/
def getRestoreFp (o : Ops A C H Δ L) (F : Reading C S) (rel : List (Rel A C S Δ)) : Option C :=
  match rel.getLast? with
  | none => none
  | some last =>
    if !relIsReg last then some F.empty
    else
      match rel with
      | [] => none
      | f :: r =>
        match openFirst F f with
        | none => none
        | some (.inr x) => some x
        | some (.inl x) => patchAll o x r

/-- RS 2831-2848 `get_fp` for what `_get_rf` returned -/
def getFp (o : Ops A C H Δ L) (F : Reading C S) (mirrorTime t : Nat) : Option (RestoreFile α A C S Δ) → Option C
  | none => some F.empty
  | some rf => getRestoreFp o F (setRelevantIncs rf.incs rf.mirror t mirrorTime)

/-- RS 948-992 `_get_diffs_from_collated`, `_get_diff` for an empty target: all files of the records, with the data of regular files; `l`: the
cache. `none`: exception, or a loop which has not ended within `n` passes. -/
def restoreLoop (o : Ops A C H Δ L) (F : Reading C S) (st : State α A C S H Δ) (n mirrorTime t : Nat) :
    List (Rec (List α) (MRec A S H)) → List (RestoreFile α A C S Δ) → Option (List (List α × Node A C S))
  | [], _ => some []
  | r :: rs, l =>
    match r.data with
    | none => none
    | some (.dir a) => (restoreLoop o F st n mirrorTime t rs l).map ((r.idx, .dir a) :: ·)
    | some (.other a s) => (restoreLoop o F st n mirrorTime t rs l).map ((r.idx, .other a s) :: ·)
    | some (.reg a _ _) =>
      match getRf st r.idx n l with
      | none => none
      | some (rf, l') =>
        match getFp o F mirrorTime t rf with
        | none => none
        | some x => (restoreLoop o F st n mirrorTime t rs l').map ((r.idx, .reg a x) :: ·)

variable [DecidableEq A] [DecidableEq S] [DecidableEq H]

/-- RS 827-835 `_initialize_restore`, 846-870, 924-945: the time of the backup to read and its records -/
def recordsAt (st : State α A C S H Δ) (mirrorTime t : Nat) (sub : List α) : Option (Nat × List (Rec (List α) (MRec A S H))) :=
  match setRestoreTime (incrementTimes st mirrorTime) t with
  | none => none
  | some rt => (metaAtTime st.metas rt (fun i => sub.isPrefixOf i)).map (rt, ·)

/-- A whole restore of `sub` at time `t` into an empty directory through the cache; `mirrorTime`: from `get_mirror_time` -/
def restoreCached (o : Ops A C H Δ L) (F : Reading C S) (st : State α A C S H Δ) (n mirrorTime t : Nat) (sub : List α) :
    Option (List (List α × Node A C S)) :=
  match recordsAt st mirrorTime t sub with
  | none => none
  | some (rt, recs) => restoreLoop o F st n mirrorTime rt recs []

end Verif.Repo
