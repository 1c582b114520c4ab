import Verif.Props.C04
/-
C09  Removing old increments keeps newer backups restorable.
C10  Removal refuses to delete several increments without force.
-/
set_option linter.unusedSectionVars false
namespace Verif.C09
open Verif.Repo Verif.MetaChain
variable {α A C S H Δ L : Type} [LinearOrder α] [DecidableEq A] [DecidableEq S] [DecidableEq H] [DecidableEq L]
variable {o : Ops A C H Δ L} {rsv : α → Prop} {st st' : State α A C S H Δ} {hist : Hist α A C S}

/-- A removal which is interrupted: files with a time before `t` are deleted in any order, so that any of them may
be left (RS 1244-1249 walks through the data directory in the order of `listdir`). -/
structure PartlyRemoved (st : State α A C S H Δ) (t : Nat) (st' : State α A C S H Δ) : Prop where
  mirror : st'.mirror = st.mirror
  incs : ∃ p : IncFile α A C S Δ → Bool, (∀ f, t ≤ f.time → p f = true) ∧ st'.incs = st.incs.filter p
  metas : ∃ p : MFile (List α) (MRec A S H) → Bool, (∀ f, t ≤ f.time → p f = true) ∧ st'.metas = st.metas.filter p
  marks : ∃ p : Nat → Bool, (∀ m, t ≤ m → p m = true) ∧ st'.marks = st.marks.filter p

/-- the complete removal is one of them -/
theorem removeBefore_partly (st : State α A C S H Δ) (t : Nat) : PartlyRemoved st t (removeBefore st t) :=
  ⟨rfl, ⟨fun f => decide (t ≤ f.time), by simp, rfl⟩, ⟨fun f => decide (t ≤ f.time), by simp, rfl⟩,
    ⟨fun m => decide (t ≤ m), by simp, rfl⟩⟩

theorem filter_of_imp {β : Type} {l : List β} {p q : β → Bool} (h : ∀ x, q x = true → p x = true) :
    (l.filter p).filter q = l.filter q := by
  rw [List.filter_filter]
  apply List.filter_congr
  intro x _
  cases hq : q x
  · simp
  · simp [h x hq]

theorem restore_kept_aux {P : Prot α A C S H Δ} {T0 rest L0 mrest} (hs : Static o rsv P T0 rest L0 mrest)
    (hc : Clean o P T0 L0 mrest st) {t b : Nat} {T : Files α (Node A C S)} (hm : (b, T) ∈ (P.t0, T0) :: rest)
    (hb : t ≤ b) (ht : t ≤ P.t0) (hp : PartlyRemoved st t st') (sub : List α) :
    restore o st' b sub = some (T.filter (fun x => sub.isPrefixOf x.1)) := by
  obtain ⟨recs, h1, h2⟩ := restore_at hs hc hm sub
  obtain ⟨pm, hpm, hmarks⟩ := hp.marks
  obtain ⟨pf, hpf, hmetas⟩ := hp.metas
  obtain ⟨pi, hpi, hincs⟩ := hp.incs
  have hmk : st'.marks = [P.t0] := by rw [hmarks, hc.marks, List.filter_cons, if_pos (hpm _ ht)]; rfl
  have hmt : mirrorTime st' = some (some P.t0) := by simp [mirrorTime, hmk]
  -- the metadata
  have hrel : metaAtTime st'.metas b (fun i => sub.isPrefixOf i) = some recs := by
    rw [← h1]
    obtain ⟨⟨c, hpc, hr, -⟩, hd, -⟩ := hc.metas
    rw [← hr.times] at hd
    unfold metaAtTime relevantIncs
    rw [hmetas, sortedInclist_eq hpc hd, sortedInclist_eq (hpc.filter pf) (hd.sublist (List.filter_sublist.map _)),
      filter_of_imp (fun f hf => hpf f (by simp at hf; omega))]
  -- the time
  have hsub : ∀ x ∈ incrementTimes st' P.t0, x ∈ incrementTimes st P.t0 := by
    intro x hx
    unfold incrementTimes at hx ⊢
    rw [hmetas, hincs] at hx
    simp only [List.mem_append, List.mem_cons, List.mem_map, List.mem_filter] at hx ⊢
    rcases hx with (hx | ⟨f, ⟨⟨h3, -⟩, h4⟩, h5⟩) | ⟨f, ⟨h3, -⟩, h4⟩
    · exact .inl (.inl hx)
    · exact .inl (.inr ⟨f, ⟨h3, h4⟩, h5⟩)
    · exact .inr ⟨f, h3, h4⟩
  have hin : b ∈ incrementTimes st' P.t0 := by
    unfold incrementTimes
    rw [hmetas, List.mem_append]
    right
    have : b ∈ st.metas.map (·.time) := by
      obtain ⟨⟨c, hpc, hr, -⟩, -, -⟩ := hc.metas
      rw [(hpc.map _).mem_iff, hr.times, hs.mtimes]
      exact List.mem_map.mpr ⟨_, hm, rfl⟩
    obtain ⟨f, hf, he⟩ := List.mem_map.mp this
    exact List.mem_map.mpr ⟨f, List.mem_filter.mpr ⟨hf, hpf f (by omega)⟩, he⟩
  have hset : setRestoreTime (incrementTimes st' P.t0) b = some b := by
    unfold setRestoreTime
    have : ((incrementTimes st' P.t0).filter (· ≤ b)).max? = some b := by
      rw [List.max?_eq_some_iff]
      exact ⟨List.mem_filter.mpr ⟨hin, by simp⟩, fun x hx => by simpa using (List.mem_filter.mp hx).2⟩
    rw [this]
  unfold restore
  rw [hmt]; simp only
  rw [hset]; simp only
  rw [hrel]; simp only
  rw [← h2]
  congr 1
  apply List.map_congr_left
  intro r _
  unfold restoreOne
  split
  · rfl
  · rfl
  · rfl
  · congr 1
    unfold restoreContent
    have hlt : ∀ f ∈ incsAt st r.idx, f.time < P.t0 := by
      intro f hf; rw [hc.incs] at hf; exact (hs.incs _ f hf).2.1
    have hsb : ∀ f ∈ incsAt st' r.idx, f ∈ incsAt st r.idx := by
      intro f hf
      unfold incsAt at hf ⊢
      rw [hincs] at hf
      obtain ⟨h3, h4⟩ := List.mem_filter.mp hf
      exact List.mem_filter.mpr ⟨List.mem_of_mem_filter h3, h4⟩
    rw [show st'.incs.filter (fun f => decide (f.idx = r.idx)) = incsAt st' r.idx from rfl,
      show st.incs.filter (fun f => decide (f.idx = r.idx)) = incsAt st r.idx from rfl,
      restoreFp_eq hlt, restoreFp_eq (fun f hf => hlt f (hsb f hf)), hp.mirror]
    congr 2
    unfold newerIncs incsAt
    rw [hincs]
    congr 1
    rw [List.filter_filter, List.filter_filter, List.filter_filter]
    apply List.filter_congr
    intro f _
    by_cases hf : b ≤ f.time
    · simp [hf, hpi f (by omega)]
    · simp [hf]

/-- Removal of what is older than `t`, even when interrupted at any point: every backup not older than `t` restores
exactly as before. -/
theorem kept_restorable (h : Reach o rsv false st hist) {older : Nat} {force : Bool} {t : Nat}
    (hr : removalTime st older force = .before t) (hp : PartlyRemoved st t st') {b : Nat} {T : Files α (Node A C S)}
    (hm : (b, T) ∈ hist) (hb : t ≤ b) (sub : List α) :
    restore o st' b sub = restore o st b sub ∧ restore o st' b [] = some T := by
  rcases (reach_inv h).1 rfl with ⟨rfl, -⟩ | ⟨P, T0, rest, L0, mrest, rfl, hs, hc⟩
  · cases hm
  · obtain ⟨-, f, hf, hf0, rfl⟩ := removal_bound hr
    have hmem : f ∈ incsAt st [] := by simp [incsAt, hf, hf0]
    rw [hc.incs] at hmem
    have hlt := (hs.incs _ f hmem).2.1
    refine ⟨?_, ?_⟩
    · rw [restore_kept_aux hs hc hm hb hlt hp sub, restore_kept_aux hs hc hm (t := 0) (Nat.zero_le _) (Nat.zero_le _)
        (st' := st) ⟨rfl, ⟨fun _ => true, by simp, by simp⟩, ⟨fun _ => true, by simp, by simp⟩, ⟨fun _ => true, by simp, by simp⟩⟩ sub]
    · have := restore_kept_aux hs hc hm hb hlt hp []
      simpa using this

/-- A removal deletes only what is older than asked for: all backups from `older` on, and always the newest one,
restore exactly as before; the mirror and its marker are not touched. -/
theorem remove_keeps (h : Reach o rsv false st hist) {older : Nat} {force : Bool}
    (hr : removeOlder st older force = some st') :
    st'.mirror = st.mirror ∧ st'.marks = st.marks ∧
    (∀ b T, (b, T) ∈ hist → older ≤ b → ∀ sub, restore o st' b sub = restore o st b sub) ∧
    (∀ x, hist.head? = some x → ∀ sub, restore o st' x.1 sub = restore o st x.1 sub) := by
  unfold removeOlder at hr
  split at hr
  · cases hr
  · cases hr; exact ⟨rfl, rfl, fun _ _ _ _ _ => rfl, fun _ _ _ => rfl⟩
  · next t ht =>
    cases hr
    have hp := removeBefore_partly st t
    rcases (reach_inv h).1 rfl with ⟨rfl, a, rfl⟩ | ⟨P, T0, rest, L0, mrest, rfl, hs, hc⟩
    · exact ⟨rfl, rfl, by simp, by simp⟩
    · obtain ⟨hle, f, hf, hf0, rfl⟩ := removal_bound ht
      have hmem : f ∈ incsAt st [] := by simp [incsAt, hf, hf0]
      rw [hc.incs] at hmem
      have hlt := (hs.incs _ f hmem).2.1
      refine ⟨rfl, ?_, ?_, ?_⟩
      · simp only [removeBefore, hc.marks]
        rw [List.filter_cons, if_pos (by simp; omega)]; rfl
      · intro b T hm hb sub
        exact (kept_restorable h ht hp hm (by omega) sub).1
      · intro x hx sub
        cases hx
        exact (kept_restorable h ht hp (b := P.t0) (T := T0) (by simp) (by omega) sub).1

/-- What is older is gone completely after the removal: no increments, metadata or markers are left, the times
are no longer offered for restoring. -/
theorem older_gone {t b : Nat} (hb : b < t) : (∀ f ∈ (removeBefore st t).incs, f.time ≠ b) ∧
    (∀ f ∈ (removeBefore st t).metas, f.time ≠ b) ∧ b ∉ (removeBefore st t).marks := by
  simp only [removeBefore, List.mem_filter]
  refine ⟨?_, ?_, ?_⟩
  · rintro f ⟨-, hf⟩; simp at hf; omega
  · rintro f ⟨-, hf⟩; simp at hf; omega
  · rintro ⟨-, hm⟩; simp at hm; omega

open Verif.Repo.Demo in
/-- not vacuous: of three backups the oldest is removed -/
example : ∃ st', removeOlder st3 15 false = some st' ∧ restore ops st' 20 [] = some src2 ∧
    restore ops st' 30 [] = some src3 ∧ restore ops st' 10 [] ≠ some src1 := by
  refine ⟨removeBefore st3 11, ?_, ?_, ?_, ?_⟩
  · have : removalTime st3 15 false = .before 11 := by decide +kernel
    simp [removeOlder, this]
  · exact (kept_restorable reach3 (older := 15) (force := false) (by decide +kernel) (removeBefore_partly _ 11) (by simp) (by decide) []).2
  · exact (kept_restorable reach3 (older := 15) (force := false) (by decide +kernel) (removeBefore_partly _ 11) (by simp) (by decide) []).2
  · decide +kernel

open Verif.Repo.Demo in
/-- Finding F12: a removal which is interrupted can leave a backup which is still listed, restores to something
wrong, and is not found by another removal, even with force. -/
theorem interrupted_removal_leaves_broken_backup : ∃ st' : State Nat Nat Nat Nat Nat (Nat × Nat),
    removalTime st2 20 true = .before 11 ∧ PartlyRemoved st2 11 st' ∧
    10 ∈ incrementTimes st' 20 ∧ restore ops st' 10 [] ≠ some src1 ∧ (restore ops st' 10 []).isSome ∧
    removeOlder st' 20 true = some st' := by
  refine ⟨{ st2 with incs := st2.incs.filter (fun f => f.time ≠ 10 ∨ (f.idx ≠ [] ∧ f.idx ≠ [1])) }, by decide +kernel,
    ⟨rfl, ⟨_, ?_, rfl⟩, ⟨fun _ => true, by simp, by simp⟩, ⟨fun _ => true, by simp, by simp⟩⟩, by decide +kernel,
    by decide +kernel, by decide +kernel, ?_⟩
  · intro f hf; simp; omega
  · have : removalTime { st2 with incs := st2.incs.filter (fun f => f.time ≠ 10 ∨ (f.idx ≠ [] ∧ f.idx ≠ [1])) } 20 true = .nothing := by
      decide +kernel
    simp only [removeOlder, this]

end Verif.C09

namespace Verif.C10
open Verif.Repo Verif.MetaChain
variable {α A C S H Δ L : Type} [LinearOrder α] [DecidableEq A] [DecidableEq S] [DecidableEq H] [DecidableEq L]
variable {o : Ops A C H Δ L} {rsv : α → Prop} {st st' : State α A C S H Δ} {hist : Hist α A C S}

/-- the files `increments.<time>.dir` with a time before `older` -/
def rootIncrementsBefore (st : State α A C S H Δ) (older : Nat) : List (IncFile α A C S Δ) :=
  st.incs.filter (fun f => f.idx = [] ∧ f.time < older)

theorem removalTimes_length (older : Nat) : (removalTimes st older).length = (rootIncrementsBefore st older).length := by
  unfold removalTimes rootIncrementsBefore
  rw [List.filter_map, List.length_map, List.filter_filter]
  congr 1
  apply List.filter_congr
  intro f _
  simp [and_comm]

/-- Without `--force` the removal is refused exactly if there is more than one increment to remove. -/
theorem refused_iff (older : Nat) : removeOlder st older false = none ↔ 1 < (rootIncrementsBefore st older).length := by
  rw [← removalTimes_length]
  unfold removeOlder removalTime
  cases hm : (removalTimes st older).max? with
  | none => rw [List.max?_eq_none_iff] at hm; simp [hm]
  | some m =>
    simp only
    by_cases h : 1 < (removalTimes st older).length <;> simp [h]

/-- Without anything to remove, nothing is deleted. -/
theorem nothing_to_remove (older : Nat) (force : Bool) (h : (rootIncrementsBefore st older).length = 0) :
    removeOlder st older force = some st := by
  rw [← removalTimes_length] at h
  have : removalTimes st older = [] := List.length_eq_zero_iff.mp h
  unfold removeOlder removalTime
  simp [this]

/-- With exactly one, or with `--force`, everything up to the newest of them is removed. -/
theorem removed (older : Nat) (force : Bool) (h0 : 0 < (rootIncrementsBefore st older).length)
    (h : force = true ∨ (rootIncrementsBefore st older).length = 1) :
    ∃ f ∈ rootIncrementsBefore st older, (∀ g ∈ rootIncrementsBefore st older, g.time ≤ f.time) ∧
      removeOlder st older force = some (removeBefore st (f.time + 1)) := by
  rw [← removalTimes_length] at h0 h
  have hmem : ∀ x, x ∈ removalTimes st older ↔ ∃ f ∈ rootIncrementsBefore st older, f.time = x := by
    intro x
    unfold removalTimes rootIncrementsBefore
    simp only [List.mem_filter, List.mem_map, decide_eq_true_eq]
    constructor
    · rintro ⟨⟨f, ⟨h1, h2⟩, rfl⟩, h3⟩; exact ⟨f, ⟨h1, h2, h3⟩, rfl⟩
    · rintro ⟨f, ⟨h1, h2, h3⟩, rfl⟩; exact ⟨⟨f, ⟨h1, h2⟩, rfl⟩, h3⟩
  cases hm : (removalTimes st older).max? with
  | none => rw [List.max?_eq_none_iff] at hm; simp [hm] at h0
  | some m =>
    obtain ⟨h1, h2⟩ := List.max?_eq_some_iff.mp hm
    obtain ⟨f, hf, rfl⟩ := (hmem _).mp h1
    refine ⟨f, hf, fun g hg => h2 _ ((hmem _).mpr ⟨g, hg, rfl⟩), ?_⟩
    unfold removeOlder removalTime
    rw [hm]; simp only
    rw [if_neg]
    rintro ⟨h3, h4⟩
    rcases h with h | h
    · rw [h] at h4; cases h4
    · omega

open Verif.Repo.Demo

example : removeOlder st3 25 false = none := (refused_iff 25).mpr (by decide +kernel)
example : removeOlder st3 5 true = some st3 := nothing_to_remove 5 true (by decide +kernel)
example : ∃ f ∈ rootIncrementsBefore st3 25, (∀ g ∈ rootIncrementsBefore st3 25, g.time ≤ f.time) ∧
    removeOlder st3 25 true = some (removeBefore st3 (f.time + 1)) := removed 25 true (by decide +kernel) (.inl rfl)

/-- a second backup of the unchanged source -/
def same2 := (backup ops st1 (sess 20 src1)).get (by decide +kernel)
def same3 := (backup ops same2 (sess 30 src2)).get (by decide +kernel)
theorem same_valid2 : ValidSess ops Demo.rsv [(10, src1)] (sess 20 src1) :=
  ⟨valid1.tree, by decide +kernel, rfl, honest_any _ _⟩
theorem same_valid3 : ValidSess ops Demo.rsv [(20, src1), (10, src1)] (sess 30 src2) :=
  ⟨valid2.tree, by decide +kernel, rfl, honest_any _ _⟩
theorem same_reach : Reach ops Demo.rsv false same3 [(30, src2), (20, src1), (10, src1)] :=
  .backup (st := same2) (.backup reach1 same_valid2 (by simp [same2]) (recorded_src _ (sess 20 src1) valid1.tree.ordered (fun _ => rfl)))
    same_valid3 (by simp [same3]) (recorded_src _ _ valid2.tree.ordered (fun _ => rfl))

/-- Finding F11: a session in which nothing has changed leaves no increment of the root directory, so that two backups
are removed without `--force`. -/
theorem two_backups_removed_without_force : ∃ (st st' : State Nat Nat Nat Nat Nat (Nat × Nat)),
    Reach ops Demo.rsv false st [(30, src2), (20, src1), (10, src1)] ∧ removeOlder st 30 false = some st' ∧
    10 ∉ incrementTimes st' 30 ∧ 20 ∉ incrementTimes st' 30 := by
  refine ⟨same3, removeBefore same3 21, same_reach, ?_, by decide +kernel, by decide +kernel⟩
  have : removalTime same3 30 false = .before 21 := by decide +kernel
  simp [removeOlder, this]

/-- Finding F10: removal does not check for an interrupted backup; it then deletes what is needed to undo it, and the
last complete backup is lost although it is not older than all the others. -/
theorem removal_destroys_interrupted : ∃ (st st' : State Nat Nat Nat Nat Nat (Nat × Nat)),
    Reach ops Demo.rsv true st [(10, src1)] ∧ removeOlder st 15 false = some st' ∧ needsRegress st' ≠ .yes ∧
    restore ops st' 10 [] ≠ some src1 := by
  let steps := (sessionSteps ops st1 (sess 20 src2)).get (by decide +kernel)
  let stc := (exec 99 (steps.take 12) st1).get (by decide +kernel)
  refine ⟨stc, removeBefore stc 11, .crash (n := 12) (steps := steps) reach1 (by simp) valid2 (by simp [steps]) (by simp)
    (by decide +kernel) (by simp [stc, sess]), ?_, by decide +kernel, by decide +kernel⟩
  have : removalTime stc 15 false = .before 11 := by decide +kernel
  simp [removeOlder, this]

end Verif.C10
