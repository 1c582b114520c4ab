import Verif.Props.C04
/-
C56  The first backup can be made into any directory; if it is interrupted, any number of times, it can be started over.
-/
set_option linter.unusedSectionVars false
namespace Verif.C56
open Verif.Repo
variable {α A C S H Δ L : Type} [LinearOrder α] [DecidableEq A] [DecidableEq S] [DecidableEq H] [DecidableEq L]
variable {o : Ops A C H Δ L} {rsv : α → Prop} {st st' : State α A C S H Δ} {hist : Hist α A C S}

/-- Any number of first backups of any sources, each interrupted after any number of operations, beginning in a directory containing `m`;
between them, the clean-up of the data directory may be interrupted as well. -/
inductive FirstTried (o : Ops A C H Δ L) (rsv : α → Prop) (m : Files α (Node A C S)) : State α A C S H Δ → Prop
  | none : FirstTried o rsv m ⟨m, [], [[]], [], []⟩
  | cleaned {st : State α A C S H Δ} : FirstTried o rsv m st → FirstTried o rsv m { st with metas := [] }
  | once {st st₁ st₂ : State α A C S H Δ} {force locked : Bool} {s : Sess α A C S H Δ} {steps n} : FirstTried o rsv m st →
      createRepo force locked st = some st₁ →
      ValidFirst o rsv st₁.mirror s → sessionSteps o st₁ s = some steps → n < steps.length →
      exec s.stamp (steps.take n) st₁ = some st₂ → FirstTried o rsv m st₂

theorem create_failed (hk : st.marks = []) (hm : st.metas.length ≤ 1) {force locked : Bool}
    (hl : locked = true → force = true) : createRepo force locked st = some ⟨st.mirror, [], [[]], [], []⟩ := by
  have : isFailedInitial st = true := by simp [isFailedInitial, hk, hm]
  unfold createRepo
  rw [if_pos this, if_neg (by cases locked <;> cases force <;> simp_all), hk]

/-- what an interrupted first backup leaves -/
theorem tried_inv {m : Files α (Node A C S)} (hm : IsDirectory m) (h : FirstTried o rsv m st) :
    IsDirectory st.mirror ∧ st.marks = [] ∧ st.metas.length ≤ 1 := by
  induction h with
  | none => exact ⟨hm, rfl, by simp⟩
  | cleaned _ ih => exact ⟨ih.1, ih.2.1, by simp⟩
  | @once st st₁ st₂ force locked s steps n _ hc hv hs hn he ih =>
    have e : st₁ = anyState st.mirror := by
      have hf : isFailedInitial st = true := by simp [isFailedInitial, ih.2.1, ih.2.2]
      unfold createRepo at hc
      rw [if_pos hf] at hc
      split at hc
      · cases hc
      · cases hc; rw [ih.2.1]; rfl
    subst e
    obtain ⟨work, st', h1, -, -, h4⟩ := session_any ih.1 hv
    rw [h1] at hs; cases hs
    obtain ⟨st'', h5, h6⟩ := h4 n
    simp only [List.length_append, List.length_cons, List.length_nil] at hn
    rw [List.take_append_of_le_length (by omega), h5] at he
    cases he
    exact h6

theorem fresh_full {m : Files α (Node A C S)} (hm : IsDirectory m) {s : Sess α A C S H Δ} (hv : ValidFirst o rsv m s)
    {st : State α A C S H Δ} {force locked : Bool} (hc : createRepo force locked st = some ⟨m, [], [[]], [], []⟩) (r : RSess α A C)
    {T : Files α (Node A C S)} (hT : Recorded m s T) :
    ∃ st', fullBackup o force locked st r s = some st' ∧ Reach o rsv false st' [(s.now, T)] ∧
      ∀ t sub, restore o st' t sub = some (T.filter fun x => sub.isPrefixOf x.1) := by
  obtain ⟨work, st', h1, h2, -, -⟩ := session_any hm hv
  have hb : backup o ⟨m, [], [[]], [], []⟩ s = some st' := by
    unfold backup
    unfold anyState at h1 h2
    rw [h1]; exact h2
  have hr : Reach o rsv false st' [(s.now, T)] := .fresh hm hv hb hT
  refine ⟨st', ?_, hr, fun t sub => ?_⟩
  · unfold fullBackup
    rw [hc, Option.bind_some]
    exact hb
  · obtain ⟨x, hx, he⟩ := ((reach_inv hr).1 rfl).restore (by simp) t sub
    have : x = (s.now, T) := by
      unfold chosen at hx
      by_cases h : s.now ≤ t
      · simp [List.find?, h] at hx; exact hx.symm
      · simp [List.find?, h] at hx; exact hx.symm
    rw [he, this]

/-- The first backup into a directory with any contents (`--force` is not part of this, see notes): it succeeds, and what it
recorded is restored exactly, whatever time is asked for. -/
theorem first_into_any {m : Files α (Node A C S)} (hm : IsDirectory m) {s : Sess α A C S H Δ} (hv : ValidFirst o rsv m s)
    (r : RSess α A C) {T : Files α (Node A C S)} (hT : Recorded m s T) :
    ∃ st', fullBackup o false false ⟨m, [], [[]], [], []⟩ r s = some st' ∧ Reach o rsv false st' [(s.now, T)] ∧
      ∀ t sub, restore o st' t sub = some (T.filter fun x => sub.isPrefixOf x.1) :=
  fresh_full hm hv (create_failed rfl (by simp) (by simp)) r hT

/-- If nothing fails, the backup is the source: nothing of what was in the directory before is left in it. -/
theorem first_exact {m : Files α (Node A C S)} (hm : IsDirectory m) {s : Sess α A C S H Δ} (hv : ValidFirst o rsv m s)
    (r : RSess α A C) (hf : ∀ i, s.fails i = false) :
    ∃ st', fullBackup o false false ⟨m, [], [[]], [], []⟩ r s = some st' ∧ (∀ t, restore o st' t [] = some s.src) ∧
      ∀ i, SameFile o (get st'.mirror i) (get s.src i) := by
  obtain ⟨st', h1, h2, h3⟩ := first_into_any hm hv r (recorded_src m s hv.tree.ordered hf)
  refine ⟨st', h1, fun t => by rw [h3]; simp, ?_⟩
  rcases (reach_inv h2).1 rfl with ⟨h, -⟩ | ⟨P, T0, rest, L0, mrest, he, hs, hc⟩
  · cases h
  · simp only [List.cons.injEq, Prod.mk.injEq] at he
    obtain ⟨⟨-, rfl⟩, -⟩ := he
    intro i
    exact C05.sameFile_of (hc.mirror i) (LooseNode.refl _)

/-- Interrupted first backups, any number of times, each at any moment: with `--force`, or if the lock file is gone, the next
backup (of any source) succeeds and is restored exactly. -/
theorem first_restarted {m : Files α (Node A C S)} (hm : IsDirectory m) (h : FirstTried o rsv m st) {s : Sess α A C S H Δ}
    (hv : ValidFirst o rsv st.mirror s) (r : RSess α A C) {force locked : Bool} (hl : locked = true → force = true)
    {T : Files α (Node A C S)} (hT : Recorded st.mirror s T) :
    ∃ st', fullBackup o force locked st r s = some st' ∧ Reach o rsv false st' [(s.now, T)] ∧
      ∀ t sub, restore o st' t sub = some (T.filter fun x => sub.isPrefixOf x.1) := by
  obtain ⟨h1, h2, h3⟩ := tried_inv hm h
  exact fresh_full h1 hv (create_failed h2 h3 hl) r hT

/-- Otherwise the next backup is refused: the first backup might still be running. -/
theorem first_locked {m : Files α (Node A C S)} (hm : IsDirectory m) (h : FirstTried o rsv m st) (s : Sess α A C S H Δ)
    (r : RSess α A C) : fullBackup o false true st r s = none := by
  obtain ⟨-, h2, h3⟩ := tried_inv hm h
  have : isFailedInitial st = true := by simp [isFailedInitial, h2, h3]
  simp [fullBackup, createRepo, this]

/-- An interrupted first backup is not restored. -/
theorem first_not_restored {m : Files α (Node A C S)} (hm : IsDirectory m) (h : FirstTried o rsv m st) (t : Nat) (sub : List α) :
    restore o st t sub = none := by
  obtain ⟨-, h2, -⟩ := tried_inv hm h
  simp [restore, mirrorTime, h2]

/-- A repository with a complete backup is never taken for an interrupted first backup: nothing is removed, in any state
it may be left in by whatever is done later. -/
theorem complete_kept {b : Bool} (h : Reach o rsv b st hist) (hne : hist ≠ []) (force locked : Bool) :
    createRepo force locked st = some st := by
  have : st.marks ≠ [] := by
    cases b with
    | false =>
      rw [C06.complete_one_marker h]
      cases hist with
      | nil => exact absurd rfl hne
      | cons x l => simp
    | true =>
      obtain ⟨P, T0, rest, L0, mrest, bad, rfl, hs, hlt, hw⟩ := (reach_inv h).2 rfl
      rw [hw.marks]; simp
  have : isFailedInitial st = false := by simp [isFailedInitial, this]
  simp [createRepo, this]

/-- Whatever is removed, the files in the mirror are not. -/
theorem create_keeps_mirror {force locked : Bool} (h : createRepo force locked st = some st') : st'.mirror = st.mirror := by
  unfold createRepo at h
  split at h
  · split at h <;> cases h; rfl
  · cases h; rfl

/-! ### The hypotheses can be met -/

section
open Verif.Repo.Demo

/-- names from 1000 on are for temporary files -/
def rsv2 (n : Nat) : Prop := 1000 ≤ n

/-- a directory with other files: one in the way of a directory of the source, a directory in the way of a file -/
def found : Files Nat (Node Nat Nat Nat) := [([2], .reg 4 4), ([], .dir 5), ([1], .dir 3), ([1, 1], .reg 9 9), ([7], .other 1 1)]

theorem found_dir : IsDirectory found := by
  refine ⟨by decide +kernel, ⟨5, by decide +kernel⟩, ?_⟩
  intro x hx hne
  simp only [found, List.mem_cons, List.not_mem_nil, or_false] at hx
  rcases hx with rfl | rfl | rfl | rfl | rfl
  · exact ⟨5, by decide +kernel⟩
  · exact absurd rfl hne
  · exact ⟨5, by decide +kernel⟩
  · exact ⟨3, by decide +kernel⟩
  · exact ⟨5, by decide +kernel⟩

theorem src1_tree : IsTree rsv2 src1 := by
  obtain ⟨h1, h2, h3, -⟩ := valid1.tree
  exact ⟨h1, h2, h3, by unfold rsv2; decide +kernel⟩

theorem first_valid : ValidFirst ops rsv2 found (sess 10 src1) :=
  ⟨src1_tree, by show 1000 ≤ 1000; omega, by decide +kernel, honest_any _ _⟩

/-- the first backup interrupted after four operations: a temporary file is left, and a directory has been emptied -/
def brokenSteps := (sessionSteps ops ⟨found, [], [[]], [], []⟩ (sess 10 src1)).get (by decide +kernel)
def broken := (exec 99 (brokenSteps.take 4) ⟨found, [], [[]], [], []⟩).get (by decide +kernel)

example : broken.mirror.map Prod.fst = [[1], [1000], [], [2], [7]] := by decide +kernel

theorem broken_tried : FirstTried ops rsv2 found broken :=
  .once (st₁ := ⟨found, [], [[]], [], []⟩) (force := false) (locked := false) (s := sess 10 src1) (steps := brokenSteps) (n := 4) .none rfl first_valid
    (Option.some_get _).symm (by decide +kernel) (Option.some_get _).symm

def again : Sess Nat Nat Nat Nat Nat (Nat × Nat) := { sess 20 src1 with tmp := 1001 }

theorem again_valid : ValidFirst ops rsv2 broken.mirror again :=
  ⟨src1_tree, by show 1000 ≤ 1001; omega, by decide +kernel, honest_any _ _⟩

example : ∃ st', fullBackup ops true true broken reg again = some st' ∧ ∀ t sub, restore ops st' t sub = some (src1.filter fun x => sub.isPrefixOf x.1) := by
  obtain ⟨st', h1, -, h3⟩ := first_restarted found_dir broken_tried again_valid reg (force := true) (locked := true) (by simp)
    (recorded_src _ _ src1_tree.ordered fun _ => rfl)
  exact ⟨st', h1, h3⟩

example : ∃ st', fullBackup ops false false ⟨found, [], [[]], [], []⟩ reg (sess 10 src1) = some st' ∧ ∀ t, restore ops st' t [] = some src1 := by
  obtain ⟨st', h1, h2, -⟩ := first_exact found_dir first_valid reg fun _ => rfl
  exact ⟨st', h1, h2⟩

example : fullBackup ops false true broken reg again = none := first_locked found_dir broken_tried _ _
example : restore ops broken 10 [] = none := first_not_restored found_dir broken_tried _ _
example : createRepo true true st2 = some st2 := complete_kept reach2 (by simp) _ _

end
end Verif.C56
