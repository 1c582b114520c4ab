import Verif.Model.PowerData
import Mathlib.Order.MinMax

/-!
C79: a power failure is noticed, and the metadata of all good backups stay readable.

Specification: `Complete`, `Interrupted` (what the markers tell, and what is then there). The model: `Verif.PowerData`.
-/

namespace Verif.C79
open Verif.PowerData
variable {C M : Type}

/-! ### Specification -/

/-- The files needed for the metadata of backups before `t` are there: for each the metadata themselves, or the differences to the next ones. `S u` are the metadata of backup `u`. -/
def Past (e : Env C) (t : Nat) (S : Nat → C) (s : St C M) : Prop :=
  ∀ u < t, content s (.sn u) = some (S u) ∨ s.ent (.sn u) = none ∧ ∃ d, content s (.df u) = some d ∧ e.patch (S (u + 1)) d = S u

/-- Backup `t` is the last one, and complete: there is one marker, the mirror is what it was after this backup, and the metadata are there. -/
structure Complete (e : Env C) (t : Nat) (S : Nat → C) (m : M) (s : St C M) : Prop where
  durable : Durable s
  used : ∀ n i, s.ent n = some i → i < s.next
  marker : ∀ u, (s.ent (.cm u)).isSome = true ↔ u = t
  mirror : s.mir = m
  now : content s (.sn t) = some (S t)
  past : Past e t S s
  noSn : ∀ u, t < u → s.ent (.sn u) = none
  noDf : ∀ u, t ≤ u → s.ent (.df u) = none

/-- Backup `t` is the last good one, and the next one was interrupted: there are two markers, and the metadata of backup `t` can be read. -/
structure Interrupted (e : Env C) (t : Nat) (S : Nat → C) (s : St C M) : Prop where
  durable : Durable s
  used : ∀ n i, s.ent n = some i → i < s.next
  marker : ∀ u, (s.ent (.cm u)).isSome = true ↔ u = t ∨ u = t + 1
  now : content s (.sn t) = some (S t) ∨ s.ent (.sn t) = none ∧ ∃ d b, content s (.df t) = some d ∧ content s (.sn (t + 1)) = some b ∧ e.patch b d = S t
  past : Past e t S s
  noSn : ∀ u, t + 1 < u → s.ent (.sn u) = none
  noDf : ∀ u, t < u → s.ent (.df u) = none

/-! ### Moments -/

/-- all states on the way -/
def moments (e : Env C) (s : St C M) : List (Op C M) → List (St C M)
  | [] => [s]
  | op :: ops => s :: moments e (step e s op) ops

theorem run_moment (e : Env C) : ∀ (ops pre : List (Op C M)) (s : St C M), pre <+: ops → run e s pre ∈ moments e s ops := by
  intro ops
  induction ops with
  | nil => intro pre s h; rw [List.prefix_nil.mp h]; simp [run, moments]
  | cons op ops ih =>
      intro pre s h
      cases pre with
      | nil => simp [run, moments]
      | cons p pre =>
          obtain ⟨rfl, h'⟩ := List.cons_prefix_cons.mp h
          exact List.mem_cons_of_mem _ (ih pre _ h')

/-- names which an operation is about -/
def touches (n : Name) : Op C M → Prop
  | .mk m | .wr m _ | .sync m | .rm m => n = m
  | .mv a b => n = a ∨ n = b
  | .syncDir | .work _ | .syncAll => False

theorem frame_step (e : Env C) {s : St C M} {n : Name} {op : Op C M} (h : ¬ touches n op) :
    (step e s op).ent n = s.ent n ∧ ∀ x, (step e s op).mayEnt n x → s.mayEnt n x ∨ x = s.ent n := by
  cases op with
  | mk m => simp only [touches] at h; simp [step, upd, h]; exact fun _ h => .inl h
  | wr m c => simp only [step]; split <;> exact ⟨rfl, fun _ h => .inl h⟩
  | sync m => simp only [step]; split <;> exact ⟨rfl, fun _ h => .inl h⟩
  | syncDir => exact ⟨rfl, fun _ h => .inr h⟩
  | syncAll => exact ⟨rfl, fun _ h => .inr h⟩
  | work m => exact ⟨rfl, fun _ h => .inl h⟩
  | rm m => simp only [touches] at h; simp [step, upd, h]; exact fun _ h => .inl h
  | mv a b =>
      simp only [touches, not_or] at h
      simp only [step]
      split
      · exact ⟨rfl, fun _ h => .inl h⟩
      · simp [upd, h]; exact fun _ h => .inl h

theorem frame (e : Env C) {n : Name} : ∀ (ops : List (Op C M)) {s : St C M} (_ : ∀ x, s.mayEnt n x → x = s.ent n) (_ : ∀ op ∈ ops, ¬ touches n op) {m w : St C M},
    m ∈ moments e s ops → Fail m w → w.ent n = s.ent n := by
  intro ops
  induction ops with
  | nil => intro s h1 _ m w hm hw; simp [moments] at hm; subst hm; exact h1 _ (hw.ent n)
  | cons op ops ih =>
      intro s h1 h2 m w hm hw
      simp only [moments, List.mem_cons] at hm
      rcases hm with rfl | hm
      · exact h1 _ (hw.ent n)
      · have f := frame_step e (s := s) (h2 op (by simp))
        rw [← f.1]
        refine ih (fun x hx => ?_) (fun op h => h2 op (by simp [h])) hm hw
        rw [f.1]
        rcases f.2 x hx with h | h
        · exact h1 x h
        · exact h

theorem content_same {s w : St C M} {n : Name} (hu : ∀ i, s.ent n = some i → i < s.next) (he : w.ent n = s.ent n) (hd : ∀ i, i < s.next → w.data i = s.data i) :
    content w n = content s n := by
  unfold content
  rw [he]
  cases h : s.ent n with
  | none => rfl
  | some i => simp [hd i (hu i h)]

theorem past_same {e : Env C} {t : Nat} {S : Nat → C} {s w : St C M} (h : Past e t S s) (hu : ∀ n i, s.ent n = some i → i < s.next)
    (hsn : ∀ u < t, w.ent (.sn u) = s.ent (.sn u)) (hdf : ∀ u < t, w.ent (.df u) = s.ent (.df u)) (hd : ∀ i, i < s.next → w.data i = s.data i) : Past e t S w := by
  intro u hut
  rw [content_same (hu _) (hsn u hut) hd, content_same (hu _) (hdf u hut) hd, hsn u hut]
  exact h u hut

theorem used_step {e : Env C} {s : St C M} (h : ∀ n i, (s.ent n = some i ∨ s.mayEnt n (some i)) → i < s.next) (op : Op C M) :
    ∀ n i, ((step e s op).ent n = some i ∨ (step e s op).mayEnt n (some i)) → i < (step e s op).next := by
  intro n i hi
  cases op with
  | mk m =>
      simp only [step, upd] at hi ⊢
      split at hi
      · rcases hi with hi | hi | hi
        · simp only [Option.some.injEq] at hi; omega
        · have := h _ _ (.inr hi); omega
        · simp only [Option.some.injEq] at hi; omega
      · have := h _ _ hi; omega
  | wr m c => simp only [step] at hi ⊢; split at hi <;> exact h _ _ hi
  | sync m => simp only [step] at hi ⊢; split at hi <;> exact h _ _ hi
  | syncDir => simp only [step] at hi ⊢; rcases hi with hi | hi <;> exact h n i (.inl (by first | exact hi | exact hi.symm))
  | syncAll => simp only [step] at hi ⊢; rcases hi with hi | hi <;> exact h n i (.inl (by first | exact hi | exact hi.symm))
  | work m => exact h _ _ hi
  | rm m =>
      simp only [step, upd] at hi ⊢
      split at hi
      · rename_i hn; subst hn
        rcases hi with hi | hi | hi
        · cases hi
        · exact h _ _ (.inr hi)
        · cases hi
      · exact h _ _ hi
  | mv a b =>
      simp only [step] at hi ⊢
      cases ha : s.ent a with
      | none => rw [ha] at hi; exact h _ _ hi
      | some j =>
          have hj := h a j (.inl ha)
          rw [ha] at hi
          simp only [upd] at hi ⊢
          by_cases hna : n = a
          · subst hna
            simp only [if_true] at hi
            rcases hi with hi | hi | hi
            · cases hi
            · exact h _ _ (.inr hi)
            · cases hi
          · simp only [if_neg hna] at hi
            by_cases hnb : n = b
            · subst hnb
              simp only [if_true] at hi
              rcases hi with hi | hi | hi
              · cases hi; exact hj
              · exact h _ _ (.inr hi)
              · cases hi; exact hj
            · simp only [if_neg hnb] at hi; exact h _ _ hi

theorem used_fail {e : Env C} : ∀ (ops : List (Op C M)) {s : St C M} (_ : ∀ n i, (s.ent n = some i ∨ s.mayEnt n (some i)) → i < s.next) {m w : St C M},
    m ∈ moments e s ops → Fail m w → ∀ n i, w.ent n = some i → i < w.next := by
  intro ops
  induction ops with
  | nil =>
      intro s h m w hm hw n i hi
      simp [moments] at hm; subst hm
      rw [hw.next]; exact h n i (.inr (by rw [← hi]; exact hw.ent n))
  | cons op ops ih =>
      intro s h m w hm hw
      simp only [moments, List.mem_cons] at hm
      rcases hm with rfl | hm
      · intro n i hi; rw [hw.next]; exact h n i (.inr (by rw [← hi]; exact hw.ent n))
      · exact ih (used_step h op) hm hw

theorem used_durable {s : St C M} (hd : Durable s) (hu : ∀ n i, s.ent n = some i → i < s.next) : ∀ n i, (s.ent n = some i ∨ s.mayEnt n (some i)) → i < s.next := by
  intro n i h
  rcases h with h | h
  · exact hu n i h
  · exact hu n i ((hd.ent n _).mp h).symm

/-! ### The backup -/

theorem backup_touches {o : Opts} {e : Env C} {t : Nat} {s : St C M} {c : C} {m : M} {n : Name} (h1 : n ≠ .cm t) (h2 : n ≠ .cm (t + 1)) (h3 : n ≠ .sn t) (h4 : n ≠ .sn (t + 1))
    (h5 : n ≠ .df t) : ∀ op ∈ backupOps o e t s c m, ¬ touches n op := by
  obtain ⟨f, d, k⟩ := o
  cases f <;> cases d <;> cases k <;> simp [backupOps, touchMarker, writeMeta, fsyncWithDir, touches, h1, h2, h3, h4, h5]

/-- what can be left of the five files -/
theorem backup_left {o : Opts} {e : Env C} (hf : o.fsync = true) (hd : o.syncDirs = true) {t : Nat} {S : Nat → C} {m0 : M} {s : St C M} (hc : Complete e t S m0 s) {c : C} {m : M}
    {x w : St C M} (hm : x ∈ moments e s (backupOps o e t s c m)) (hw : Fail x w) :
    (∀ i, i < s.next → w.data i = s.data i) ∧
    ((w.ent (.cm t) = s.ent (.cm t) ∧ w.ent (.cm (t + 1)) = none ∧ w.ent (.sn t) = s.ent (.sn t) ∧ w.ent (.sn (t + 1)) = none ∧ w.ent (.df t) = none ∧ w.mir = s.mir) ∨
     (w.ent (.cm t) = s.ent (.cm t) ∧ (∃ i, w.ent (.cm (t + 1)) = some i) ∧ w.ent (.sn t) = s.ent (.sn t)) ∨
     ((∃ i, w.ent (.cm (t + 1)) = some i) ∧ content w (.sn (t + 1)) = some c ∧
       ((w.ent (.sn t) = s.ent (.sn t) ∧ w.ent (.df t) = none) ∨
        (w.ent (.sn t) = none ∧ content w (.df t) = some (e.delta c (S t)))) ∧
       (w.ent (.cm t) = s.ent (.cm t) ∨ w.ent (.cm t) = none ∧ w.mir = m))) := by
  obtain ⟨i0, hi0⟩ : ∃ i, s.ent (.cm t) = some i := Option.isSome_iff_exists.mp ((hc.marker t).mpr rfl)
  have hcm1 : s.ent (.cm (t + 1)) = none := by
    have := hc.marker (t + 1)
    cases h : s.ent (.cm (t + 1)) with
    | none => rfl
    | some i => rw [h] at this; simp at this
  obtain ⟨i1, hi1, hi1d⟩ : ∃ i, s.ent (.sn t) = some i ∧ s.data i = S t := by
    have := hc.now
    unfold content at this
    simpa using this
  have hu1 := hc.used _ _ hi1
  have hsn1 := hc.noSn (t + 1) (by omega)
  have hdf := hc.noDf t (by omega)
  have hcon : (content s (.sn t)).getD e.empty = S t := by rw [hc.now]; rfl
  have dE := hc.durable.ent
  have dD := hc.durable.data
  have dM := hc.durable.mir
  have w1 := hw.ent (.cm t)
  have w2 := hw.ent (.cm (t + 1))
  have w3 := hw.ent (.sn t)
  have w4 := hw.ent (.sn (t + 1))
  have w5 := hw.ent (.df t)
  have wm := hw.mir
  have wd := hw.data
  have d0 := wd (s.next + 1)
  have d1 := wd (s.next + 1 + 1)
  cases hk : o.diffs
  · simp [backupOps, touchMarker, fsyncWithDir, hf, hd, hk, moments] at hm
    refine ⟨fun i hi => ?_, ?_⟩
    · have := wd i
      have n0 : i ≠ s.next := by omega
      have n1 : i ≠ s.next + 1 := by omega
      rcases hm with rfl | rfl | rfl | rfl | rfl | rfl | rfl | rfl | rfl | rfl | rfl <;> simpa [step, upd, dD, n0, n1] using this
    · rcases hm with rfl | rfl | rfl | rfl | rfl | rfl | rfl | rfl | rfl | rfl | rfl
      all_goals simp [step, upd, dE, dD, dM, hi0, hi1, hcm1, hsn1, hdf] at w1 w2 w3 w4 w5 wm d0
      all_goals simp [content, w1, w2, w3, w4, w5, wm, d0, hi0, hi1]
      all_goals rcases w2 with h | h <;> simp [h]
  · simp [backupOps, touchMarker, writeMeta, fsyncWithDir, hf, hd, hk, moments, hcon] at hm
    refine ⟨fun i hi => ?_, ?_⟩
    · have := wd i
      have n0 : i ≠ s.next := by omega
      have n1 : i ≠ s.next + 1 := by omega
      have n2 : i ≠ s.next + 1 + 1 := by omega
      rcases hm with rfl | rfl | rfl | rfl | rfl | rfl | rfl | rfl | rfl | rfl | rfl | rfl | rfl | rfl | rfl | rfl <;> simpa [step, upd, dD, n0, n1, n2] using this
    · rcases hm with rfl | rfl | rfl | rfl | rfl | rfl | rfl | rfl | rfl | rfl | rfl | rfl | rfl | rfl | rfl | rfl
      all_goals simp [step, upd, dE, dD, dM, hi0, hi1, hcm1, hsn1, hdf] at w1 w2 w3 w4 w5 wm d0 d1
      all_goals simp [content, w1, w2, w3, w4, w5, wm, d0, d1, hi0, hi1]
      all_goals rcases w2 with h | h <;> simp [h]

theorem content_ent {s : St C M} {n : Name} {c : C} (h : content s n = some c) : ∃ i, s.ent n = some i := by
  unfold content at h
  cases hh : s.ent n with
  | none => rw [hh] at h; cases h
  | some i => exact ⟨i, rfl⟩

/-- **C79 (a failure during a backup).** Whenever the power fails during a backup and whatever of the writes not yet synchronised is lost: the backup isn't to be seen at all; or it can be
seen that it was interrupted, and the metadata of the last good backup can still be read; or the new backup is complete. -/
theorem backup_failure {o : Opts} {e : Env C} (hf : o.fsync = true) (hd : o.syncDirs = true) (hp : ∀ a b, e.patch b (e.delta b a) = a) {t : Nat} {S : Nat → C} {m0 : M} {s : St C M}
    (hc : Complete e t S m0 s) {c : C} {m : M} {pre : List (Op C M)} (hpre : pre <+: backupOps o e t s c m) {w : St C M} (hw : Fail (run e s pre) w) :
    Complete e t S m0 w ∨ Interrupted e t S w ∨ Complete e (t + 1) (fun u => if u = t + 1 then c else S u) m w := by
  have hm := run_moment e _ _ s hpre
  obtain ⟨hdat, hall⟩ := backup_left hf hd hc hm hw
  have hu := used_fail _ (used_durable hc.durable hc.used) hm hw
  have fr : ∀ n, n ≠ .cm t → n ≠ .cm (t + 1) → n ≠ .sn t → n ≠ .sn (t + 1) → n ≠ .df t → w.ent n = s.ent n := fun n h1 h2 h3 h4 h5 =>
    frame e _ (fun x hx => (hc.durable.ent n x).mp hx) (backup_touches h1 h2 h3 h4 h5) hm hw
  have hpast : Past e t S w := past_same hc.past hc.used (fun u hu => fr _ (by simp) (by simp) (by simp; omega) (by simp; omega) (by simp))
    (fun u hu => fr _ (by simp) (by simp) (by simp) (by simp) (by simp; omega)) hdat
  have hsn : ∀ u, t + 1 < u → w.ent (.sn u) = none := fun u hu => by
    rw [fr _ (by simp) (by simp) (by simp; omega) (by simp; omega) (by simp)]; exact hc.noSn u (by omega)
  have hdf : ∀ u, t < u → w.ent (.df u) = none := fun u hu => by
    rw [fr _ (by simp) (by simp) (by simp) (by simp) (by simp; omega)]; exact hc.noDf u (by omega)
  have hcm : ∀ u, u ≠ t → u ≠ t + 1 → w.ent (.cm u) = none := fun u h1 h2 => by
    rw [fr _ (by simpa using h1) (by simpa using h2) (by simp) (by simp) (by simp)]
    have := (hc.marker u).not.mpr h1
    simpa using this
  have hct : (s.ent (.cm t)).isSome = true := (hc.marker t).mpr rfl
  have hsame : w.ent (.sn t) = s.ent (.sn t) → content w (.sn t) = some (S t) := fun h => by rw [content_same (hc.used _) h hdat, hc.now]
  rcases hall with ⟨a1, a2, a3, a4, a5, a6⟩ | ⟨a1, ⟨i, a2⟩, a3⟩ | ⟨⟨i, a2⟩, a3, a4, a5⟩
  · refine .inl ⟨hw.durable, hu, fun u => ?_, a6.trans hc.mirror, hsame a3, hpast, fun u hu => ?_, fun u hu => ?_⟩
    · by_cases h1 : u = t
      · subst h1; rw [a1]; simpa using hct
      · by_cases h2 : u = t + 1
        · subst h2; simp [a2]
        · simp [hcm u h1 h2, h1]
    · by_cases h2 : u = t + 1
      · subst h2; exact a4
      · exact hsn u (by omega)
    · by_cases h2 : u = t
      · subst h2; exact a5
      · exact hdf u (by omega)
  · refine .inr (.inl ⟨hw.durable, hu, fun u => ?_, .inl (hsame a3), hpast, hsn, hdf⟩)
    by_cases h1 : u = t
    · subst h1; rw [a1]; simpa using hct
    · by_cases h2 : u = t + 1
      · subst h2; simp [a2]
      · simp [hcm u h1 h2, h1, h2]
  · rcases a5 with a5 | ⟨a5, a6⟩
    · refine .inr (.inl ⟨hw.durable, hu, fun u => ?_, ?_, hpast, hsn, hdf⟩)
      · by_cases h1 : u = t
        · subst h1; rw [a5]; simpa using hct
        · by_cases h2 : u = t + 1
          · subst h2; simp [a2]
          · simp [hcm u h1 h2, h1, h2]
      · rcases a4 with ⟨a4, -⟩ | ⟨a4, a6⟩
        · exact .inl (hsame a4)
        · exact .inr ⟨a4, _, _, a6, a3, hp _ _⟩
    · refine .inr (.inr ⟨hw.durable, hu, fun u => ?_, a6, by simpa using a3, ?_, hsn, hdf⟩)
      · by_cases h1 : u = t
        · subst h1; simp [a5]
        · by_cases h2 : u = t + 1
          · subst h2; simp [a2]
          · simp [hcm u h1 h2, h2]
      · intro u hut
        by_cases h1 : u = t
        · subst h1
          simp only [show u ≠ u + 1 by omega, if_false, if_true]
          rcases a4 with ⟨a4, -⟩ | ⟨a4, a6⟩
          · exact .inl (hsame a4)
          · exact .inr ⟨a4, _, a6, hp _ _⟩
        · simp only [show u ≠ t + 1 by omega, show u + 1 ≠ t + 1 by omega, if_false]
          exact hpast u (by omega)

/-! ### The regress -/

theorem regress_touches {o : Opts} {e : Env C} {t : Nat} {s : St C M} {k : Nat} {m : M} {n : Name} (h2 : n ≠ .cm (t + 1)) (h3 : n ≠ .sn t) (h4 : n ≠ .sn (t + 1))
    (h5 : n ≠ .df t) (h6 : n ≠ .tmp k) : ∀ op ∈ regressOps o e t s k m, ¬ touches n op := by
  obtain ⟨f, d, _⟩ := o
  unfold regressOps
  cases ha : ((s.ent (.df t)).isSome && (s.ent (.sn t)).isNone) <;> cases hb : (s.ent (.sn (t + 1))).isSome <;> cases hc : (s.ent (.df t)).isSome <;>
    cases f <;> cases d <;> simp [writeMeta, fsyncWithDir, touches, h2, h3, h4, h5, h6]

/-- what can be left after a failure while it is regressed -/
theorem regress_left {o : Opts} {e : Env C} (hf : o.fsync = true) (hd : o.syncDirs = true) {t : Nat} {S : Nat → C} {s : St C M} (hc : Interrupted e t S s) {k : Nat}
    (hk : s.ent (.tmp k) = none) {m : M} {x w : St C M} (hm : x ∈ moments e s (regressOps o e t s k m)) (hw : Fail x w) :
    (∀ i, i < s.next → w.data i = s.data i) ∧
    (((content w (.sn t) = some (S t) ∨ w.ent (.sn t) = none ∧ w.ent (.df t) = s.ent (.df t) ∧ w.ent (.sn (t + 1)) = s.ent (.sn (t + 1)) ∧ s.ent (.sn t) = none) ∧
        w.ent (.cm (t + 1)) = s.ent (.cm (t + 1))) ∨
      (content w (.sn t) = some (S t) ∧ w.ent (.sn (t + 1)) = none ∧ w.ent (.df t) = none ∧ w.ent (.cm (t + 1)) = none ∧ w.mir = m)) := by
  obtain ⟨i0, hi0⟩ : ∃ i, s.ent (.cm (t + 1)) = some i := Option.isSome_iff_exists.mp ((hc.marker (t + 1)).mpr (.inr rfl))
  have dE := hc.durable.ent
  have dD := hc.durable.data
  have dM := hc.durable.mir
  have w2 := hw.ent (.cm (t + 1))
  have w3 := hw.ent (.sn t)
  have w4 := hw.ent (.sn (t + 1))
  have w5 := hw.ent (.df t)
  have wm := hw.mir
  have wd := hw.data
  have d0 := wd s.next
  rcases hc.now with hnow | ⟨h1, d, b, h2, h3, h4⟩
  · obtain ⟨i1, hi1⟩ := content_ent hnow
    have hS : s.data i1 = S t := by unfold content at hnow; rw [hi1] at hnow; simpa using hnow
    have hu1 := hc.used _ _ hi1
    have d1 := wd i1
    cases ha : s.ent (.sn (t + 1)) with
    | none =>
        cases hb : s.ent (.df t) with
        | none =>
            simp [regressOps, hf, hi1, ha, hb, moments] at hm
            refine ⟨fun i hi => ?_, ?_⟩
            · have := wd i
              rcases hm with rfl | rfl | rfl | rfl <;> simpa [step, upd, dD] using this
            · rcases hm with rfl | rfl | rfl | rfl
              all_goals simp [step, upd, dE, dD, dM, hi0, hi1, ha, hb] at w2 w3 w4 w5 wm d1
              all_goals simp [content, w2, w3, w4, w5, wm, d1, hS, hi0]
        | some j =>
            simp [regressOps, hf, hi1, ha, hb, moments] at hm
            refine ⟨fun i hi => ?_, ?_⟩
            · have := wd i
              rcases hm with rfl | rfl | rfl | rfl | rfl <;> simpa [step, upd, dD] using this
            · rcases hm with rfl | rfl | rfl | rfl | rfl
              all_goals simp [step, upd, dE, dD, dM, hi0, hi1, ha, hb] at w2 w3 w4 w5 wm d1
              all_goals simp [content, w2, w3, w4, w5, wm, d1, hS, hi0]
    | some l =>
        cases hb : s.ent (.df t) with
        | none =>
            simp [regressOps, hf, hi1, ha, hb, moments] at hm
            refine ⟨fun i hi => ?_, ?_⟩
            · have := wd i
              rcases hm with rfl | rfl | rfl | rfl | rfl <;> simpa [step, upd, dD] using this
            · rcases hm with rfl | rfl | rfl | rfl | rfl
              all_goals simp [step, upd, dE, dD, dM, hi0, hi1, ha, hb] at w2 w3 w4 w5 wm d1
              all_goals simp [content, w2, w3, w4, w5, wm, d1, hS, hi0]
        | some j =>
            simp [regressOps, hf, hi1, ha, hb, moments] at hm
            refine ⟨fun i hi => ?_, ?_⟩
            · have := wd i
              rcases hm with rfl | rfl | rfl | rfl | rfl | rfl <;> simpa [step, upd, dD] using this
            · rcases hm with rfl | rfl | rfl | rfl | rfl | rfl
              all_goals simp [step, upd, dE, dD, dM, hi0, hi1, ha, hb] at w2 w3 w4 w5 wm d1
              all_goals simp [content, w2, w3, w4, w5, wm, d1, hS, hi0]
  · obtain ⟨j, hj⟩ := content_ent h2
    obtain ⟨l, hl⟩ := content_ent h3
    have hrd : (readMeta e s 1 t).getD e.empty = S t := by
      have : content s (.sn t) = none := by unfold content; rw [h1]; rfl
      simp [readMeta, this, h2, h3, h4]
    simp [regressOps, hf, hd, h1, hj, hl, moments, writeMeta, fsyncWithDir, hrd] at hm
    refine ⟨fun i hi => ?_, ?_⟩
    · have := wd i
      have n0 : i ≠ s.next := by omega
      rcases hm with rfl | rfl | rfl | rfl | rfl | rfl | rfl | rfl | rfl | rfl | rfl | rfl <;> simpa [step, upd, dD, n0] using this
    · rcases hm with rfl | rfl | rfl | rfl | rfl | rfl | rfl | rfl | rfl | rfl | rfl | rfl
      all_goals simp [step, upd, dE, dD, dM, hi0, hj, hl, h1, hk] at w2 w3 w4 w5 wm d0
      all_goals simp [content, w2, w3, w4, w5, wm, d0, hi0, hj, hl, h1]
      all_goals rcases w3 with h | h <;> simp [h, d0]

/-- **C79 (a failure during a regress).** Whenever the power fails while an interrupted backup is undone: it can be undone again, or it's done. -/
theorem regress_failure {o : Opts} {e : Env C} (hf : o.fsync = true) (hd : o.syncDirs = true) {t : Nat} {S : Nat → C} {s : St C M}
    (hc : Interrupted e t S s) {k : Nat} (hk : s.ent (.tmp k) = none) {m : M} {pre : List (Op C M)} (hpre : pre <+: regressOps o e t s k m) {w : St C M} (hw : Fail (run e s pre) w) :
    Interrupted e t S w ∨ Complete e t S m w := by
  have hm := run_moment e _ _ s hpre
  obtain ⟨hdat, hall⟩ := regress_left hf hd hc hk hm hw
  have hu := used_fail _ (used_durable hc.durable hc.used) hm hw
  have fr : ∀ n, n ≠ .cm (t + 1) → n ≠ .sn t → n ≠ .sn (t + 1) → n ≠ .df t → n ≠ .tmp k → w.ent n = s.ent n := fun n h1 h2 h3 h4 h5 =>
    frame e _ (fun x hx => (hc.durable.ent n x).mp hx) (regress_touches h1 h2 h3 h4 h5) hm hw
  have hpast : Past e t S w := past_same hc.past hc.used (fun u hu => fr _ (by simp) (by simp; omega) (by simp; omega) (by simp) (by simp))
    (fun u hu => fr _ (by simp) (by simp) (by simp) (by simp; omega) (by simp)) hdat
  have hsn : ∀ u, t + 1 < u → w.ent (.sn u) = none := fun u hu => by
    rw [fr _ (by simp) (by simp; omega) (by simp; omega) (by simp) (by simp)]; exact hc.noSn u (by omega)
  have hdf : ∀ u, t < u → w.ent (.df u) = none := fun u hu => by
    rw [fr _ (by simp) (by simp) (by simp) (by simp; omega) (by simp)]; exact hc.noDf u (by omega)
  have hcm : ∀ u, u ≠ t + 1 → w.ent (.cm u) = s.ent (.cm u) := fun u h1 => fr _ (by simpa using h1) (by simp) (by simp) (by simp) (by simp)
  rcases hall with ⟨a1, a2⟩ | ⟨a1, a2, a3, a4, a5⟩
  · refine .inl ⟨hw.durable, hu, fun u => ?_, ?_, hpast, hsn, hdf⟩
    · by_cases h1 : u = t + 1
      · subst h1; rw [a2]; exact hc.marker _
      · rw [hcm u h1]; exact hc.marker _
    · rcases a1 with a1 | ⟨a1, b1, b2, b3⟩
      · exact .inl a1
      · rcases hc.now with h | ⟨-, d, b, h2, h3, h4⟩
        · obtain ⟨i, hi⟩ := content_ent h; rw [b3] at hi; cases hi
        · exact .inr ⟨a1, d, b, by rw [content_same (hc.used _) b1 hdat, h2], by rw [content_same (hc.used _) b2 hdat, h3], h4⟩
  · refine .inr ⟨hw.durable, hu, fun u => ?_, a5, a1, hpast, fun u hu => ?_, fun u hu => ?_⟩
    · by_cases h1 : u = t + 1
      · subst h1; simp [a4]
      · rw [hcm u h1, hc.marker]; simp [h1]
    · by_cases h2 : u = t + 1
      · subst h2; exact a2
      · exact hsn u (by omega)
    · by_cases h2 : u = t
      · subst h2; exact a3
      · exact hdf u (by omega)

/-! ### Without failures -/

/-- everything has been written -/
def flushed (s : St C M) : St C M := { s with mayEnt := fun n x => x = s.ent n, mayData := fun i x => x = s.data i, mayMir := fun x => x = s.mir }

/-- what programs see may be on the disk -/
theorem self_step {e : Env C} {s : St C M} (h1 : ∀ n, s.mayEnt n (s.ent n)) (h2 : ∀ i, s.mayData i (s.data i)) (h3 : s.mayMir s.mir) (op : Op C M) :
    (∀ n, (step e s op).mayEnt n ((step e s op).ent n)) ∧ (∀ i, (step e s op).mayData i ((step e s op).data i)) ∧ (step e s op).mayMir (step e s op).mir := by
  cases op with
  | mk m => refine ⟨fun n => ?_, fun i => ?_, h3⟩ <;> simp only [step, upd] <;> split <;> simp_all
  | wr m c =>
      simp only [step]; split
      · exact ⟨h1, h2, h3⟩
      · refine ⟨h1, fun i => ?_, h3⟩; simp only [upd]; split <;> simp_all
  | sync m =>
      simp only [step]; split
      · exact ⟨h1, h2, h3⟩
      · refine ⟨h1, fun i => ?_, h3⟩; simp only [upd]; split <;> simp_all
  | syncDir => exact ⟨fun _ => rfl, h2, h3⟩
  | syncAll => exact ⟨fun _ => rfl, fun _ => rfl, rfl⟩
  | work m => exact ⟨h1, h2, trivial⟩
  | rm m => refine ⟨fun n => ?_, h2, h3⟩; simp only [step, upd]; split <;> simp_all
  | mv a b =>
      simp only [step]; split
      · exact ⟨h1, h2, h3⟩
      · refine ⟨fun n => ?_, h2, h3⟩
        simp only [upd]
        split
        · simp
        · split <;> simp_all

theorem fail_flushed {e : Env C} {s : St C M} (hd : Durable s) (ops : List (Op C M)) : Fail (run e s ops) (flushed (run e s ops)) := by
  have key : ∀ (ops : List (Op C M)) (s : St C M), (∀ n, s.mayEnt n (s.ent n)) → (∀ i, s.mayData i (s.data i)) → s.mayMir s.mir →
      (∀ n, (run e s ops).mayEnt n ((run e s ops).ent n)) ∧ (∀ i, (run e s ops).mayData i ((run e s ops).data i)) ∧ (run e s ops).mayMir (run e s ops).mir := by
    intro ops
    induction ops with
    | nil => intro s h1 h2 h3; exact ⟨h1, h2, h3⟩
    | cons op ops ih => intro s h1 h2 h3; obtain ⟨a, b, c⟩ := self_step (e := e) h1 h2 h3 op; exact ih _ a b c
  obtain ⟨a, b, c⟩ := key ops s (fun n => (hd.ent n _).mpr rfl) (fun i => (hd.data i _).mpr rfl) ((hd.mir _).mpr rfl)
  exact ⟨a, b, c, rfl, ⟨fun _ _ => Iff.rfl, fun _ _ => Iff.rfl, fun _ => Iff.rfl⟩⟩

/-- **C79 (backups).** A backup which isn't interrupted is complete. -/
theorem backup_done {o : Opts} {e : Env C} (hf : o.fsync = true) (hd : o.syncDirs = true) (hp : ∀ a b, e.patch b (e.delta b a) = a) {t : Nat} {S : Nat → C} {m0 : M} {s : St C M}
    (hc : Complete e t S m0 s) {c : C} {m : M} : Complete e (t + 1) (fun u => if u = t + 1 then c else S u) m (flushed (run e s (backupOps o e t s c m))) := by
  have h := backup_failure hf hd hp hc (List.prefix_refl _) (fail_flushed hc.durable (backupOps o e t s c m))
  have hn : (flushed (run e s (backupOps o e t s c m))).ent (.cm t) = none := by
    show (run e s (backupOps o e t s c m)).ent (.cm t) = none
    unfold backupOps run
    rw [List.foldl_append]
    simp [step, upd]
  rcases h with h | h | h
  · have := (h.marker t).mpr rfl; rw [hn] at this; cases this
  · have := (h.marker t).mpr (.inl rfl); rw [hn] at this; cases this
  · exact h

/-- **C79 (regresses).** A regress which isn't interrupted gives back the last good backup. -/
theorem regress_done {o : Opts} {e : Env C} (hf : o.fsync = true) (hd : o.syncDirs = true) {t : Nat} {S : Nat → C} {s : St C M} (hc : Interrupted e t S s) {k : Nat}
    (hk : s.ent (.tmp k) = none) {m : M} : Complete e t S m (flushed (run e s (regressOps o e t s k m))) := by
  have h := regress_failure hf hd hc hk (List.prefix_refl _) (fail_flushed hc.durable (regressOps o e t s k m))
  have hn : (flushed (run e s (regressOps o e t s k m))).ent (.cm (t + 1)) = none := by
    show (run e s (regressOps o e t s k m)).ent (.cm (t + 1)) = none
    unfold regressOps run
    rw [List.foldl_append]
    simp [step, upd]
  rcases h with h | h
  · have := (h.marker (t + 1)).mpr (.inr rfl); rw [hn] at this; cases this
  · exact h

/-! ### Histories -/

theorem past_read {e : Env C} {t : Nat} {S : Nat → C} {s : St C M} (h : Past e t S s) : ∀ (n u extra : Nat), u + n = t → readMeta e s extra t = some (S t) →
    readMeta e s (n + extra) u = some (S u) := by
  intro n
  induction n with
  | zero => intro u extra h1 h2; rw [Nat.zero_add]; have : u = t := by omega
            subst this; exact h2
  | succ n ih =>
      intro u extra h1 h2
      rw [show n + 1 + extra = (n + extra) + 1 by omega]
      simp only [readMeta]
      rcases h u (by omega) with h3 | ⟨h3, d, h4, h5⟩
      · rw [h3]
      · have : content s (.sn u) = none := by unfold content; rw [h3]; rfl
        rw [this, h4, ih (u + 1) extra (by omega) h2]
        simp [h5]

/-- **C79 (reading).** After a complete backup the metadata of all backups can be read. -/
theorem complete_read {e : Env C} {t : Nat} {S : Nat → C} {m : M} {s : St C M} (h : Complete e t S m s) (u : Nat) (hu : u ≤ t) : readMeta e s (t - u) u = some (S u) := by
  have := past_read h.past (t - u) u 0 (by omega) h.now
  simpa using this

/-- **C79 (reading after a failure).** The same for an interrupted one: those of all good backups. -/
theorem interrupted_read {e : Env C} {t : Nat} {S : Nat → C} {s : St C M} (h : Interrupted e t S s) (u : Nat) (hu : u ≤ t) : readMeta e s (t + 1 - u) u = some (S u) := by
  have h1 : readMeta e s 1 t = some (S t) := by
    rcases h.now with h1 | ⟨h1, d, b, h2, h3, h4⟩
    · simp [readMeta, h1]
    · have : content s (.sn t) = none := by unfold content; rw [h1]; rfl
      simp [readMeta, this, h2, h3, h4]
  have := past_read h.past (t - u) u 1 (by omega) h1
  rwa [show t - u + 1 = t + 1 - u by omega] at this

/-- What can become of a repository by backups and regresses during which the power fails at any moments. (A session which isn't interrupted is the one which fails when everything has been
written, `fail_flushed`.) `t`: the last backup of which the older marker is gone, `S`, `m`: metadata of all backups, and the mirror after backup `t`. -/
inductive Reach (o : Opts) (e : Env C) : Nat → (Nat → C) → M → St C M → Prop
  | start {t S m s} : Complete e t S m s → Reach o e t S m s
  | undone {t S m s c m' pre w} : Reach o e t S m s → s.ent (.cm (t + 1)) = none → pre <+: backupOps o e t s c m' → Fail (run e s pre) w → (w.ent (.cm t)).isSome = true → Reach o e t S m w
  | done {t S m s c m' pre w} : Reach o e t S m s → s.ent (.cm (t + 1)) = none → pre <+: backupOps o e t s c m' → Fail (run e s pre) w → w.ent (.cm t) = none →
      Reach o e (t + 1) (fun u => if u = t + 1 then c else S u) m' w
  | regress {t S m s k pre w} : Reach o e t S m s → (s.ent (.cm (t + 1))).isSome = true → s.ent (.tmp k) = none → pre <+: regressOps o e t s k m → Fail (run e s pre) w → Reach o e t S m w

/-- **C79 (any failures).** Whatever backups and regresses are made and whenever the power fails: either there is one marker, and the mirror is what it was after this backup, or there are
two; and the metadata of all good backups can be read. -/
theorem any_failures {o : Opts} {e : Env C} (hf : o.fsync = true) (hd : o.syncDirs = true) (hp : ∀ a b, e.patch b (e.delta b a) = a) {t : Nat} {S : Nat → C} {m : M} {s : St C M}
    (h : Reach o e t S m s) : Complete e t S m s ∨ Interrupted e t S s := by
  induction h with
  | start h => exact .inl h
  | undone _ h1 h2 h3 h4 ih =>
      rcases ih with ih | ih
      · rcases backup_failure hf hd hp ih h2 h3 with h | h | h
        · exact .inl h
        · exact .inr h
        · have := (h.marker _).mp h4; omega
      · have := (ih.marker _).mpr (.inr rfl); rw [h1] at this; cases this
  | done _ h1 h2 h3 h4 ih =>
      rcases ih with ih | ih
      · rcases backup_failure hf hd hp ih h2 h3 with h | h | h
        · have := (h.marker _).mpr rfl; rw [h4] at this; cases this
        · have := (h.marker _).mpr (.inl rfl); rw [h4] at this; cases this
        · exact .inl h
      · have := (ih.marker _).mpr (.inr rfl); rw [h1] at this; cases this
  | regress _ h1 hk h2 h3 ih =>
      rcases ih with ih | ih
      · have := (ih.marker _).mp h1; omega
      · rcases regress_failure hf hd ih hk h2 h3 with h | h
        · exact .inr h
        · exact .inl h

/-! ### Examples, and what is wrong -/

/-- metadata are numbers, differences their differences -/
def env : Env Int := ⟨0, fun b a => a - b, fun b d => b + d⟩

theorem env_ok : ∀ a b, env.patch b (env.delta b a) = a := by intro a b; show b + (a - b) = a; omega

/-- a state which is on the disk -/
def disk (ent : Name → Option Nat) (data : Nat → Int) (mir next : Nat) : St Int Nat := ⟨ent, fun n x => x = ent n, data, fun i x => x = data i, mir, fun x => x = mir, next⟩

theorem disk_durable {ent data mir next} : Durable (disk ent data mir next) := ⟨fun _ _ => .rfl, fun _ _ => .rfl, fun _ => .rfl⟩

/-- after one backup with the metadata 5 and the mirror 1 -/
def one : St Int Nat := disk (fun n => if n = .cm 0 then some 0 else if n = .sn 0 then some 1 else none) (fun i => if i = 1 then 5 else 0) 1 2

theorem one_complete : Complete env 0 (fun _ => 5) 1 one := by
  refine ⟨disk_durable, ?_, fun u => ?_, rfl, rfl, fun u hu => by omega, fun u hu => ?_, fun u hu => ?_⟩
  · intro n i h
    simp only [one, disk] at h ⊢
    split at h
    · cases h; omega
    · split at h
      · cases h; omega
      · cases h
  · by_cases h : u = 0 <;> simp [one, disk, h]
  · simp [one, disk]; omega
  · simp [one, disk]

/-- an interrupted second backup: the metadata of the first one have been replaced by differences -/
def two : St Int Nat := disk (fun n => if n = .cm 0 then some 0 else if n = .cm 1 then some 2 else if n = .sn 1 then some 3 else if n = .df 0 then some 4 else none)
  (fun i => if i = 1 then 5 else if i = 3 then 7 else if i = 4 then -2 else 0) 2 5

theorem two_interrupted : Interrupted env 0 (fun _ => 5) two := by
  refine ⟨disk_durable, ?_, fun u => ?_, .inr ⟨rfl, -2, 7, rfl, rfl, rfl⟩, fun u hu => by omega, fun u hu => ?_, fun u hu => ?_⟩
  · intro n i h
    simp only [two, disk] at h ⊢
    split at h
    · cases h; omega
    · split at h
      · cases h; omega
      · split at h
        · cases h; omega
        · split at h
          · cases h; omega
          · cases h
  · by_cases h : u = 0
    · subst h; simp [two, disk]
    · by_cases h1 : u = 1
      · subst h1; simp [two, disk]
      · simp [two, disk, h, h1]
  · simp [two, disk]; omega
  · simp [two, disk]; omega

example : Complete env 1 (fun u => if u = 1 then 7 else 5) 2 (flushed (run env one (backupOps ⟨true, true, true⟩ env 0 one 7 2))) := backup_done rfl rfl env_ok one_complete
example : readMeta env (run env one (backupOps ⟨true, true, true⟩ env 0 one 7 2)) 1 0 = some 5 := by decide +kernel
example : Complete env 0 (fun _ => 5) 1 (flushed (run env two (regressOps ⟨true, true, true⟩ env 0 two 0 1))) := regress_done rfl rfl two_interrupted rfl
example : Reach ⟨true, true, true⟩ env 1 (fun u => if u = 0 + 1 then 7 else 5) 2 (flushed (run env one (backupOps ⟨true, true, true⟩ env 0 one 7 2))) :=
  .done (.start one_complete) rfl (List.prefix_refl _) (fail_flushed disk_durable _) rfl

/-- **The first backup (F119).** The marker is synchronised when the first backup is done, but not the mirror: after a power failure the repository counts as complete with whatever mirror. -/
theorem first_backup_lost (x : Nat) : ∃ w : St Int Nat, Fail (run env (disk (fun _ => none) (fun _ => 0) 0 0) (firstOps ⟨true, true, true⟩ 7 9)) w ∧
    (∀ u, (w.ent (.cm u)).isSome = true ↔ u = 0) ∧ content w (.sn 0) = some 7 ∧ w.mir = x := by
  refine ⟨disk (fun n => if n = .cm 0 then some 1 else if n = .sn 0 then some 0 else none) (fun i => if i = 0 then 7 else 0) x 2, ⟨fun n => ?_, fun i => ?_, ?_, rfl, disk_durable⟩,
    fun u => ?_, rfl, rfl⟩
  · simp [run, firstOps, touchMarker, fsyncWithDir, step, upd, disk]
  · by_cases h0 : i = 0
    · subst h0; simp [run, firstOps, touchMarker, fsyncWithDir, step, upd, disk]
    · by_cases h1 : i = 1
      · subst h1; simp [run, firstOps, touchMarker, fsyncWithDir, step, upd, disk, env]
      · simp [run, firstOps, touchMarker, fsyncWithDir, step, upd, disk, h0, h1]
  · simp [run, firstOps, touchMarker, fsyncWithDir, step, upd, disk]
  · by_cases h : u = 0 <;> simp [disk, h]

/-- **A backup which was complete (F120).** The removal of the older marker isn't synchronised: after a power failure it may be there again, and the backup which was reported as
successful is undone by the next session. -/
theorem complete_then_undone : ∃ w : St Int Nat, Fail (run env one (backupOps ⟨true, true, true⟩ env 0 one 7 2)) w ∧ Interrupted env 0 (fun _ => 5) w := by
  have e1 : backupOps ⟨true, true, true⟩ env 0 one 7 2 = [.mk (.cm 1), .sync (.cm 1), .syncDir, .mk (.sn 1), .work 2, .wr (.sn 1) 7, .sync (.sn 1), .syncDir, .mk (.df 0), .wr (.df 0) (-2),
    .sync (.df 0), .syncDir, .rm (.sn 0), .syncAll, .rm (.cm 0)] := rfl
  rw [e1]
  refine ⟨two, ⟨fun n => ?_, fun i => ?_, ?_, rfl, disk_durable⟩, two_interrupted⟩
  · by_cases h0 : n = .cm 0
    · subst h0; exact .inl rfl
    · simp [run, step, upd, disk, one, two, h0]
      split <;> simp_all
      split <;> simp_all
  · simp [run, step, upd, disk, one, two, env]
    split <;> simp_all
    split <;> simp_all
  · rfl

/-- **Killed, then a power failure (F118).** A regress which is killed after renaming the recreated metadata and before the directory is synchronised, and a second one, during which the
power fails: the metadata of the last good backup may be lost. -/
theorem killed_then_failure : ∃ w : St Int Nat, Interrupted env 0 (fun _ => 5) two ∧
    Fail (run env (run env two ((regressOps ⟨true, true, true⟩ env 0 two 0 1).take 5))
      ((regressOps ⟨true, true, true⟩ env 0 (run env two ((regressOps ⟨true, true, true⟩ env 0 two 0 1).take 5)) 1 1).take 2)) w ∧
    (∀ u, (w.ent (.cm u)).isSome = true ↔ u = 0 ∨ u = 1) ∧ ∀ n, readMeta env w n 0 = none := by
  have e1 : (regressOps ⟨true, true, true⟩ env 0 two 0 1).take 5 = [.mk (.tmp 0), .wr (.tmp 0) 5, .sync (.tmp 0), .syncDir, .mv (.tmp 0) (.sn 0)] := rfl
  rw [e1]
  have e2 : (regressOps ⟨true, true, true⟩ env 0 (run env two [.mk (.tmp 0), .wr (.tmp 0) 5, .sync (.tmp 0), .syncDir, .mv (.tmp 0) (.sn 0)]) 1 1).take 2 = [.rm (.sn 1), .rm (.df 0)] := rfl
  rw [e2]
  refine ⟨disk (fun n => if n = .cm 0 then some 0 else if n = .cm 1 then some 2 else if n = .tmp 0 then some 5 else none)
      (fun i => if i = 1 then 5 else if i = 3 then 7 else if i = 4 then -2 else if i = 5 then 5 else 0) 2 6,
    two_interrupted, ⟨fun n => ?_, fun i => ?_, ?_, rfl, disk_durable⟩, fun u => ?_, fun n => ?_⟩
  · simp [run, step, upd, disk, two]
    by_cases h1 : n = .df 0
    · simp [h1]
    by_cases h2 : n = .sn 1
    · simp [h2]
    by_cases h3 : n = .tmp 0
    · simp [h3]
    by_cases h4 : n = .sn 0
    · simp [h4]
    simp [h1, h2, h3, h4]
  · simp [run, step, upd, disk, two, env]
    by_cases h1 : i = 5 <;> simp [h1]
  · rfl
  · by_cases h : u = 0
    · subst h; simp [disk]
    · by_cases h1 : u = 1
      · subst h1; simp [disk]
      · simp [disk, h, h1]
  · cases n <;> rfl

end Verif.C79
