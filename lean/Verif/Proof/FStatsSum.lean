import Verif.Proof.FStats
import Verif.Spec.FStats
import Mathlib.Data.List.Lex
import Mathlib.Data.List.TakeWhile
/-
Lemmas about file statistics: sums over sessions, the largest directories, listings (C68).
-/
set_option linter.unusedSectionVars false

namespace Verif.FStats
open Verif

section
variable {α : Type} [DecidableEq α]

theorem files_eq (F : Forest α) : F.files = pre F := by
  induction F with
  | nil => rfl
  | cons a v c r ih1 ih2 => simp [Forest.files, pre, ih1, ih2]

theorem total_eq (es : List (FS α)) (d : List α) : total es d = sumOf (below es d) := by
  simp only [total, below]
  generalize (es.filter fun x => decide (d <+: x.1)) = l
  induction l with
  | nil => rfl
  | cons x l ih =>
    simp only [List.map_cons, List.sum_cons, sumOf, List.foldr_cons] at *
    rw [← ih]
    rfl

/-! ### merging -/

theorem wf_names {p a : List α} {v : Vals} {c r : Forest α} (h : WF p (.cons a v c r)) : (∀ x ∈ pre c, a <+: x.1 ∧ x.1 ≠ a) ∧ ∀ x ∈ pre r, ¬ a <+: x.1 := by
  obtain ⟨-, hc, -, hd⟩ := h
  refine ⟨fun x hx => ?_, hd⟩
  obtain ⟨m, l, e⟩ := hc.below x hx
  rw [e]
  exact ⟨List.prefix_append _ _, fun e => by simpa using congrArg List.length e⟩

/-- siblings which aren't prefixes of each other's contents -/
theorem no_prefix {p a : List α} {n : α} (ha : a = p ++ [n]) {r : Forest α} (hr : WF p r) (h : ∀ x ∈ pre r, x.1 ≠ a) : ∀ x ∈ pre r, ¬ a <+: x.1 := by
  induction r with
  | nil => simp [pre]
  | cons b w c r _ ih =>
    obtain ⟨⟨m, hb⟩, hc, hr', hd⟩ := hr
    have hne : n ≠ m := fun e => h (b, w) (by simp [pre]) (by rw [ha, hb, e])
    intro x hx
    simp only [pre, List.mem_cons, List.mem_append] at hx
    rcases hx with rfl | hx | hx
    · rw [ha, hb, prefix_concat_cons]; exact hne
    · obtain ⟨k, l, e⟩ := hc.below x hx
      rw [e, ha, hb, List.append_assoc, List.singleton_append, prefix_concat_cons]
      exact hne
    · exact ih hr' (fun y hy => h y (by simp [pre, hy])) x hx

theorem get_none {F : Forest α} {a : List α} {p : List α} {n : α} (ha : a = p ++ [n]) (hw : WF p F) (h : F.get a = none) : ∀ x ∈ pre F, ¬ a <+: x.1 := by
  refine no_prefix ha hw ?_
  induction F with
  | nil => simp [pre]
  | cons b w c r _ ih =>
    rw [Forest.get] at h
    split at h
    · cases h
    · next hne =>
      have hw' := hw
      obtain ⟨⟨m, hb⟩, hc, hr, hd⟩ := hw
      intro x hx e
      simp only [pre, List.mem_cons, List.mem_append] at hx
      rcases hx with rfl | hx | hx
      · exact hne e
      · obtain ⟨k, l, e'⟩ := hc.below x hx
        have := congrArg List.length e
        rw [e', ha, hb] at this
        simp at this
      · exact ih hr h x hx e

theorem get_some {F : Forest α} {a : List α} {p : List α} {n : α} {v : Vals} {c : Forest α} (ha : a = p ++ [n]) (hw : WF p F) (h : F.get a = some (v, c)) :
    WF a c ∧ WF p (F.erase a) ∧ (∀ x, x ∈ pre F ↔ x = (a, v) ∨ x ∈ pre c ∨ x ∈ pre (F.erase a)) ∧ (∀ x ∈ pre (F.erase a), ¬ a <+: x.1) ∧
      F.sum = v + (F.erase a).sum ∧ (Super F → Super c ∧ Super (F.erase a) ∧ Le c.sum v) := by
  induction F with
  | nil => cases h
  | cons b w d r _ ih =>
    rw [Forest.get] at h
    rw [Forest.erase]
    split at h
    · next e =>
      cases h
      subst e
      rw [if_pos rfl]
      obtain ⟨hb, hc, hr, hd⟩ := hw
      exact ⟨hc, hr, fun x => by simp [pre], hd, rfl, fun hs => ⟨hs.2.1, hs.2.2, hs.1⟩⟩
    · next hne =>
      rw [if_neg hne]
      obtain ⟨⟨m, hb⟩, hc, hr, hd⟩ := hw
      obtain ⟨h1, h2, h3, h4, h5, h6⟩ := ih hr h
      have hmn : n ≠ m := fun e => hne (by rw [ha, hb, e])
      refine ⟨h1, ⟨⟨m, hb⟩, hc, h2, fun x hx => hd x ((h3 x).2 (.inr (.inr hx)))⟩, ?_, ?_, ?_, ?_⟩
      · intro x
        simp only [pre, List.mem_cons, List.mem_append, h3 x]
        constructor
        · rintro (h | h | h | h | h)
          · exact .inr (.inr (.inl h))
          · exact .inr (.inr (.inr (.inl h)))
          · exact .inl h
          · exact .inr (.inl h)
          · exact .inr (.inr (.inr (.inr h)))
        · rintro (h | h | h | h | h)
          · exact .inr (.inr (.inl h))
          · exact .inr (.inr (.inr (.inl h)))
          · exact .inl h
          · exact .inr (.inl h)
          · exact .inr (.inr (.inr (.inr h)))
      · intro x hx
        simp only [pre, List.mem_cons, List.mem_append] at hx
        rcases hx with rfl | hx | hx
        · rw [ha, hb, prefix_concat_cons]; exact hmn
        · obtain ⟨k, l, e⟩ := hc.below x hx
          rw [e, ha, hb, List.append_assoc, List.singleton_append, prefix_concat_cons]
          exact hmn
        · exact h4 x hx
      · simp only [Forest.sum, h5]
        rw [← vadd_assoc, vadd_comm w v, vadd_assoc]
      · intro hs
        obtain ⟨s1, s2, s3⟩ := h6 hs.2.2
        exact ⟨s1, ⟨hs.1, hs.2.1, s2⟩, s3⟩

/-- the value of a file in a list -/
def At (l : List (FS α)) (d : List α) : Prop := ∃ x, (d, x) ∈ l

theorem merge_spec (A : Forest α) : ∀ {p : List α} {B : Forest α}, WF p A → WF p B →
    WF p (A.merge B) ∧ (A.merge B).sum = A.sum + B.sum ∧ (Super A → Super B → Super (A.merge B)) ∧
      ∀ d x, (d, x) ∈ pre (A.merge B) ↔ (∃ y z, (d, y) ∈ pre A ∧ (d, z) ∈ pre B ∧ x = y + z) ∨ ((d, x) ∈ pre A ∧ ¬ At (pre B) d) ∨ ((d, x) ∈ pre B ∧ ¬ At (pre A) d) := by
  induction A with
  | nil =>
    intro p B _ hB
    refine ⟨hB, (vzero_add _).symm, fun _ h => h, fun d x => ?_⟩
    simp [Forest.merge, pre, At]
  | cons a v c r ih1 ih2 =>
    intro p B hA hB
    obtain ⟨⟨n, ha⟩, hc, hr, hd⟩ := hA
    have hca : ∀ d x, (d, x) ∈ pre c → a <+: d ∧ d ≠ a := fun d x h => (wf_names (v := v) (⟨⟨n, ha⟩, hc, hr, hd⟩ : WF p (.cons a v c r))).1 _ h
    have hd' : ∀ d x, (d, x) ∈ pre r → ¬ a <+: d := fun d x h => hd _ h
    cases hg : B.get a with
    | none =>
      have hBa : ∀ d x, (d, x) ∈ pre B → ¬ a <+: d := fun d x h => get_none ha hB hg _ h
      obtain ⟨i1, i2, i3, i4⟩ := ih2 hr hB
      have hm : Forest.merge (.cons a v c r) B = .cons a v c (r.merge B) := by simp only [Forest.merge, hg]
      rw [hm]
      refine ⟨⟨⟨n, ha⟩, hc, i1, ?_⟩, ?_, fun hs hs' => ⟨hs.1, hs.2.1, i3 hs.2.2 hs'⟩, ?_⟩
      · rintro ⟨d, x⟩ hx
        rcases (i4 d x).1 hx with ⟨y, z, h1, h2, -⟩ | ⟨h1, -⟩ | ⟨h1, -⟩
        · exact hd' _ _ h1
        · exact hd' _ _ h1
        · exact hBa _ _ h1
      · simp only [Forest.sum, i2, vadd_assoc]
      · intro d x
        simp only [pre, List.mem_cons, List.mem_append, i4 d x, Prod.mk.injEq, At]
        constructor
        · rintro (⟨rfl, rfl⟩ | h | ⟨y, z, h1, h2, h3⟩ | ⟨h1, h2⟩ | ⟨h1, h2⟩)
          · exact .inr (.inl ⟨.inl ⟨rfl, rfl⟩, fun ⟨y, hy⟩ => hBa _ _ hy (List.prefix_refl _)⟩)
          · exact .inr (.inl ⟨.inr (.inl h), fun ⟨y, hy⟩ => hBa _ _ hy (hca _ _ h).1⟩)
          · exact .inl ⟨y, z, .inr (.inr h1), h2, h3⟩
          · exact .inr (.inl ⟨.inr (.inr h1), h2⟩)
          · refine .inr (.inr ⟨h1, ?_⟩)
            rintro ⟨y, ⟨rfl, rfl⟩ | hy | hy⟩
            · exact hBa _ _ h1 (List.prefix_refl _)
            · exact hBa _ _ h1 (hca _ _ hy).1
            · exact h2 ⟨y, hy⟩
        · rintro (⟨y, z, ⟨rfl, rfl⟩ | h1 | h1, h2, h3⟩ | ⟨h1 | h1 | h1, h2⟩ | ⟨h1, h2⟩)
          · exact absurd (List.prefix_refl _) (hBa _ _ h2)
          · exact absurd (hca _ _ h1).1 (hBa _ _ h2)
          · exact .inr (.inr (.inl ⟨y, z, h1, h2, h3⟩))
          · exact .inl h1
          · exact .inr (.inl h1)
          · exact .inr (.inr (.inr (.inl ⟨h1, h2⟩)))
          · exact .inr (.inr (.inr (.inr ⟨h1, fun ⟨y, hy⟩ => h2 ⟨y, .inr (.inr hy)⟩⟩)))
    | some q =>
      obtain ⟨v', c'⟩ := q
      obtain ⟨g1, g2, g3, g4', g5, g6⟩ := get_some ha hB hg
      have g4 : ∀ d x, (d, x) ∈ pre (B.erase a) → ¬ a <+: d := fun d x h => g4' _ h
      obtain ⟨i1, i2, i3, i4⟩ := ih1 hc g1
      obtain ⟨j1, j2, j3, j4⟩ := ih2 hr g2
      have hca' : ∀ d x, (d, x) ∈ pre c' → a <+: d ∧ d ≠ a := by
        intro d x hx
        obtain ⟨m, l, e⟩ := g1.below _ hx
        simp only at e
        rw [e]
        exact ⟨List.prefix_append _ _, fun e => by simpa using congrArg List.length e⟩
      have hv : v - c.sum + (c.merge c').sum + (v' - c'.sum) = v + v' := by
        rw [i2]
        apply Vals.ext' <;> simp <;> omega
      have hm : Forest.merge (.cons a v c r) B = .cons a (v + v') (c.merge c') (r.merge (B.erase a)) := by
        simp only [Forest.merge, hg, hv]
      rw [hm]
      refine ⟨⟨⟨n, ha⟩, i1, j1, ?_⟩, ?_, fun hs hs' => ⟨?_, i3 hs.2.1 (g6 hs').1, j3 hs.2.2 (g6 hs').2.1⟩, ?_⟩
      · rintro ⟨d, x⟩ hx
        rcases (j4 d x).1 hx with ⟨y, z, h1, h2, -⟩ | ⟨h1, -⟩ | ⟨h1, -⟩
        · exact hd' _ _ h1
        · exact hd' _ _ h1
        · exact g4 _ _ h1
      · simp only [Forest.sum, j2, g5]
        apply Vals.ext' <;> simp <;> omega
      · rw [i2]
        have h1 := hs.1
        have h2 := (g6 hs').2.2
        clear i4 j4 g3
        simp only [Le, add_changed, add_source, add_inc] at *
        omega
      · intro d x
        simp only [pre, List.mem_cons, List.mem_append, i4 d x, j4 d x, Prod.mk.injEq, g3, At]
        constructor
        · rintro (⟨rfl, rfl⟩ | (⟨y, z, h1, h2, h3⟩ | ⟨h1, h2⟩ | ⟨h1, h2⟩) | (⟨y, z, h1, h2, h3⟩ | ⟨h1, h2⟩ | ⟨h1, h2⟩))
          · exact .inl ⟨v, v', .inl ⟨rfl, rfl⟩, .inl ⟨rfl, rfl⟩, rfl⟩
          · exact .inl ⟨y, z, .inr (.inl h1), .inr (.inl h2), h3⟩
          · refine .inr (.inl ⟨.inr (.inl h1), ?_⟩)
            rintro ⟨y, ⟨rfl, rfl⟩ | hy | hy⟩
            · exact (hca _ _ h1).2 rfl
            · exact h2 ⟨y, hy⟩
            · exact g4 _ _ hy (hca _ _ h1).1
          · refine .inr (.inr ⟨.inr (.inl h1), ?_⟩)
            rintro ⟨y, ⟨rfl, rfl⟩ | hy | hy⟩
            · exact (hca' _ _ h1).2 rfl
            · exact h2 ⟨y, hy⟩
            · exact hd' _ _ hy (hca' _ _ h1).1
          · exact .inl ⟨y, z, .inr (.inr h1), .inr (.inr h2), h3⟩
          · refine .inr (.inl ⟨.inr (.inr h1), ?_⟩)
            rintro ⟨y, ⟨rfl, rfl⟩ | hy | hy⟩
            · exact hd' _ _ h1 (List.prefix_refl _)
            · exact hd' _ _ h1 (hca' _ _ hy).1
            · exact h2 ⟨y, hy⟩
          · refine .inr (.inr ⟨.inr (.inr h1), ?_⟩)
            rintro ⟨y, ⟨rfl, rfl⟩ | hy | hy⟩
            · exact g4 _ _ h1 (List.prefix_refl _)
            · exact g4 _ _ h1 (hca _ _ hy).1
            · exact h2 ⟨y, hy⟩
        · rintro (⟨y, z, h1 | h1 | h1, h2 | h2 | h2, h3⟩ | ⟨h1 | h1 | h1, h2⟩ | ⟨h1 | h1 | h1, h2⟩)
          · exact .inl ⟨h1.1, by rw [h3, h1.2, h2.2]⟩
          · exact absurd h1.1 (hca' _ _ h2).2
          · obtain ⟨rfl, -⟩ := h1
            exact absurd (List.prefix_refl _) (g4 _ _ h2)
          · exact absurd h2.1 (hca _ _ h1).2
          · exact .inr (.inl (.inl ⟨y, z, h1, h2, h3⟩))
          · exact absurd (hca _ _ h1).1 (g4 _ _ h2)
          · obtain ⟨rfl, -⟩ := h2
            exact absurd (List.prefix_refl _) (hd' _ _ h1)
          · exact absurd (hca' _ _ h2).1 (hd' _ _ h1)
          · exact .inr (.inr (.inl ⟨y, z, h1, h2, h3⟩))
          · exact absurd ⟨v', .inl ⟨h1.1, rfl⟩⟩ h2
          · exact .inr (.inl (.inr (.inl ⟨h1, fun ⟨y, hy⟩ => h2 ⟨y, .inr (.inl hy)⟩⟩)))
          · exact .inr (.inr (.inr (.inl ⟨h1, fun ⟨y, hy⟩ => h2 ⟨y, .inr (.inr hy)⟩⟩)))
          · exact absurd ⟨v, .inl ⟨h1.1, rfl⟩⟩ h2
          · exact .inr (.inl (.inr (.inr ⟨h1, fun ⟨y, hy⟩ => h2 ⟨y, .inr (.inl hy)⟩⟩)))
          · exact .inr (.inr (.inr (.inr ⟨h1, fun ⟨y, hy⟩ => h2 ⟨y, .inr (.inr hy)⟩⟩)))

/-! ### the largest -/

theorem top_names (f : Vals → Int) (cut : Int) (F : Forest α) : ∀ y ∈ (top f cut F).1, ∃ x ∈ pre F, x.1 = y.1 := by
  induction F with
  | nil => simp [top]
  | cons a v c r ih1 ih2 =>
    intro y hy
    simp only [top] at hy
    split at hy
    · obtain ⟨x, hx, e⟩ := ih2 y hy
      exact ⟨x, by simp [pre, hx], e⟩
    · split at hy
      · simp only [List.mem_cons, List.mem_append] at hy
        rcases hy with rfl | hy | hy
        · exact ⟨(a, v), by simp [pre], rfl⟩
        · obtain ⟨x, hx, e⟩ := ih1 y hy
          exact ⟨x, by simp [pre, hx], e⟩
        · obtain ⟨x, hx, e⟩ := ih2 y hy
          exact ⟨x, by simp [pre, hx], e⟩
      · simp only [List.mem_append] at hy
        rcases hy with hy | hy
        · obtain ⟨x, hx, e⟩ := ih1 y hy
          exact ⟨x, by simp [pre, hx], e⟩
        · obtain ⟨x, hx, e⟩ := ih2 y hy
          exact ⟨x, by simp [pre, hx], e⟩

theorem top_sum (f : Vals → Int) (cut : Int) (F : Forest α) : (top f cut F).2 = ((top f cut F).1.map Prod.snd).sum := by
  induction F with
  | nil => rfl
  | cons a v c r ih1 ih2 =>
    simp only [top]
    split
    · exact ih2
    · split
      · simp only [List.map_cons, List.map_append, List.sum_cons, List.sum_append, ← ih1, ← ih2]; omega
      · simp only [List.map_append, List.sum_append, ← ih1, ← ih2]

theorem listedBelow_append (l l' : List (List α × Int)) (d : List α) : listedBelow (l ++ l') d = listedBelow l d + listedBelow l' d := by
  simp [listedBelow]

theorem listedBelow_zero {l : List (List α × Int)} {d : List α} (h : ∀ y ∈ l, ¬ (d <+: y.1 ∧ y.1 ≠ d)) : listedBelow l d = 0 := by
  have : (l.filter fun y => decide (d <+: y.1 ∧ y.1 ≠ d)) = [] := by
    rw [List.filter_eq_nil_iff]
    intro y hy
    simpa using h y hy
  rw [listedBelow, this]
  try rfl

theorem listedBelow_all {l : List (List α × Int)} {d : List α} (h : ∀ y ∈ l, d <+: y.1 ∧ y.1 ≠ d) : listedBelow l d = (l.map Prod.snd).sum := by
  have : (l.filter fun y => decide (d <+: y.1 ∧ y.1 ≠ d)) = l := by
    rw [List.filter_eq_self]
    intro y hy
    simpa using h y hy
  rw [listedBelow, this]
  try rfl

theorem Value.le {f : Vals → Int} (hf : Value f) {a b : Vals} (h : Le a b) : f a ≤ f b := by
  cases hf with
  | changed => exact h.1
  | source => exact h.2.1
  | inc => exact h.2.2

theorem Value.add {f : Vals → Int} (hf : Value f) (a b : Vals) : f (a + b) = f a + f b := by cases hf <;> rfl
theorem Value.zero {f : Vals → Int} (hf : Value f) : f zero = 0 := by cases hf <;> rfl

theorem top_spec {f : Vals → Int} (hf : Value f) (cut : Int) (F : Forest α) : ∀ {p : List α}, WF p F → Super F → ∀ d x,
    (d, x) ∈ (top f cut F).1 ↔ cut ≤ x ∧ ∃ v, (d, v) ∈ pre F ∧ cut < f v ∧ x = f v - listedBelow (top f cut F).1 d := by
  induction F with
  | nil => intro p _ _ d x; simp [top, pre]
  | cons a v c r ih1 ih2 =>
    intro p hw hs d x
    have hw' := hw
    obtain ⟨⟨n, ha⟩, hc, hr, hd⟩ := hw
    obtain ⟨hca, -⟩ := wf_names hw'
    have hra : ∀ x ∈ pre r, ∀ y ∈ pre (.cons a v c .nil), ¬ x.1 <+: y.1 := by
      intro x hx y hy hp
      obtain ⟨m, l, e⟩ := hr.below x hx
      have hnm : n ≠ m := fun e' => hd x hx (by rw [e, ha, prefix_concat_cons, e'])
      have hay : a <+: y.1 := by
        simp only [pre, List.append_nil, List.mem_cons] at hy
        rcases hy with rfl | hy
        · exact List.prefix_refl a
        · exact (hca y hy).1
      have hmy : p ++ [m] <+: y.1 := by
        refine List.IsPrefix.trans ?_ hp
        rw [e]
        exact (List.prefix_append_right_inj p).2 (by simp)
      rw [ha] at hay
      have := List.prefix_of_prefix_length_le hay hmy (by simp)
      rw [prefix_concat_cons] at this
      exact hnm this
    have hbelow_r : ∀ z ∈ pre r, ∀ l : List (List α × Int), (∀ y ∈ l, ∃ x ∈ pre (.cons a v c .nil), x.1 = y.1) → listedBelow l z.1 = 0 := by
      intro z hz l hl
      refine listedBelow_zero fun y hy hyz => ?_
      obtain ⟨x, hx, e⟩ := hl y hy
      exact hra z hz x hx (e ▸ hyz.1)
    have hbelow_c : ∀ z ∈ pre (.cons a v c .nil), listedBelow (top f cut r).1 z.1 = 0 := by
      intro z hz
      refine listedBelow_zero fun y hy hyz => ?_
      obtain ⟨x, hx, e⟩ := top_names f cut r y hy
      have haz : a <+: z.1 := by
        simp only [pre, List.append_nil, List.mem_cons] at hz
        rcases hz with rfl | hz
        · exact List.prefix_refl a
        · exact (hca z hz).1
      exact hd x hx (e ▸ haz.trans hyz.1)
    have hctop : ∀ y ∈ (top f cut c).1, a <+: y.1 ∧ y.1 ≠ a := by
      intro y hy
      obtain ⟨x, hx, e⟩ := top_names f cut c y hy
      exact e ▸ hca x hx
    have hcmem : ∀ z ∈ pre c, z ∈ pre (.cons a v c .nil) := fun z hz => by simp [pre, hz]
    have hamem : ((a, v) : FS α) ∈ pre (.cons a v c .nil) := by simp [pre]
    simp only [top]
    by_cases hv : f v ≤ cut
    · rw [if_pos hv, ih2 hr hs.2.2]
      simp only [pre, List.mem_cons, List.mem_append, Prod.mk.injEq]
      constructor
      · rintro ⟨h1, w, h2, h3⟩
        exact ⟨h1, w, .inr (.inr h2), h3⟩
      · rintro ⟨h1, w, h2 | h2 | h2, h3, h4⟩
        · rw [h2.2] at h3; omega
        · exfalso
          have := hf.le ((hs.2.1.le_sum _ h2).trans hs.1)
          simp only at this
          omega
        · exact ⟨h1, w, h2, h3, h4⟩
    · rw [if_neg hv]
      have hL : ∀ L : List (List α × Int), (L = (top f cut c).1 ++ (top f cut r).1 ∨ ∃ cur, L = (a, cur) :: ((top f cut c).1 ++ (top f cut r).1)) →
          (∀ z ∈ pre c, listedBelow L z.1 = listedBelow (top f cut c).1 z.1) ∧ (∀ z ∈ pre r, listedBelow L z.1 = listedBelow (top f cut r).1 z.1) ∧
            listedBelow L a = (top f cut c).2 := by
        intro L hL
        have hcons : ∀ (cur : Int) (M : List (List α × Int)) (z : List α), (¬ (z <+: a ∧ a ≠ z)) → listedBelow ((a, cur) :: M) z = listedBelow M z := by
          intro cur M z hz
          rw [← List.singleton_append, listedBelow_append, listedBelow_zero (l := [(a, cur)])]
          · omega
          · simpa using hz
        have key : (∀ z ∈ pre c, listedBelow ((top f cut c).1 ++ (top f cut r).1) z.1 = listedBelow (top f cut c).1 z.1) ∧
            (∀ z ∈ pre r, listedBelow ((top f cut c).1 ++ (top f cut r).1) z.1 = listedBelow (top f cut r).1 z.1) ∧
            listedBelow ((top f cut c).1 ++ (top f cut r).1) a = (top f cut c).2 := by
          refine ⟨fun z hz => ?_, fun z hz => ?_, ?_⟩
          · rw [listedBelow_append, hbelow_c z (hcmem z hz)]; omega
          · rw [listedBelow_append, hbelow_r z hz (top f cut c).1]
            · omega
            · intro y hy
              obtain ⟨x, hx, e⟩ := top_names f cut c y hy
              exact ⟨x, hcmem x hx, e⟩
          · rw [listedBelow_append, hbelow_c (a, v) hamem, listedBelow_all hctop, top_sum]; omega
        rcases hL with rfl | ⟨cur, rfl⟩
        · exact key
        · refine ⟨fun z hz => ?_, fun z hz => ?_, ?_⟩
          · rw [hcons _ _ _ (fun h => (hca z hz).2 (List.IsPrefix.eq_of_length h.1 (Nat.le_antisymm h.1.length_le (hca z hz).1.length_le))), key.1 z hz]
          · rw [hcons _ _ _ (fun h => hra z hz _ hamem h.1), key.2.1 z hz]
          · rw [hcons _ _ _ (fun h => h.2 rfl), key.2.2]
      have hmem_ne : ∀ w, (a, w) ∉ (top f cut c).1 ∧ (a, w) ∉ (top f cut r).1 := by
        intro w
        constructor
        · intro h; exact (hctop _ h).2 rfl
        · intro h
          obtain ⟨x, hx, e⟩ := top_names f cut r _ h
          exact hd x hx (e ▸ List.prefix_refl _)
      by_cases hcur : cut ≤ f v - (top f cut c).2
      · rw [if_pos hcur]
        obtain ⟨k1, k2, k3⟩ := hL _ (.inr ⟨f v - (top f cut c).2, rfl⟩)
        simp only [pre, List.mem_cons, List.mem_append, Prod.mk.injEq, ih1 hc hs.2.1 d x, ih2 hr hs.2.2 d x]
        constructor
        · rintro (⟨rfl, rfl⟩ | ⟨h1, w, h2, h3, h4⟩ | ⟨h1, w, h2, h3, h4⟩)
          · exact ⟨hcur, v, .inl ⟨rfl, rfl⟩, by omega, by rw [k3]⟩
          · exact ⟨h1, w, .inr (.inl h2), h3, by rw [h4]; have := k1 _ h2; simp only at this; rw [this]⟩
          · exact ⟨h1, w, .inr (.inr h2), h3, by rw [h4]; have := k2 _ h2; simp only at this; rw [this]⟩
        · rintro ⟨h1, w, ⟨rfl, rfl⟩ | h2 | h2, h3, h4⟩
          · exact .inl ⟨rfl, by rw [h4, k3]⟩
          · refine .inr (.inl ⟨h1, w, h2, h3, ?_⟩)
            have := k1 _ h2
            simp only at this
            rw [h4, this]
          · refine .inr (.inr ⟨h1, w, h2, h3, ?_⟩)
            have := k2 _ h2
            simp only at this
            rw [h4, this]
      · rw [if_neg hcur]
        obtain ⟨k1, k2, k3⟩ := hL _ (.inl rfl)
        simp only [pre, List.mem_cons, List.mem_append, Prod.mk.injEq, ih1 hc hs.2.1 d x, ih2 hr hs.2.2 d x]
        constructor
        · rintro (⟨h1, w, h2, h3, h4⟩ | ⟨h1, w, h2, h3, h4⟩)
          · exact ⟨h1, w, .inr (.inl h2), h3, by rw [h4]; have := k1 _ h2; simp only at this; rw [this]⟩
          · exact ⟨h1, w, .inr (.inr h2), h3, by rw [h4]; have := k2 _ h2; simp only at this; rw [this]⟩
        · rintro ⟨h1, w, ⟨rfl, rfl⟩ | h2 | h2, h3, h4⟩
          · rw [k3] at h4; omega
          · refine .inl ⟨h1, w, h2, h3, ?_⟩
            have := k1 _ h2
            simp only at this
            rw [h4, this]
          · refine .inr ⟨h1, w, h2, h3, ?_⟩
            have := k2 _ h2
            simp only at this
            rw [h4, this]
end

/-! ### listings -/
section
variable {α : Type} [LinearOrder α]

theorem lex_between {a y l : List α} (h1 : a < y) (h2 : y < a ++ l) : a <+: y := by
  induction a generalizing y with
  | nil => exact List.nil_prefix
  | cons c a ih =>
    cases y with
    | nil => exact absurd h1 (List.not_lt_nil _)
    | cons e y =>
      rw [List.cons_lt_cons_iff] at h1
      rw [List.cons_append, List.cons_lt_cons_iff] at h2
      rcases h1 with h1 | ⟨rfl, h1⟩
      · rcases h2 with h2 | ⟨rfl, -⟩
        · exact absurd (lt_trans h1 h2) (lt_irrefl _)
        · exact absurd h1 (lt_irrefl _)
      · rcases h2 with h2 | ⟨-, h2⟩
        · exact absurd h2 (lt_irrefl _)
        · exact List.cons_prefix_cons.2 ⟨rfl, ih h1 h2⟩

theorem lt_append {a l : List α} (h : l ≠ []) : a < a ++ l := by
  induction a with
  | nil => cases l with | nil => exact absurd rfl h | cons => exact List.nil_lt_cons _ _
  | cons c a ih => rw [List.cons_append, List.cons_lt_cons_iff]; exact .inr ⟨rfl, ih⟩

theorem forest_of (k : Nat) : ∀ (p : List α) (L : List (FS α)), L.length ≤ k → L.Pairwise (fun x y => x.1 < y.1) → (∀ x ∈ L, ∃ m l, x.1 = p ++ m :: l) →
    (∀ x ∈ L, x.1.dropLast = p ∨ ∃ y ∈ L, y.1 = x.1.dropLast) → ∃ F : Forest α, WF p F ∧ pre F = L := by
  induction k with
  | zero =>
    intro p L h _ _ _
    rw [List.length_eq_zero_iff.1 (Nat.le_zero.1 h)]
    exact ⟨.nil, trivial, rfl⟩
  | succ k ih =>
    intro p L hk hs hp hc
    cases L with
    | nil => exact ⟨.nil, trivial, rfl⟩
    | cons x r =>
      obtain ⟨a, v⟩ := x
      rw [List.pairwise_cons] at hs
      obtain ⟨hs1, hs2⟩ := hs
      have hab : ∀ y : FS α, y ∈ r → a < y.1 := hs1
      have ha : ∃ m, a = p ++ [m] := by
        obtain ⟨m, l, e⟩ := hp (a, v) (by simp)
        simp only at e
        have hne : a ≠ [] := by rw [e]; simp
        rcases hc (a, v) (by simp) with h | ⟨y, hy, h⟩
        · simp only at h
          exact ⟨a.getLast hne, by rw [← h, List.dropLast_append_getLast]⟩
        · exfalso
          simp only at h
          have hlt : a.dropLast < a := by
            have := lt_append (a := a.dropLast) (l := [a.getLast hne]) (by simp)
            rwa [List.dropLast_append_getLast] at this
          rcases List.mem_cons.1 hy with rfl | hy
          · rw [← h] at hlt; exact lt_irrefl _ hlt
          · have := hab y hy
            rw [h] at this
            exact lt_irrefl _ (lt_trans hlt this)
      obtain ⟨m, ha⟩ := ha
      classical
      let A := r.takeWhile fun y => decide (a <+: y.1)
      let B := r.dropWhile fun y => decide (a <+: y.1)
      have hAB : A ++ B = r := List.takeWhile_append_dropWhile
      have hA : ∀ y ∈ A, a <+: y.1 := fun y hy => by simpa using List.mem_takeWhile_imp hy
      have hAr : ∀ y ∈ A, y ∈ r := fun y hy => hAB ▸ List.mem_append_left _ hy
      have hBr : ∀ y ∈ B, y ∈ r := fun y hy => hAB ▸ List.mem_append_right _ hy
      have hsAB := hs2
      rw [← hAB, List.pairwise_append] at hsAB
      obtain ⟨hsA, hsB, -⟩ := hsAB
      have hB : ∀ y ∈ B, ¬ a <+: y.1 := by
        cases hb : B with
        | nil => simp
        | cons z B' =>
          have hz : ¬ a <+: z.1 := by
            have := List.head?_dropWhile_not (fun y : FS α => decide (a <+: y.1)) r
            rw [show r.dropWhile (fun y : FS α => decide (a <+: y.1)) = B from rfl, hb] at this
            simpa using this
          intro y hy hya
          rcases List.mem_cons.1 hy with rfl | hy
          · exact hz hya
          · rw [hb, List.pairwise_cons] at hsB
            obtain ⟨l, e⟩ := hya
            have h1 := hsB.1 y hy
            rw [← e] at h1
            exact hz (lex_between (hab z (hBr z (by rw [hb]; simp))) h1)
      have hlen : A.length + B.length = r.length := by rw [← List.length_append, hAB]
      simp only [List.length_cons] at hk
      obtain ⟨c, hc1, hc2⟩ := ih a A (by omega) hsA (by
          intro y hy
          obtain ⟨l, e⟩ := hA y hy
          cases l with
          | nil =>
            have := hab y (hAr y hy)
            rw [← e, List.append_nil] at this
            exact absurd this (lt_irrefl _)
          | cons m l => exact ⟨m, l, e.symm⟩) (by
          intro y hy
          obtain ⟨l, e⟩ := hA y hy
          have hlne : l ≠ [] := by
            rintro rfl
            have := hab y (hAr y hy)
            rw [← e, List.append_nil] at this
            exact absurd this (lt_irrefl _)
          have hdl : y.1.dropLast = a ++ l.dropLast := by rw [← e, List.dropLast_append_of_ne_nil hlne]
          rcases hc y (by simp [hAr y hy]) with h | ⟨z, hz, h⟩
          · have := congrArg List.length h
            rw [hdl, ha] at this
            simp at this
          · rcases List.mem_cons.1 hz with rfl | hz
            · exact .inl h.symm
            · refine .inr ⟨z, ?_, h⟩
              rw [← hAB] at hz
              rcases List.mem_append.1 hz with hz | hz
              · exact hz
              · exact absurd (by rw [h, hdl]; exact List.prefix_append _ _) (hB z hz))
      obtain ⟨d, hd1, hd2⟩ := ih p B (by omega) hsB (fun y hy => hp y (by simp [hBr y hy])) (by
          intro y hy
          rcases hc y (by simp [hBr y hy]) with h | ⟨z, hz, h⟩
          · exact .inl h
          · refine .inr ⟨z, ?_, h⟩
            have hpy : z.1 <+: y.1 := h ▸ List.dropLast_prefix _
            rcases List.mem_cons.1 hz with rfl | hz
            · exact absurd hpy (hB y hy)
            · rw [← hAB] at hz
              rcases List.mem_append.1 hz with hz | hz
              · exact absurd ((hA z hz).trans hpy) (hB y hy)
              · exact hz)
      refine ⟨.cons a v c d, ⟨⟨m, ha⟩, hc1, hd1, by rw [hd2]; exact hB⟩, ?_⟩
      simp only [pre, hc2, hd2, hAB]

theorem listing_forest {es : List (FS α)} (h : Listing es) : ∃ v F, es = ([], v) :: pre F ∧ WF [] F := by
  obtain ⟨v, rest, rfl⟩ := h.root
  have hs := List.pairwise_cons.1 h.sorted
  have hne : ∀ x ∈ rest, x.1 ≠ [] := fun x hx e => by
    have := hs.1 x hx
    rw [e] at this
    exact absurd this (lt_irrefl _)
  obtain ⟨F, h1, h2⟩ := forest_of rest.length [] rest (Nat.le_refl _) hs.2 (by
      intro x hx
      cases hx1 : x.1 with
      | nil => exact absurd hx1 (hne x hx)
      | cons m l => exact ⟨m, l, rfl⟩) (by
      intro x hx
      obtain ⟨y, hy, e⟩ := h.parents x (by simp [hx]) (hne x hx)
      rcases List.mem_cons.1 hy with rfl | hy
      · exact .inl e.symm
      · exact .inr ⟨y, hy, e⟩)
  exact ⟨v, F, by rw [h2], h1⟩
end
end Verif.FStats
