import Verif.Props.C11
/- General lemmas on folding over outer joins. -/
namespace Verif.JoinSpec
variable {K α γ : Type} [LinearOrder K]

omit [LinearOrder K] in
theorem forall₂_mem_right {R : K → γ → Prop} {ks : List K} {r : List γ} (h : List.Forall₂ R ks r) :
    ∀ row ∈ r, ∃ k ∈ ks, R k row := by
  induction h with
  | nil => simp
  | cons h _ ih =>
    intro row hrow
    rcases List.mem_cons.mp hrow with rfl | hrow
    · exact ⟨_, by simp, h⟩
    · obtain ⟨k, hk, hR⟩ := ih row hrow
      exact ⟨k, by simp [hk], hR⟩

omit [LinearOrder K] in
theorem forall₂_mem_left {R : K → γ → Prop} {ks : List K} {r : List γ} (h : List.Forall₂ R ks r) :
    ∀ k ∈ ks, ∃ row ∈ r, R k row := by
  induction h with
  | nil => simp
  | cons h _ ih =>
    intro row hrow
    rcases List.mem_cons.mp hrow with rfl | hrow
    · exact ⟨_, by simp, h⟩
    · obtain ⟨k, hk, hR⟩ := ih row hrow
      exact ⟨k, by simp [hk], hR⟩

theorem filterMap_ordered {R : K → γ → Prop} {ks : List K} {r : List γ} {f : γ → Option α}
    {idx : α → K} (h : List.Forall₂ R ks r) (hs : ks.Pairwise (· < ·))
    (hf : ∀ k row, R k row → ∀ x, f row = some x → idx x = k) :
    Ordered idx (r.filterMap f) := by
  induction h with
  | nil => exact List.Pairwise.nil
  | @cons k row ks r h hr ih =>
    obtain ⟨h1, h2⟩ := List.pairwise_cons.mp hs
    have ih := ih h2
    rw [List.filterMap_cons]
    split
    · exact ih
    · next x hx =>
      unfold Ordered
      rw [List.pairwise_cons]
      refine ⟨?_, ih⟩
      intro y hy
      obtain ⟨row', hrow', hy'⟩ := List.mem_filterMap.mp hy
      obtain ⟨k', hk', hR⟩ := forall₂_mem_right hr row' hrow'
      rw [hf _ _ h x hx, hf _ _ hR y hy']
      exact h1 k' hk'

/-- Ordered streams with the same members are equal. -/
theorem ordered_ext {idx : α → K} {l l' : List α} (h : Ordered idx l) (h' : Ordered idx l')
    (hm : ∀ x, x ∈ l ↔ x ∈ l') : l = l' := by
  induction l generalizing l' with
  | nil =>
    cases l' with
    | nil => rfl
    | cons b l' => exact absurd ((hm b).mpr (by simp)) (by simp)
  | cons a l ih =>
    cases l' with
    | nil => exact absurd ((hm a).mp (by simp)) (by simp)
    | cons b l' =>
      obtain ⟨ha, h1⟩ := List.pairwise_cons.mp h
      obtain ⟨hb, h2⟩ := List.pairwise_cons.mp h'
      have hab : a = b := by
        rcases List.mem_cons.mp ((hm a).mp (by simp)) with e | e
        · exact e
        · rcases List.mem_cons.mp ((hm b).mpr (by simp)) with e' | e'
          · exact e'.symm
          · exact absurd (lt_trans (ha b e') (hb a e)) (lt_irrefl _)
      subst hab
      congr 1
      apply ih h1 h2
      intro x
      constructor
      · intro hx
        rcases List.mem_cons.mp ((hm x).mp (by simp [hx])) with e | e
        · subst e; exact absurd (ha x hx) (lt_irrefl _)
        · exact e
      · intro hx
        rcases List.mem_cons.mp ((hm x).mpr (by simp [hx])) with e | e
        · subst e; exact absurd (hb x hx) (lt_irrefl _)
        · exact e

/-- In an ordered stream an element is determined by its index. -/
theorem ordered_inj {idx : α → K} {l : List α} (h : Ordered idx l) {x y : α} (hx : x ∈ l) (hy : y ∈ l)
    (e : idx x = idx y) : x = y := by
  induction l with
  | nil => cases hx
  | cons a l ih =>
    obtain ⟨ha, h⟩ := List.pairwise_cons.mp h
    rcases List.mem_cons.mp hx with rfl | hx' <;> rcases List.mem_cons.mp hy with rfl | hy'
    · rfl
    · exact absurd (ha y hy') (by rw [e]; exact lt_irrefl _)
    · exact absurd (ha x hx') (by rw [e]; exact lt_irrefl _)
    · exact ih h hx' hy'

theorem Ordered.filter {idx : α → K} {l : List α} (h : Ordered idx l) (p : α → Bool) :
    Ordered idx (l.filter p) := List.Pairwise.filter p h

end Verif.JoinSpec
