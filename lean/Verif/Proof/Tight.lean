import Verif.Props.C13
import Verif.Props.C14
/- The trace of a tree walk over a list that contains all parents: every event happens while its
parent directory is the innermost open one. -/
namespace Verif.Repo
open Verif.TreeReducer Verif.NestingSpec
set_option linter.unusedSectionVars false
variable {α : Type} [LinearOrder α]

/-- directories begun in a trace -/
def starts : List (Event α) → List (List α)
  | [] => []
  | .start i :: r => i :: starts r
  | .fast _ :: r => starts r
  | .finish _ :: r => starts r

theorem starts_append (a b : List (Event α)) : starts (a ++ b) = starts a ++ starts b := by
  induction a with
  | nil => rfl
  | cons e a ih => cases e <;> simp [starts, ih]

theorem starts_subset {ev : List (Event α)} {i : List α} (h : i ∈ starts ev) : i ∈ processed ev := by
  induction ev with
  | nil => simp [starts] at h
  | cons e ev ih => cases e <;> (simp_all [starts, processed]; try tauto)

inductive Tight : List α → List (Event α) → Prop
  | nil {d} : Tight d []
  | file {d n r} : Tight d r → (∀ j ∈ processed r, ¬ d ++ [n] <+: j) → Tight d (.fast (d ++ [n]) :: r)
  | dir {d n inner r} : Tight (d ++ [n]) inner → Tight d r → (∀ j ∈ processed r, ¬ d ++ [n] <+: j) →
      Tight d (.start (d ++ [n]) :: (inner ++ .finish (d ++ [n]) :: r))

theorem nested_below {d : List α} {ev : List (Event α)} (h : Nested d ev) :
    ∀ j ∈ processed ev, Below d j := by
  induction h with
  | nil => simp [processed]
  | file hb _ ih => intro j hj; rcases List.mem_cons.mp hj with rfl | hj; exacts [hb, ih j hj]
  | dir hb _ _ _ ih1 ih2 =>
    intro j hj
    simp only [processed, C13.processed_append] at hj
    rcases List.mem_cons.mp hj with rfl | hj
    · exact hb
    · rcases List.mem_append.mp hj with hj | hj
      · obtain ⟨h1, h2⟩ := ih1 j hj
        refine ⟨hb.1.trans h1, ?_⟩
        rintro rfl
        exact hb.2 (hb.1.eq_of_length_le h1.length_le)
      · exact ih2 j hj

theorem below_split {d i : List α} (h : Below d i) : ∃ n r, i = d ++ n :: r := by
  obtain ⟨⟨t, rfl⟩, h2⟩ := h
  cases t with
  | nil => simp at h2
  | cons n r => exact ⟨n, r, rfl⟩

theorem tight_of_nested {d : List α} {ev : List (Event α)} (h : Nested d ev)
    (hs : (processed ev).Pairwise (· < ·))
    (hc : ∀ j ∈ processed ev, ∀ p, p <+: j → p ≠ j → p <+: d ∨ p ∈ starts ev) : Tight d ev := by
  induction h with
  | nil => exact .nil
  | @file d i r hb hr ih =>
    obtain ⟨hlt, hs'⟩ := List.pairwise_cons.mp (show (i :: processed r).Pairwise (· < ·) from hs)
    obtain ⟨n, t, rfl⟩ := below_split hb
    have ht : t = [] := by
      by_contra hne
      have hp : d ++ [n] <+: d ++ n :: t := by
        refine ⟨t, by simp⟩
      have hpne : d ++ [n] ≠ d ++ n :: t := by simpa using Ne.symm hne
      rcases hc _ (by simp [processed]) (d ++ [n]) hp hpne with h | h
      · have := h.length_le; simp at this; omega
      · have := hlt _ (starts_subset h)
        exact absurd (prefix_le hp) (not_le.mpr this)
    subst ht
    have hnp : ∀ j ∈ processed r, ¬ d ++ [n] <+: j := by
      intro j hj hp
      have hlt' := hlt j hj
      rcases hc j (by simp [processed, hj]) (d ++ [n]) hp (ne_of_lt hlt') with h | h
      · have := h.length_le; simp at this; omega
      · exact lt_irrefl _ (hlt _ (starts_subset h))
    refine .file (ih hs' ?_) hnp
    intro j hj p hp hne
    rcases hc j (by simp [processed, hj]) p hp hne with h | h
    · exact .inl h
    · exact .inr h
  | @dir d i inner r hb hin hr hnp ih1 ih2 =>
    simp only [processed, C13.processed_append] at hs hc
    obtain ⟨hlt, hs'⟩ := List.pairwise_cons.mp hs
    obtain ⟨hs1, hs2, hs3⟩ := List.pairwise_append.mp hs'
    obtain ⟨n, t, rfl⟩ := below_split hb
    have hst : ∀ p, p ∈ starts (.start (d ++ n :: t) :: (inner ++ .finish (d ++ n :: t) :: r)) →
        p = d ++ n :: t ∨ p ∈ starts inner ∨ p ∈ starts r := by
      intro p hp; simpa [starts, starts_append] using hp
    have ht : t = [] := by
      by_contra hne
      have hp : d ++ [n] <+: d ++ n :: t := ⟨t, by simp⟩
      have hpne : d ++ [n] ≠ d ++ n :: t := by simpa using Ne.symm hne
      rcases hc _ (by simp) (d ++ [n]) hp hpne with h | h
      · have := h.length_le; simp at this; omega
      · rcases hst _ h with h | h | h
        · exact hpne h
        · exact absurd (prefix_le hp) (not_le.mpr (hlt _ (by simp [starts_subset h])))
        · exact absurd (prefix_le hp) (not_le.mpr (hlt _ (by simp [starts_subset h])))
    subst ht
    refine .dir (ih1 hs1 ?_) (ih2 hs2 ?_) hnp
    · intro j hj p hp hne
      have hbj := nested_below hin j hj
      rcases hc j (by simp [hj]) p hp hne with h | h
      · exact .inl (h.trans (List.prefix_append d [n]))
      · rcases hst _ h with h | h | h
        · exact .inl (h ▸ List.prefix_refl _)
        · exact .inr h
        · -- p in r, but p is a prefix of j, both in the block
          exfalso
          have hpr := starts_subset h
          have h1 := hs3 j hj p hpr
          exact absurd (prefix_le hp) (not_le.mpr h1)
    · intro j hj p hp hne
      rcases hc j (by simp [hj]) p hp hne with h | h
      · exact .inl h
      · rcases hst _ h with h | h | h
        · exact absurd (h ▸ hp) (hnp j hj)
        · have := nested_below hin p (starts_subset h)
          exact absurd (this.1.trans hp) (hnp j hj)
        · exact .inr h

theorem tight_below {d : List α} {ev : List (Event α)} (h : Tight d ev) :
    ∀ j ∈ processed ev, Below d j := by
  induction h with
  | nil => simp [processed]
  | file _ _ ih =>
    intro j hj
    rcases List.mem_cons.mp hj with rfl | hj
    · exact ⟨List.prefix_append _ _, by simp⟩
    · exact ih j hj
  | @dir d n inner r _ _ _ ih1 ih2 =>
    intro j hj
    simp only [processed, C13.processed_append] at hj
    rcases List.mem_cons.mp hj with rfl | hj
    · exact ⟨List.prefix_append _ _, by simp⟩
    · rcases List.mem_append.mp hj with hj | hj
      · obtain ⟨h1, h2⟩ := ih1 j hj
        refine ⟨(List.prefix_append d [n]).trans h1, ?_⟩
        rintro rfl
        have := h1.length_le; simp at this; omega
      · exact ih2 j hj

end Verif.Repo
