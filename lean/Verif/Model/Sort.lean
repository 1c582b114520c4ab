/-
Python's `list.sort`, a stable sort (written as insertion sort so that it can be evaluated in proofs).
-/
namespace Verif.Sort
variable {α : Type}

/-- insert before the first element which is not smaller -/
def insertBy (le : α → α → Bool) (x : α) : List α → List α
  | [] => [x]
  | y :: l => if le x y then x :: y :: l else y :: insertBy le x l

/-- `list.sort` with the order `le` -/
def sortBy (le : α → α → Bool) : List α → List α
  | [] => []
  | x :: l => insertBy le x (sortBy le l)

theorem insertBy_perm (le : α → α → Bool) (x : α) (l : List α) : (insertBy le x l).Perm (x :: l) := by
  induction l with
  | nil => exact .refl _
  | cons y l ih =>
    rw [insertBy]; split
    · exact .refl _
    · exact (ih.cons y).trans (.swap x y l)

theorem sortBy_perm (le : α → α → Bool) (l : List α) : (sortBy le l).Perm l := by
  induction l with
  | nil => exact .refl _
  | cons x l ih => exact (insertBy_perm le x _).trans (ih.cons x)

theorem pairwise_insertBy {le : α → α → Bool} (tr : ∀ a b c, le a b → le b c → le a c)
    (tot : ∀ a b, le a b || le b a) (x : α) (l : List α) (h : l.Pairwise (fun a b => le a b)) :
    (insertBy le x l).Pairwise (fun a b => le a b) := by
  induction l with
  | nil => simp [insertBy]
  | cons y l ih =>
    obtain ⟨h1, h2⟩ := List.pairwise_cons.mp h
    rw [insertBy]; split
    · next hxy =>
      refine List.pairwise_cons.mpr ⟨?_, h⟩
      intro a ha
      rcases List.mem_cons.mp ha with rfl | ha
      · exact hxy
      · exact tr _ _ _ hxy (h1 a ha)
    · next hxy =>
      refine List.pairwise_cons.mpr ⟨?_, ih h2⟩
      intro a ha
      rcases List.mem_cons.mp ((insertBy_perm le x l).mem_iff.mp ha) with rfl | ha
      · have := tot a y
        simpa [hxy] using this
      · exact h1 a ha

theorem pairwise_sortBy {le : α → α → Bool} (tr : ∀ a b c, le a b → le b c → le a c)
    (tot : ∀ a b, le a b || le b a) (l : List α) : (sortBy le l).Pairwise (fun a b => le a b) := by
  induction l with
  | nil => simp [sortBy]
  | cons x l ih => exact pairwise_insertBy tr tot x _ ih

theorem insertBy_last {le : α → α → Bool} {x : α} {l : List α} (h : ∀ y ∈ l, le x y = false) :
    insertBy le x l = l ++ [x] := by
  induction l with
  | nil => rfl
  | cons y l ih =>
    rw [insertBy, if_neg (by rw [h y (by simp)]; simp), ih (fun z hz => h z (by simp [hz]))]
    rfl

end Verif.Sort
