import Verif.Model.RestoreSel
import Verif.Proof.Filter
/- A listing of a tree gives the tree whose listing it is. -/
namespace Verif.RestoreDir
open Verif.Selection
set_option linter.unusedSectionVars false
variable {α : Type} [LinearOrder α]

/-- a complete listing (without the root) -/
structure Lists (xs : List (List α × File)) : Prop where
  ordered : xs.Pairwise (fun x y => x.1 < y.1)
  ne : ∀ x ∈ xs, x.1 ≠ []
  parent : ∀ x ∈ xs, x.1.dropLast ≠ [] → ∃ f, (x.1.dropLast, f) ∈ xs ∧ f.isdir = true

theorem Lists.unique {xs : List (List α × File)} (h : Lists xs) {i : List α} {f g : File} (h1 : (i, f) ∈ xs) (h2 : (i, g) ∈ xs) : f = g := by
  have : ∀ (l : List (List α × File)), l.Pairwise (fun x y => x.1 < y.1) → (i, f) ∈ l → (i, g) ∈ l → f = g := by
    intro l
    induction l with
    | nil => intro _ h; cases h
    | cons x l ih =>
      intro hp h1 h2
      obtain ⟨hx, hp'⟩ := List.pairwise_cons.mp hp
      rcases List.mem_cons.mp h1 with e1 | e1 <;> rcases List.mem_cons.mp h2 with e2 | e2
      · rw [← e1] at e2; exact (Prod.mk.inj e2).2.symm
      · have := hx _ e2; rw [← e1] at this; exact absurd this (lt_irrefl _)
      · have := hx _ e1; rw [← e2] at this; exact absurd this (lt_irrefl _)
      · exact ih hp' e1 e2
  exact this xs h.ordered h1 h2

/-- the first path is a name -/
theorem Lists.first {x : List α × File} {xs : List (List α × File)} (h : Lists (x :: xs)) : ∃ n, x.1 = [n] := by
  obtain ⟨i, f⟩ := x
  cases i with
  | nil => exact absurd rfl (h.ne _ List.mem_cons_self)
  | cons n r =>
    cases r with
    | nil => exact ⟨n, rfl⟩
    | cons m r =>
      exfalso
      obtain ⟨g, hg, -⟩ := h.parent _ List.mem_cons_self (by simp)
      have hlt : (n :: m :: r).dropLast < n :: m :: r := lt_of_prefix_ne (List.dropLast_prefix _) (by
        intro e; have := congrArg List.length e; simp at this)
      rcases List.mem_cons.mp hg with e | e
      · rw [(Prod.mk.inj e).1] at hlt; exact lt_irrefl _ hlt
      · exact lt_asymm hlt ((List.pairwise_cons.mp h.ordered).1 _ e)

theorem span_head {n : α} {xs : List (List α × File)} (ho : xs.Pairwise (fun x y => x.1 < y.1)) (hn : ∀ x ∈ xs, ∃ m r, x.1 = m :: r ∧ n ≤ m) :
    (xs.takeWhile fun x => x.1.head? = some n) = (xs.filter fun x => x.1.head? = some n) ∧
    (xs.dropWhile fun x => x.1.head? = some n) = (xs.filter fun x => !(decide (x.1.head? = some n))) := by
  induction xs with
  | nil => simp
  | cons x xs ih =>
    obtain ⟨hx, ho'⟩ := List.pairwise_cons.mp ho
    by_cases hh : x.1.head? = some n
    · obtain ⟨e1, e2⟩ := ih ho' (fun y hy => hn y (by simp [hy]))
      constructor
      · rw [List.takeWhile_cons, List.filter_cons]; simp only [hh, decide_true, if_true]; rw [e1]
      · rw [List.dropWhile_cons, List.filter_cons]; simp only [hh, decide_true, if_true, Bool.not_true, Bool.false_eq_true, if_false]; rw [e2]
    · have hall : ∀ y ∈ xs, ¬ y.1.head? = some n := by
        intro y hy hyn
        obtain ⟨m, r, hm, hle⟩ := hn x (by simp)
        obtain ⟨m', r', hm', -⟩ := hn y (by simp [hy])
        rw [hm] at hh
        rw [hm'] at hyn
        simp only [List.head?_cons, Option.some.injEq] at hh hyn
        have hlt := hx y hy
        rw [hm, hm', List.cons_lt_cons_iff, hyn] at hlt
        rcases hlt with h | ⟨h, -⟩
        · exact absurd (lt_of_le_of_lt hle h) (lt_irrefl _)
        · exact hh h
      constructor
      · rw [List.takeWhile_cons]; simp only [hh, decide_false, Bool.false_eq_true, if_false]
        symm
        rw [List.filter_eq_nil_iff]
        intro y hy
        rcases List.mem_cons.mp hy with rfl | hy
        · simpa using hh
        · simpa using hall y hy
      · rw [List.dropWhile_cons]; simp only [hh, decide_false, Bool.false_eq_true, if_false]
        symm
        rw [List.filter_eq_self]
        intro y hy
        rcases List.mem_cons.mp hy with rfl | hy
        · simpa using hh
        · simpa using hall y hy

/-- the tree of a listing -/
theorem forestOf_spec (xs : List (List α × File)) (h : Lists xs) :
    (∀ d, listing d (forestOf xs) = xs.map fun x => (d ++ x.1, x.2)) ∧ (forestOf xs).Ok ∧ ∀ m ∈ (forestOf xs).names, ∃ f, ([m], f) ∈ xs := by
  match xs with
  | [] => simp [forestOf, listing, Forest.Ok, Forest.names]
  | (i, f) :: rest =>
    obtain ⟨n, hi⟩ := h.first
    simp only at hi
    subst hi
    obtain ⟨hx, ho⟩ := List.pairwise_cons.mp h.ordered
    have hn : ∀ x ∈ rest, ∃ m r, x.1 = m :: r ∧ n ≤ m := by
      intro x hx'
      have hlt := hx x hx'
      obtain ⟨k, g⟩ := x
      cases k with
      | nil => exact absurd rfl (h.ne _ (List.mem_cons_of_mem _ hx'))
      | cons m r =>
        refine ⟨m, r, rfl, ?_⟩
        simp only [List.cons_lt_cons_iff] at hlt
        rcases hlt with h | ⟨h, -⟩
        · exact le_of_lt h
        · exact le_of_eq h
    obtain ⟨e1, e2⟩ := span_head ho hn
    have hA : Lists ((rest.takeWhile fun x => x.1.head? = some n).map fun x => (x.1.tail, x.2)) := by
      rw [e1]
      have hmem : ∀ x ∈ (rest.filter fun x => x.1.head? = some n), ∃ r, x.1 = n :: r ∧ r ≠ [] ∧ x ∈ rest := by
        intro x hx'
        obtain ⟨h1, h2⟩ := List.mem_filter.mp hx'
        obtain ⟨m, r, hm, -⟩ := hn x h1
        rw [hm] at h2
        simp at h2
        subst h2
        refine ⟨r, hm, ?_, h1⟩
        rintro rfl
        have := hx x h1
        rw [hm] at this
        exact lt_irrefl _ this
      refine ⟨?_, ?_, ?_⟩
      · rw [List.pairwise_map]
        refine (ho.filter _).imp_of_mem ?_
        intro a b ha hb hlt
        obtain ⟨r, hr, -⟩ := hmem a ha
        obtain ⟨r', hr', -⟩ := hmem b hb
        rw [hr, hr'] at hlt ⊢
        simpa using hlt
      · intro x hx'
        obtain ⟨y, hy, rfl⟩ := List.mem_map.mp hx'
        obtain ⟨r, hr, hne, -⟩ := hmem y hy
        simpa [hr] using hne
      · intro x hx' hd
        obtain ⟨y, hy, rfl⟩ := List.mem_map.mp hx'
        obtain ⟨r, hr, hne, hyr⟩ := hmem y hy
        simp only [hr, List.tail_cons] at hd ⊢
        obtain ⟨g, hg, hgd⟩ := h.parent y (List.mem_cons_of_mem _ hyr) (by rw [hr]; simp [List.dropLast_cons_of_ne_nil hne])
        rw [hr, List.dropLast_cons_of_ne_nil hne] at hg
        refine ⟨g, List.mem_map.mpr ⟨(n :: r.dropLast, g), List.mem_filter.mpr ⟨?_, by simp⟩, rfl⟩, hgd⟩
        rcases List.mem_cons.mp hg with e | e
        · have := (Prod.mk.inj e).1
          simp at this
          exact absurd this hd
        · exact e
    have hB : Lists (rest.dropWhile fun x => x.1.head? = some n) := by
      rw [e2]
      refine ⟨ho.filter _, fun x hx' => h.ne x (List.mem_cons_of_mem _ (List.mem_filter.mp hx').1), ?_⟩
      intro x hx' hd
      obtain ⟨h1, h2⟩ := List.mem_filter.mp hx'
      obtain ⟨g, hg, hgd⟩ := h.parent x (List.mem_cons_of_mem _ h1) hd
      obtain ⟨m, r, hm, -⟩ := hn x h1
      have hr : r ≠ [] := by rintro rfl; rw [hm] at hd; simp at hd
      rw [hm] at h2
      simp at h2
      refine ⟨g, List.mem_filter.mpr ⟨?_, by rw [hm, List.dropLast_cons_of_ne_nil hr]; simpa using h2⟩, hgd⟩
      rcases List.mem_cons.mp hg with e | e
      · have := (Prod.mk.inj e).1
        rw [hm, List.dropLast_cons_of_ne_nil hr] at this
        simp at this
        exact absurd this.1 h2
      · exact e
    obtain ⟨a1, a2, a3⟩ := forestOf_spec _ hA
    obtain ⟨b1, b2, b3⟩ := forestOf_spec _ hB
    have hfo : forestOf (([n], f) :: rest) = .cons n f (forestOf ((rest.takeWhile fun x => x.1.head? = some n).map fun x => (x.1.tail, x.2)))
        (forestOf (rest.dropWhile fun x => x.1.head? = some n)) := by rw [forestOf]
    rw [hfo]
    refine ⟨?_, ?_, ?_⟩
    · intro d
      rw [listing, a1, b1]
      have hch : (if f.isdir = true then ((rest.takeWhile fun x => x.1.head? = some n).map fun x => (x.1.tail, x.2)).map (fun x => (d ++ [n] ++ x.1, x.2))
          else []) = (rest.takeWhile fun x => x.1.head? = some n).map (fun x => (d ++ x.1, x.2)) := by
        split
        · rw [List.map_map]
          apply List.map_congr_left
          intro x hx'
          rw [e1] at hx'
          obtain ⟨h1, h2⟩ := List.mem_filter.mp hx'
          obtain ⟨m, r, hm, -⟩ := hn x h1
          rw [hm] at h2
          simp at h2
          simp [hm, h2]
        · next hf =>
          cases htw : (rest.takeWhile fun x => x.1.head? = some n) with
          | nil => rfl
          | cons y ys =>
            exfalso
            rw [htw] at hA
            obtain ⟨m, hm⟩ := hA.first
            simp only at hm
            have hy : y ∈ rest.filter fun x => x.1.head? = some n := by rw [← e1, htw]; simp
            obtain ⟨h1, h2⟩ := List.mem_filter.mp hy
            obtain ⟨m', r, hm', -⟩ := hn y h1
            rw [hm'] at h2 hm
            simp at h2 hm
            subst h2 hm
            obtain ⟨g, hg, hgd⟩ := h.parent y (List.mem_cons_of_mem _ h1) (by rw [hm']; simp)
            rw [hm'] at hg
            have : g = f := h.unique hg (by simp)
            rw [this] at hgd
            exact hf hgd
      rw [hch]
      simp only [List.map_cons, List.cons_append, List.cons.injEq, true_and]
      rw [← List.map_append, List.takeWhile_append_dropWhile]
    · refine ⟨?_, a2, b2⟩
      intro m hm
      obtain ⟨g, hg⟩ := b3 m hm
      rw [e2] at hg
      obtain ⟨h1, h2⟩ := List.mem_filter.mp hg
      obtain ⟨m', r, hm', hle⟩ := hn _ h1
      simp only [List.cons.injEq] at hm'
      simp at h2
      rw [← hm'.1] at hle
      exact lt_of_le_of_ne hle (fun e => h2 e.symm)
    · intro m hm
      rcases List.mem_cons.mp hm with rfl | hm
      · exact ⟨f, by simp⟩
      · obtain ⟨g, hg⟩ := b3 m hm
        exact ⟨g, List.mem_cons_of_mem _ ((List.dropWhile_sublist _).mem hg)⟩
  termination_by xs.length
  decreasing_by
    · simp only [List.length_map, List.length_cons]
      exact Nat.lt_succ_of_le (List.takeWhile_sublist _).length_le
    · exact Nat.lt_succ_of_le (List.dropWhile_sublist _).length_le

end Verif.RestoreDir
