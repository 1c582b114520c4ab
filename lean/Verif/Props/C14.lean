import Verif.Model.FillIn
import Verif.Proof.Index
import Mathlib.Tactic.Push
/-
C14  Parents are filled in before children.
-/
namespace Verif.C14
open Verif.FillIn
variable {α : Type} [LinearOrder α]

theorem range_take_sorted (cur : List α) :
    ((List.range cur.length).map (fun i => cur.take i)).Pairwise (· < ·) := by
  rw [List.pairwise_map]
  refine (List.pairwise_lt_range (n := cur.length)).imp_of_mem ?_
  intro i j hi hj hij
  have hj := List.mem_range.mp hj
  have hp : cur.take i <+: cur.take j := List.take_prefix_take_left (Nat.le_of_lt hij)
  refine lt_of_le_of_ne (prefix_le hp) ?_
  intro h
  have := congrArg List.length h
  simp only [List.length_take] at this
  omega

/-- the indices emitted for a new element -/
theorem fillOne_spec (old cur : List α) (h : old < cur) :
    ((fillOne old cur).filter (·.1)).map Prod.snd = [cur] ∧
    ((fillOne old cur).map Prod.snd).Pairwise (· < ·) ∧
    (∀ q ∈ (fillOne old cur).map Prod.snd, old < q ∧ q <+: cur) ∧
    (∀ q, q <+: cur → q <+: old ∨ q ∈ (fillOne old cur).map Prod.snd) := by
  have hcur : cur ≠ [] := by rintro rfl; simp at h
  have hpos : 0 < cur.length := List.length_pos_iff.mpr hcur
  -- the fillers are exactly the proper prefixes which are not prefixes of old
  have key : ∀ q, q ∈ (if cur.dropLast ≠ old.dropLast then
      (((List.range cur.length).drop 1).filter (fun i => cur.take i ≠ old.take i)).map
        (fun i => cur.take i) else []) ↔ (q <+: cur ∧ q ≠ cur ∧ ¬ q <+: old) := by
    intro q
    by_cases hd : cur.dropLast = old.dropLast
    · rw [if_neg (by simp [hd])]
      simp only [List.not_mem_nil, false_iff, not_and, Decidable.not_not]
      intro hq hne
      have h1 : q <+: cur.dropLast := by
        obtain ⟨t, rfl⟩ := hq
        have ht : t ≠ [] := by rintro rfl; simp at hne
        rw [List.dropLast_append_of_ne_nil ht]
        exact List.prefix_append _ _
      rw [hd] at h1
      exact h1.trans (List.dropLast_prefix old)
    · rw [if_pos hd]
      simp only [List.mem_map, List.mem_filter, decide_eq_true_eq]
      constructor
      · rintro ⟨i, ⟨hi, hne⟩, rfl⟩
        have hi' : i < cur.length := List.mem_range.mp (List.mem_of_mem_drop hi)
        refine ⟨List.take_prefix i cur, ?_, ?_⟩
        · intro hh
          have := congrArg List.length hh
          simp only [List.length_take] at this
          omega
        · intro hh; exact hne ((take_prefix_iff (Nat.le_of_lt hi')).mpr hh)
      · rintro ⟨hq, hne, hno⟩
        have hlen := hq.length_le
        have hlt : q.length < cur.length := by
          refine lt_of_le_of_ne hlen ?_
          intro he; exact hne (hq.eq_of_length he)
        have heq : cur.take q.length = q := (List.prefix_iff_eq_take.mp hq).symm
        have hq0 : q.length ≠ 0 := by
          intro h0
          have : q = [] := List.eq_nil_of_length_eq_zero h0
          subst this; exact hno (List.nil_prefix)
        refine ⟨q.length, ⟨?_, ?_⟩, heq⟩
        · rw [List.range_eq_range', List.drop_range']
          simp [List.mem_range'_1]; omega
        · intro hh
          exact hno (heq ▸ (take_prefix_iff (Nat.le_of_lt hlt)).mp hh)
  have hmap : (fillOne old cur).map Prod.snd = (if cur.dropLast ≠ old.dropLast then
      (((List.range cur.length).drop 1).filter (fun i => cur.take i ≠ old.take i)).map
        (fun i => cur.take i) else []) ++ [cur] := by
    unfold fillOne
    split <;> simp
  refine ⟨?_, ?_, ?_, ?_⟩
  · unfold fillOne
    rw [List.filter_append]
    split
    · simp [List.filter_map, Function.comp_def]
    · simp
  · rw [hmap, List.pairwise_append]
    refine ⟨?_, by simp, ?_⟩
    · split
      · have := range_take_sorted cur
        rw [List.pairwise_map] at this ⊢
        exact (this.drop (i := 1)).filter _
      · simp
    · intro q hq c hc
      simp only [List.mem_singleton] at hc
      subst hc
      obtain ⟨h1, h2, -⟩ := (key q).mp hq
      exact lt_of_le_of_ne (prefix_le h1) h2
  · rw [hmap]
    intro q hq
    rcases List.mem_append.mp hq with hq | hq
    · obtain ⟨h1, h2, h3⟩ := (key q).mp hq
      refine ⟨?_, h1⟩
      by_contra hh
      exact h3 (prefix_convex (List.prefix_refl q) h1 (not_lt.mp hh) (le_of_lt h))
    · simp only [List.mem_singleton] at hq
      subst hq; exact ⟨h, List.prefix_refl _⟩
  · intro q hq
    rw [hmap]
    by_cases ho : q <+: old
    · exact .inl ho
    · right
      by_cases he : q = cur
      · simp [he]
      · exact List.mem_append_left _ ((key q).mpr ⟨hq, he, ho⟩)

theorem fillRest_spec (old : List α) (l : List (List α)) (h : (old :: l).Pairwise (· < ·)) :
    ((fillRest old l).filter (·.1)).map Prod.snd = l ∧
    ((fillRest old l).map Prod.snd).Pairwise (· < ·) ∧
    (∀ q ∈ (fillRest old l).map Prod.snd, old < q ∧ ∃ x ∈ l, q <+: x) ∧
    (∀ q, (∃ x ∈ l, q <+: x) → q <+: old ∨ q ∈ (fillRest old l).map Prod.snd) := by
  induction l generalizing old with
  | nil => simp [fillRest]
  | cons cur l ih =>
    obtain ⟨h1, h2⟩ := List.pairwise_cons.mp h
    obtain ⟨a1, a2, a3, a4⟩ := ih cur h2
    obtain ⟨b1, b2, b3, b4⟩ := fillOne_spec old cur (h1 cur (by simp))
    rw [fillRest]
    refine ⟨?_, ?_, ?_, ?_⟩
    · rw [List.filter_append, List.map_append, a1, b1]; rfl
    · rw [List.map_append, List.pairwise_append]
      refine ⟨b2, a2, ?_⟩
      intro q hq r hr
      exact lt_of_le_of_lt (prefix_le (b3 q hq).2) (a3 r hr).1
    · intro q hq
      rw [List.map_append, List.mem_append] at hq
      rcases hq with hq | hq
      · exact ⟨(b3 q hq).1, cur, by simp, (b3 q hq).2⟩
      · obtain ⟨h3, x, hx, hp⟩ := a3 q hq
        exact ⟨lt_trans (h1 cur (by simp)) h3, x, by simp [hx], hp⟩
    · rintro q ⟨x, hx, hp⟩
      rw [List.map_append, List.mem_append]
      have hcur : q <+: cur → q <+: old ∨ q ∈ (fillOne old cur).map Prod.snd ∨
          q ∈ (fillRest cur l).map Prod.snd := by
        intro hc
        rcases b4 q hc with h | h
        · exact .inl h
        · exact .inr (.inl h)
      rcases List.mem_cons.mp hx with rfl | hx
      · exact hcur hp
      · rcases a4 q ⟨x, hx, hp⟩ with h | h
        · exact hcur h
        · exact .inr (.inr h)

/-- C14: for every ordered stream, filling in (1) keeps every original element, in order,
(2) yields a strictly increasing stream (so nothing twice, and parents before children), and
(3) yields exactly the elements and all their ancestors, the root included. -/
theorem fillIn_spec (l : List (List α)) (h : l.Pairwise (· < ·)) :
    ((fillIn l).filter (·.1)).map Prod.snd = l ∧
    ((fillIn l).map Prod.snd).Pairwise (· < ·) ∧
    (∀ q, q ∈ (fillIn l).map Prod.snd ↔ ∃ x ∈ l, q <+: x) := by
  cases l with
  | nil => simp [fillIn]
  | cons first rest =>
    obtain ⟨a1, a2, a3, a4⟩ := fillRest_spec first rest h
    have hmap : (fillFirst first).map Prod.snd =
        (List.range first.length).map (fun i => first.take i) ++ [first] := by
      unfold fillFirst; simp
    have hmem : ∀ q, q ∈ (fillFirst first).map Prod.snd ↔ q <+: first := by
      intro q
      rw [hmap]
      simp only [List.mem_append, List.mem_map, List.mem_range, List.mem_singleton]
      constructor
      · rintro (⟨i, -, rfl⟩ | rfl)
        · exact List.take_prefix i first
        · exact List.prefix_refl _
      · intro hq
        by_cases he : q = first
        · exact .inr he
        · left
          refine ⟨q.length, ?_, (List.prefix_iff_eq_take.mp hq).symm⟩
          exact lt_of_le_of_ne hq.length_le (fun hl => he (hq.eq_of_length hl))
    rw [fillIn]
    refine ⟨?_, ?_, ?_⟩
    · rw [List.filter_append, List.map_append, a1]
      have : ((fillFirst first).filter (·.1)).map Prod.snd = [first] := by
        unfold fillFirst
        rw [List.filter_append]
        simp [List.filter_map, Function.comp_def]
      rw [this]; rfl
    · rw [List.map_append, List.pairwise_append]
      refine ⟨?_, a2, ?_⟩
      · rw [hmap, List.pairwise_append]
        refine ⟨range_take_sorted first, by simp, ?_⟩
        intro q hq c hc
        simp only [List.mem_singleton] at hc
        subst hc
        obtain ⟨i, hi, rfl⟩ := List.mem_map.mp hq
        refine lt_of_le_of_ne (prefix_le (List.take_prefix i c)) ?_
        intro hh
        have := congrArg List.length hh
        simp only [List.length_take] at this
        have := List.mem_range.mp hi
        omega
      · intro q hq r hr
        exact lt_of_le_of_lt (prefix_le ((hmem q).mp hq)) (a3 r hr).1
    · intro q
      rw [List.map_append, List.mem_append]
      constructor
      · rintro (hq | hq)
        · exact ⟨first, by simp, (hmem q).mp hq⟩
        · obtain ⟨-, x, hx, hp⟩ := a3 q hq
          exact ⟨x, by simp [hx], hp⟩
      · rintro ⟨x, hx, hp⟩
        rcases List.mem_cons.mp hx with rfl | hx
        · exact .inl ((hmem q).mpr hp)
        · rcases a4 q ⟨x, hx, hp⟩ with h | h
          · exact .inl ((hmem q).mpr h)
          · exact .inr h

-- the example of the docstring: (), (1,2), (2,5) becomes (), (1,), (1,2), (2,), (2,5)
example : ([[], [1, 2], [2, 5]] : List (List Nat)).Pairwise (· < ·) := by decide
example : fillIn ([[], [1, 2], [2, 5]] : List (List Nat)) =
    [(true, []), (false, [1]), (true, [1, 2]), (false, [2]), (true, [2, 5])] := by decide

end Verif.C14
