import Verif.Model.Collate
import Verif.Spec.Join
import Mathlib.Data.List.Lex
/-
C11  Collating two ordered file streams is an exact outer join.
C12  Collating n ordered streams is an exact outer join.
-/
namespace Verif.C11
open Verif.Collate Verif.JoinSpec

variable {K α β : Type} [LinearOrder K]

theorem isOuterJoin_cons {idx1 : α → K} {idx2 : β → K} {l1 l1' : List α} {l2 l2' : List β}
    {k : K} {p : Option α × Option β} {r}
    (hk : IsRow idx1 idx2 l1 l2 k p)
    (h1 : ∀ x, x ∈ l1' ↔ x ∈ l1 ∧ idx1 x ≠ k) (h2 : ∀ y, y ∈ l2' ↔ y ∈ l2 ∧ idx2 y ≠ k)
    (g1 : ∀ x ∈ l1', k < idx1 x) (g2 : ∀ y ∈ l2', k < idx2 y)
    (hr : IsOuterJoin idx1 idx2 l1' l2' r) : IsOuterJoin idx1 idx2 l1 l2 (p :: r) := by
  obtain ⟨ks, hs, hm, hf⟩ := hr
  have hlt : ∀ k' ∈ ks, k < k' := by
    intro k' hk'
    rcases (hm k').mp hk' with ⟨x, hx, rfl⟩ | ⟨y, hy, rfl⟩
    · exact g1 x hx
    · exact g2 y hy
  refine ⟨k :: ks, List.pairwise_cons.mpr ⟨hlt, hs⟩, ?_, ?_⟩
  · intro k'
    rw [List.mem_cons, hm]
    constructor
    · rintro (rfl | ⟨x, hx, rfl⟩ | ⟨y, hy, rfl⟩)
      · obtain ⟨hne, ha, hb⟩ := hk
        obtain ⟨a, b⟩ := p
        cases a with
        | some x => have := (ha x).mp rfl; exact .inl ⟨x, this⟩
        | none =>
          cases b with
          | some y => have := (hb y).mp rfl; exact .inr ⟨y, this⟩
          | none => exact absurd rfl hne
      · exact .inl ⟨x, ((h1 x).mp hx).1, rfl⟩
      · exact .inr ⟨y, ((h2 y).mp hy).1, rfl⟩
    · rintro (⟨x, hx, rfl⟩ | ⟨y, hy, rfl⟩)
      · by_cases hh : idx1 x = k
        · exact .inl hh
        · exact .inr (.inl ⟨x, (h1 x).mpr ⟨hx, hh⟩, rfl⟩)
      · by_cases hh : idx2 y = k
        · exact .inl hh
        · exact .inr (.inr ⟨y, (h2 y).mpr ⟨hy, hh⟩, rfl⟩)
  · refine List.Forall₂.cons hk ?_
    have : ∀ k' ∈ ks, ∀ q, IsRow idx1 idx2 l1' l2' k' q → IsRow idx1 idx2 l1 l2 k' q := by
      intro k' hk' q ⟨hne, ha, hb⟩
      have hlt := hlt k' hk'
      refine ⟨hne, fun x => (ha x).trans ?_, fun y => (hb y).trans ?_⟩
      · rw [h1]
        exact ⟨fun h => ⟨h.1.1, h.2⟩, fun h => ⟨⟨h.1, by rw [h.2]; exact ne_of_gt hlt⟩, h.2⟩⟩
      · rw [h2]
        exact ⟨fun h => ⟨h.1.1, h.2⟩, fun h => ⟨⟨h.1, by rw [h.2]; exact ne_of_gt hlt⟩, h.2⟩⟩
    clear hs hm hlt
    induction hf with
    | nil => exact .nil
    | cons hq _ ih =>
      exact .cons (this _ (by simp) _ hq) (ih fun k' hk' => this k' (by simp [hk']))

theorem isOuterJoin_right (idx1 : α → K) (idx2 : β → K) (l2 : List β) (h : Ordered idx2 l2) :
    IsOuterJoin idx1 idx2 [] l2 (l2.map (fun y => (none, some y))) := by
  induction l2 with
  | nil => exact ⟨[], .nil, by simp, .nil⟩
  | cons y l2 ih =>
    obtain ⟨hy, h⟩ := List.pairwise_cons.mp h
    refine isOuterJoin_cons (k := idx2 y) (l1' := []) (l2' := l2) ?_ (by simp) ?_ (by simp)
      (fun z hz => hy z hz) (ih h)
    · refine ⟨by simp, by simp, fun z => ?_⟩
      constructor
      · rintro ⟨⟩; simp
      · rintro ⟨hz, he⟩
        rcases List.mem_cons.mp hz with rfl | hz
        · rfl
        · exact absurd he (ne_of_gt (hy z hz))
    · intro z
      constructor
      · intro hz; exact ⟨by simp [hz], ne_of_gt (hy z hz)⟩
      · rintro ⟨hz, hne⟩
        rcases List.mem_cons.mp hz with rfl | hz
        · exact absurd rfl hne
        · exact hz

theorem isOuterJoin_left (idx1 : α → K) (idx2 : β → K) (l1 : List α) (h : Ordered idx1 l1) :
    IsOuterJoin idx1 idx2 l1 [] (l1.map (fun x => (some x, none))) := by
  induction l1 with
  | nil => exact ⟨[], .nil, by simp, .nil⟩
  | cons y l2 ih =>
    obtain ⟨hy, h⟩ := List.pairwise_cons.mp h
    refine isOuterJoin_cons (k := idx1 y) (l1' := l2) (l2' := []) ?_ ?_ (by simp)
      (fun z hz => hy z hz) (by simp) (ih h)
    · refine ⟨by simp, fun z => ?_, by simp⟩
      constructor
      · rintro ⟨⟩; simp
      · rintro ⟨hz, he⟩
        rcases List.mem_cons.mp hz with rfl | hz
        · rfl
        · exact absurd he (ne_of_gt (hy z hz))
    · intro z
      constructor
      · intro hz; exact ⟨by simp [hz], ne_of_gt (hy z hz)⟩
      · rintro ⟨hz, hne⟩
        rcases List.mem_cons.mp hz with rfl | hz
        · exact absurd rfl hne
        · exact hz

theorem mem_tail_iff {idx : α → K} {x : α} {l : List α} (h : Ordered idx (x :: l)) (z : α) :
    z ∈ l ↔ z ∈ x :: l ∧ idx z ≠ idx x := by
  obtain ⟨hx, -⟩ := List.pairwise_cons.mp h
  constructor
  · intro hz; exact ⟨by simp [hz], ne_of_gt (hx z hz)⟩
  · rintro ⟨hz, hne⟩
    rcases List.mem_cons.mp hz with rfl | hz
    · exact absurd rfl hne
    · exact hz

theorem head_iff {idx : α → K} {x : α} {l : List α} (h : Ordered idx (x :: l)) (z : α) :
    some x = some z ↔ z ∈ x :: l ∧ idx z = idx x := by
  obtain ⟨hx, -⟩ := List.pairwise_cons.mp h
  constructor
  · rintro ⟨⟩; simp
  · rintro ⟨hz, he⟩
    rcases List.mem_cons.mp hz with rfl | hz
    · rfl
    · exact absurd he (ne_of_gt (hx z hz))

theorem le_of_mem {idx : α → K} {x : α} {l : List α} (h : Ordered idx (x :: l)) :
    ∀ z ∈ x :: l, idx x ≤ idx z := by
  obtain ⟨hx, -⟩ := List.pairwise_cons.mp h
  intro z hz
  rcases List.mem_cons.mp hz with rfl | hz
  · exact le_refl _
  · exact le_of_lt (hx z hz)

theorem collate2Loop_join (idx1 : α → K) (idx2 : β → K) (r1 : Option α) (it1 : List α)
    (r2 : Option β) (it2 : List β)
    (o1 : Ordered idx1 (r1.toList ++ it1)) (o2 : Ordered idx2 (r2.toList ++ it2)) :
    IsOuterJoin idx1 idx2 (r1.toList ++ it1) (r2.toList ++ it2)
      (collate2Loop idx1 idx2 r1 it1 r2 it2) := by
  induction r1, it1, r2, it2 using collate2Loop.induct idx1 idx2 with
  | case1 r2 it2 =>
    rw [collate2Loop]; exact isOuterJoin_right idx1 idx2 _ o2
  | case2 r2 it2 x it1 ih =>
    rw [collate2Loop]; exact ih o1 o2
  | case3 x it1 => rw [collate2Loop]; exact isOuterJoin_left idx1 idx2 _ o1
  | case4 x it1 y it2 ih => rw [collate2Loop]; exact ih o1 o2
  | case5 x it1 y it2 hlt ih =>
    rw [collate2Loop, if_pos hlt]
    simp only [Option.toList_some, List.singleton_append, Option.toList_none, List.nil_append] at *
    have t1 := (List.pairwise_cons.mp o1)
    refine isOuterJoin_cons (k := idx1 x) ?_ (mem_tail_iff o1) ?_ t1.1 ?_ (ih t1.2 o2)
    · refine ⟨by simp, head_iff o1, fun z => ?_⟩
      constructor
      · intro h; cases h
      · rintro ⟨hz, he⟩
        exact absurd he (ne_of_gt (lt_of_lt_of_le hlt (le_of_mem o2 z hz)))
    · exact fun z => ⟨fun hz => ⟨hz, ne_of_gt (lt_of_lt_of_le hlt (le_of_mem o2 z hz))⟩, fun h => h.1⟩
    · exact fun z hz => lt_of_lt_of_le hlt (le_of_mem o2 z hz)
  | case6 x it1 y it2 hlt heq ih =>
    rw [collate2Loop, if_neg hlt, if_pos heq]
    simp only [Option.toList_some, List.singleton_append, Option.toList_none, List.nil_append] at *
    have t1 := (List.pairwise_cons.mp o1)
    have t2 := (List.pairwise_cons.mp o2)
    refine isOuterJoin_cons (k := idx1 x) ⟨by simp, head_iff o1, ?_⟩ (mem_tail_iff o1) ?_ t1.1 ?_
      (ih t1.2 t2.2)
    · rw [heq]; exact head_iff o2
    · rw [heq]; exact mem_tail_iff o2
    · rw [heq]; exact t2.1
  | case7 x it1 y it2 hlt hne ih =>
    rw [collate2Loop, if_neg hlt, if_neg hne]
    simp only [Option.toList_some, List.singleton_append, Option.toList_none, List.nil_append] at *
    have hlt : idx2 y < idx1 x := lt_of_le_of_ne (not_lt.mp hlt) (Ne.symm hne)
    have t2 := (List.pairwise_cons.mp o2)
    refine isOuterJoin_cons (k := idx2 y) ?_ ?_ (mem_tail_iff o2) ?_ t2.1 (ih o1 t2.2)
    · refine ⟨by simp, fun z => ?_, head_iff o2⟩
      constructor
      · intro h; cases h
      · rintro ⟨hz, he⟩
        exact absurd he (ne_of_gt (lt_of_lt_of_le hlt (le_of_mem o1 z hz)))
    · exact fun z => ⟨fun hz => ⟨hz, ne_of_gt (lt_of_lt_of_le hlt (le_of_mem o1 z hz))⟩, fun h => h.1⟩
    · exact fun z hz => lt_of_lt_of_le hlt (le_of_mem o1 z hz)

/-- C11: collating any two ordered streams is their ordered outer join. -/
theorem collate2_outer_join (idx1 : α → K) (idx2 : β → K) (l1 : List α) (l2 : List β)
    (o1 : Ordered idx1 l1) (o2 : Ordered idx2 l2) :
    IsOuterJoin idx1 idx2 l1 l2 (collate2 idx1 idx2 l1 l2) :=
  collate2Loop_join idx1 idx2 none l1 none l2 o1 o2

-- streams over lexicographically ordered indices, with a shared and unshared elements
example : Ordered (K := List Nat) Prod.fst [([], "a"), ([1], "b"), ([1, 2], "c")] ∧
    Ordered (K := List Nat) Prod.fst [([], 0), ([1, 1], 5), ([1, 2], 7)] := by
  constructor <;> (unfold Ordered; decide)
example : collate2 (K := Nat) id id [1, 3, 4] [2, 3, 5] =
    [(some 1, none), (none, some 2), (some 3, some 3), (some 4, none), (none, some 5)] := by
  simp [collate2, collate2Loop]

end Verif.C11

namespace Verif.C12
open Verif.Collate Verif.JoinSpec
variable {K α : Type} [LinearOrder K]

theorem leastIndex_none {idx : α → K} {ss : List (List α)} (h : leastIndex idx ss = none) :
    ∀ s ∈ ss, s = [] := by
  induction ss with
  | nil => simp
  | cons s ss ih =>
    cases s with
    | nil => simp only [leastIndex] at h; simpa using ih h
    | cons x xs => simp only [leastIndex] at h; split at h <;> simp at h

theorem leastIndex_some {idx : α → K} {ss : List (List α)} {k : K}
    (h : leastIndex idx ss = some k) :
    (∃ s ∈ ss, ∃ x xs, s = x :: xs ∧ idx x = k) ∧ (∀ x xs, x :: xs ∈ ss → k ≤ idx x) := by
  induction ss generalizing k with
  | nil => simp [leastIndex] at h
  | cons s ss ih =>
    cases s with
    | nil =>
      simp only [leastIndex] at h
      obtain ⟨⟨s, hs, hh⟩, h2⟩ := ih h
      exact ⟨⟨s, by simp [hs], hh⟩, by intro x xs hx; exact h2 x xs (by simpa using hx)⟩
    | cons x xs =>
      simp only [leastIndex] at h
      cases hl : leastIndex idx ss with
      | none =>
        rw [hl] at h
        simp only [Option.some.injEq] at h
        have := leastIndex_none hl
        refine ⟨⟨x :: xs, by simp, x, xs, rfl, h⟩, ?_⟩
        intro y ys hy
        rcases List.mem_cons.mp hy with hy | hy
        · cases hy; exact le_of_eq h.symm
        · exact absurd (this _ hy) (by simp)
      | some k' =>
        rw [hl] at h
        simp only [Option.some.injEq] at h
        obtain ⟨⟨s, hs, y, ys, e, hk⟩, h2⟩ := ih hl
        subst h
        constructor
        · rcases min_choice (idx x) k' with h' | h'
          · exact ⟨x :: xs, by simp, x, xs, rfl, h'.symm⟩
          · exact ⟨s, by simp [hs], y, ys, e, by rw [h', hk]⟩
        · intro z zs hz
          rcases List.mem_cons.mp hz with hz | hz
          · cases hz; exact min_le_left _ _
          · exact le_trans (min_le_right _ _) (h2 z zs hz)

theorem advance_ordered {idx : α → K} {k : K} {s : List α} (h : Ordered idx s) :
    Ordered idx (advance idx k s) := by
  cases s with
  | nil => exact h
  | cons x xs =>
    simp only [advance]
    split
    · exact (List.pairwise_cons.mp h).2
    · exact h

theorem advance_mem {idx : α → K} {k : K} {s : List α} (h : Ordered idx s)
    (hle : ∀ x xs, s = x :: xs → k ≤ idx x) (z : α) :
    z ∈ advance idx k s ↔ z ∈ s ∧ idx z ≠ k := by
  cases s with
  | nil => simp [advance]
  | cons x xs =>
    simp only [advance]
    split
    · next hk => subst hk; exact C11.mem_tail_iff h z
    · next hk =>
      have : k < idx x := lt_of_le_of_ne (hle x xs rfl) (Ne.symm hk)
      exact ⟨fun hz => ⟨hz, ne_of_gt (lt_of_lt_of_le this (C11.le_of_mem h z hz))⟩, fun h => h.1⟩

theorem pick_iff {idx : α → K} {k : K} {s : List α} (h : Ordered idx s)
    (hle : ∀ x xs, s = x :: xs → k ≤ idx x) (z : α) :
    pick idx k s = some z ↔ z ∈ s ∧ idx z = k := by
  cases s with
  | nil => simp [pick]
  | cons x xs =>
    simp only [pick]
    split
    · next hk => subst hk; exact C11.head_iff h z
    · next hk =>
      have : k < idx x := lt_of_le_of_ne (hle x xs rfl) (Ne.symm hk)
      constructor
      · intro h; cases h
      · rintro ⟨hz, he⟩
        exact absurd he (ne_of_gt (lt_of_lt_of_le this (C11.le_of_mem h z hz)))

theorem yieldTuples_join (idx : α → K) (ss : List (List α)) (ho : ∀ s ∈ ss, Ordered idx s) :
    ((yieldTuples idx ss).map Prod.fst).Pairwise (· < ·) ∧
    (∀ k, k ∈ (yieldTuples idx ss).map Prod.fst ↔ ∃ s ∈ ss, ∃ x ∈ s, idx x = k) ∧
    ∀ q ∈ yieldTuples idx ss, IsNRow idx ss q.1 q.2 := by
  induction ss using yieldTuples.induct idx with
  | case1 ss h =>
    have hn := leastIndex_none h
    have e : yieldTuples idx ss = [] := by
      rw [yieldTuples]; split
      · rfl
      · next k hk => rw [h] at hk; cases hk
    rw [e]
    refine ⟨by simp, fun k => ?_, by simp⟩
    simp only [List.map_nil, List.not_mem_nil, false_iff]
    rintro ⟨s, hs, x, hx, -⟩
    rw [hn s hs] at hx; cases hx
  | case2 ss k h ih =>
    have e : yieldTuples idx ss =
        (k, ss.map (pick idx k)) :: yieldTuples idx (advanceAll idx k ss) := by
      rw [yieldTuples]; split
      · next hk => rw [h] at hk; cases hk
      · next k' hk => rw [h] at hk; cases hk; rfl
    obtain ⟨⟨s0, hs0, x0, xs0, e0, hk0⟩, hmin⟩ := leastIndex_some h
    have hle : ∀ s ∈ ss, ∀ x xs, s = x :: xs → k ≤ idx x := by
      intro s hs x xs he; subst he; exact hmin x xs hs
    have ho' : ∀ s ∈ advanceAll idx k ss, Ordered idx s := by
      intro s hs
      obtain ⟨s', hs', rfl⟩ := List.mem_map.mp hs
      exact advance_ordered (ho s' hs')
    obtain ⟨i1, i2, i3⟩ := ih ho'
    have hgt : ∀ s ∈ advanceAll idx k ss, ∀ x ∈ s, k < idx x := by
      intro s hs x hx
      obtain ⟨s', hs', rfl⟩ := List.mem_map.mp hs
      obtain ⟨hx1, hx2⟩ := (advance_mem (ho s' hs') (hle s' hs') x).mp hx
      have : k ≤ idx x := by
        cases s' with
        | nil => cases hx1
        | cons y ys => exact le_trans (hle _ hs' y ys rfl) (C11.le_of_mem (ho _ hs') x hx1)
      exact lt_of_le_of_ne this (Ne.symm hx2)
    have hgt' : ∀ k' ∈ (yieldTuples idx (advanceAll idx k ss)).map Prod.fst, k < k' := by
      intro k' hk'
      obtain ⟨s, hs, x, hx, rfl⟩ := (i2 k').mp hk'
      exact hgt s hs x hx
    rw [e]
    refine ⟨?_, ?_, ?_⟩
    · rw [List.map_cons, List.pairwise_cons]
      exact ⟨hgt', i1⟩
    · intro k'
      rw [List.map_cons, List.mem_cons, i2]
      constructor
      · rintro (rfl | ⟨s, hs, x, hx, rfl⟩)
        · exact ⟨s0, hs0, x0, by simp [e0], hk0⟩
        · obtain ⟨s', hs', rfl⟩ := List.mem_map.mp hs
          exact ⟨s', hs', x, ((advance_mem (ho s' hs') (hle s' hs') x).mp hx).1, rfl⟩
      · rintro ⟨s, hs, x, hx, rfl⟩
        by_cases hk : idx x = k
        · exact .inl hk
        · refine .inr ⟨advance idx k s, List.mem_map.mpr ⟨s, hs, rfl⟩, x, ?_, rfl⟩
          exact (advance_mem (ho s hs) (hle s hs) x).mpr ⟨hx, hk⟩
    · intro q hq
      rcases List.mem_cons.mp hq with rfl | hq
      · simp only [IsNRow, List.forall₂_map_right_iff]
        rw [List.forall₂_same]
        exact fun s hs x => pick_iff (ho s hs) (hle s hs) x
      · have := i3 q hq
        have hk : k < q.1 := hgt' q.1 (List.mem_map.mpr ⟨q, hq, rfl⟩)
        unfold IsNRow advanceAll at this
        rw [List.forall₂_map_left_iff] at this
        unfold IsNRow
        have hrel : ∀ s ∈ ss, ∀ o : Option α,
            (∀ x, o = some x ↔ x ∈ advance idx k s ∧ idx x = q.1) →
            (∀ x, o = some x ↔ x ∈ s ∧ idx x = q.1) := by
          intro s hs o hq x
          rw [hq x, advance_mem (ho s hs) (hle s hs) x]
          exact ⟨fun h => ⟨h.1.1, h.2⟩, fun h => ⟨⟨h.1, by rw [h.2]; exact ne_of_gt hk⟩, h.2⟩⟩
        clear * - this hrel
        generalize q.2 = row at *
        induction this with
        | nil => exact .nil
        | cons hx _ ih =>
          exact .cons (hrel _ (by simp) _ hx) (ih fun s hs => hrel s (by simp [hs]))

theorem forall₂_of_mem {γ δ : Type} {R : γ → δ → Prop} {l : List (γ × δ)} (h : ∀ q ∈ l, R q.1 q.2) :
    List.Forall₂ R (l.map Prod.fst) (l.map Prod.snd) := by
  induction l with
  | nil => exact .nil
  | cons q l ih => exact .cons (h q (by simp)) (ih fun q hq => h q (by simp [hq]))

/-- The general loop is the n-ary ordered outer join. -/
theorem yieldTuples_isNJoin (idx : α → K) (ss : List (List α)) (ho : ∀ s ∈ ss, Ordered idx s) :
    IsNJoin idx ss ((yieldTuples idx ss).map Prod.snd) := by
  obtain ⟨h1, h2, h3⟩ := yieldTuples_join idx ss ho
  exact ⟨_, h1, h2, forall₂_of_mem h3⟩

/-- ... and the index attached to each tuple is the index of its row. -/
theorem yieldTuples_index (idx : α → K) (ss : List (List α)) (ho : ∀ s ∈ ss, Ordered idx s) :
    ∀ q ∈ yieldTuples idx ss, ∀ x, some x ∈ q.2 → idx x = q.1 := by
  obtain ⟨-, -, h3⟩ := yieldTuples_join idx ss ho
  intro q hq x hx
  have := h3 q hq
  unfold IsNRow at this
  clear h3 ho hq
  generalize q.2 = row at *
  induction this with
  | nil => cases hx
  | cons hrow _ ih =>
    rcases List.mem_cons.mp hx with h | h
    · exact ((hrow x).mp h.symm).2
    · exact ih h

theorem two_isNJoin (idx : α → K) (l1 l2 : List α) {r}
    (h : IsOuterJoin idx idx l1 l2 r) :
    IsNJoin idx [l1, l2] (r.map (fun p => [p.1, p.2])) := by
  obtain ⟨ks, h1, h2, h3⟩ := h
  refine ⟨ks, h1, fun k => (h2 k).trans (by simp), ?_⟩
  rw [List.forall₂_map_right_iff]
  refine h3.imp ?_
  rintro k ⟨a, b⟩ ⟨-, ha, hb⟩
  exact .cons ha (.cons hb .nil)

/-- C12: collating any number of ordered streams is their n-ary ordered outer join,
including the special-cased two-stream implementation. -/
theorem collateIterators_join (idx : α → K) (ss : List (List α)) (ho : ∀ s ∈ ss, Ordered idx s) :
    IsNJoin idx ss (collateIterators idx ss) := by
  unfold collateIterators
  split
  · next s1 s2 =>
    exact two_isNJoin idx s1 s2 (C11.collate2_outer_join idx idx s1 s2 (ho s1 (by simp)) (ho s2 (by simp)))
  · exact yieldTuples_isNJoin idx _ ho

omit [LinearOrder K] in
theorem row_unique {idx : α → K} {k : K} {ss : List (List α)} {a b : List (Option α)}
    (ha : IsNRow idx ss k a) (hb : IsNRow idx ss k b) : a = b := by
  unfold IsNRow at ha hb
  induction ha generalizing b with
  | nil => cases hb; rfl
  | @cons s o ss os h _ ih =>
    cases hb with
    | @cons _ o' _ _ h' ht =>
      rw [ih ht]
      congr 1
      cases o with
      | some x => exact ((h' x).mpr ((h x).mp rfl)).symm
      | none =>
        cases o' with
        | none => rfl
        | some x => exact (h x).mpr ((h' x).mp rfl)

/-- strictly increasing lists with the same members are equal -/
theorem sorted_unique {l l' : List K} (h : l.Pairwise (· < ·)) (h' : l'.Pairwise (· < ·))
    (hm : ∀ k, k ∈ l ↔ k ∈ l') : l = l' := by
  induction l generalizing l' with
  | nil =>
    cases l' with
    | nil => rfl
    | cons b l' => exact absurd ((hm b).mpr (by simp)) (by simp)
  | cons a l ih =>
    cases l' with
    | nil => exact absurd ((hm a).mp (by simp)) (by simp)
    | cons b l' =>
      obtain ⟨ha, h⟩ := List.pairwise_cons.mp h
      obtain ⟨hb, h2⟩ := List.pairwise_cons.mp h'
      have hab : a = b := by
        rcases List.mem_cons.mp ((hm a).mp (by simp)) with e | e
        · exact e
        · rcases List.mem_cons.mp ((hm b).mpr (by simp)) with e' | e'
          · exact e'.symm
          · exact absurd (lt_trans (ha b e') (hb a e)) (lt_irrefl _)
      subst hab
      congr 1
      apply ih h h2
      intro k
      constructor
      · intro hk
        rcases List.mem_cons.mp ((hm k).mp (by simp [hk])) with e | e
        · exact absurd (ha k hk) (by rw [e]; exact lt_irrefl _)
        · exact e
      · intro hk
        rcases List.mem_cons.mp ((hm k).mpr (by simp [hk])) with e | e
        · exact absurd (hb k hk) (by rw [e]; exact lt_irrefl _)
        · exact e

/-- The join specification determines the result, so any two implementations agree ... -/
theorem join_unique (idx : α → K) (ss : List (List α)) {r r' : List (List (Option α))}
    (h : IsNJoin idx ss r) (h' : IsNJoin idx ss r') : r = r' := by
  obtain ⟨ks, h1, h2, h3⟩ := h
  obtain ⟨ks', h1', h2', h3'⟩ := h'
  have : ks = ks' := sorted_unique h1 h1' (fun k => (h2 k).trans (h2' k).symm)
  subst this
  clear h1 h2 h1' h2'
  induction h3 generalizing r' with
  | nil => cases h3'; rfl
  | cons hr _ ih =>
    cases h3' with
    | cons hr' ht => rw [row_unique hr hr', ih ht]

/-- ... in particular the two-stream special case agrees with the general loop. -/
theorem two_streams_agree (idx : α → K) (l1 l2 : List α) (o1 : Ordered idx l1) (o2 : Ordered idx l2) :
    (collate2 idx idx l1 l2).map (fun p => [p.1, p.2]) =
      (yieldTuples idx [l1, l2]).map Prod.snd := by
  apply join_unique idx [l1, l2]
  · exact two_isNJoin idx l1 l2 (C11.collate2_outer_join idx idx l1 l2 o1 o2)
  · exact yieldTuples_isNJoin idx _ (by simp [o1, o2])

-- three streams of naturals
example : ∀ s ∈ ([[1, 3], [2, 3, 5], []] : List (List Nat)), Ordered (K := Nat) id s := by
  unfold Ordered; decide
example : collateIterators (K := Nat) id [[1, 3], [2, 3, 5], []] =
    [[some 1, none, none], [none, some 2, none], [some 3, some 3, none], [none, some 5, none]] := by
  simp [collateIterators, yieldTuples, leastIndex, advanceAll, advance, pick]

end Verif.C12
