import Verif.Model.TreeReducer
import Verif.Spec.Nesting
import Verif.Proof.Index
/-
C13  Directory processing is properly nested.
-/
namespace Verif.C13
open Verif.TreeReducer Verif.NestingSpec
variable {α : Type} [LinearOrder α]

omit [LinearOrder α] in
theorem processed_append (a b : List (Event α)) : processed (a ++ b) = processed a ++ processed b := by
  induction a with
  | nil => rfl
  | cons e a ih => cases e <;> simp [processed, ih]

omit [LinearOrder α] in
theorem processed_finish (p : List (List α)) : processed (p.map (Event.finish (α := α))) = [] := by
  induction p with
  | nil => rfl
  | cons a p ih => simpa [processed] using ih

/-- what is still to be emitted for a stack of open directories -/
inductive Closes : List (List α) → List (Event α) → Prop
  | nil : Closes [] []
  | cons {b bs inner rest} : Nested b inner → Closes bs rest →
      (∀ j ∈ processed rest, ¬ b <+: j) → Closes (b :: bs) (inner ++ .finish b :: rest)

omit [LinearOrder α] in
theorem take_eq_iff_prefix (b index : List α) : b = index.take b.length ↔ b <+: index :=
  List.prefix_iff_eq_take.symm

theorem finishBranches_spec (index : List α) (bs : List (List α)) (root : List α)
    (hroot : root ∈ bs) (hr : root <+: index) :
    ∃ popped kept b0, bs = popped ++ b0 :: kept ∧
      finishBranches index bs = (popped.map .finish, b0 :: kept) ∧
      (∀ b ∈ popped, ¬ b <+: index) ∧ b0 <+: index := by
  induction bs with
  | nil => cases hroot
  | cons b bs ih =>
    by_cases hb : b <+: index
    · refine ⟨[], bs, b, rfl, ?_, by simp, hb⟩
      rw [finishBranches, if_neg (by simpa using (take_eq_iff_prefix b index).mpr hb)]; rfl
    · have : root ∈ bs := by
        rcases List.mem_cons.mp hroot with h | h
        · subst h; exact absurd hr hb
        · exact h
      obtain ⟨p, k, b0, e1, e2, e3, e4⟩ := ih this
      refine ⟨b :: p, k, b0, by rw [e1]; rfl, ?_, ?_, e4⟩
      · rw [finishBranches, if_pos (by simpa using fun h => hb ((take_eq_iff_prefix b index).mp h)), e2]
        rfl
      · intro c hc
        rcases List.mem_cons.mp hc with h | h
        · subst h; exact hb
        · exact e3 c h

omit [LinearOrder α] in
theorem closes_popped {popped bs : List (List α)} {ev : List (Event α)}
    (h : Closes bs ev) (hp : ∀ b ∈ popped, ∀ j ∈ processed ev, ¬ b <+: j) :
    Closes (popped ++ bs) (popped.map .finish ++ ev) := by
  induction popped with
  | nil => exact h
  | cons b p ih =>
    have ih := ih (fun b hb => hp b (by simp [hb]))
    have e : processed (p.map Event.finish ++ ev) = processed ev := by
      rw [processed_append, processed_finish]; rfl
    have := Closes.cons (inner := []) Nested.nil ih (b := b) (by
      rw [e]; exact hp b (by simp))
    simpa using this

/-- Main induction: from any reachable situation the remaining events close all open
directories properly and process exactly the remaining elements. -/
theorem runFrom_spec (root : List α) (xs : List (List α × Bool)) (cur : List α) (bs : List (List α))
    (hbs : ∀ b ∈ bs, b <+: cur) (hch : bs.Pairwise (fun inner outer => outer <+: inner))
    (hlast : bs.getLast? = some root)
    (hs : (cur :: xs.map Prod.fst).Pairwise (· < ·)) (hx : ∀ x ∈ xs, root <+: x.1) :
    ∃ ev, runFrom ⟨some cur, bs, false⟩ xs = some ev ∧ Closes bs ev ∧
      processed ev = xs.map Prod.fst := by
  induction xs generalizing cur bs with
  | nil =>
    refine ⟨bs.map .finish, by simp [runFrom, finishProcessing], ?_, processed_finish bs⟩
    have := closes_popped (popped := bs) (bs := []) (ev := []) Closes.nil (by simp [processed])
    simpa using this
  | cons x xs ih =>
    obtain ⟨i, f⟩ := x
    obtain ⟨h1, h2⟩ := List.pairwise_cons.mp hs
    have hcur : cur < i := h1 i (by simp)
    obtain ⟨h3, h4⟩ := List.pairwise_cons.mp h2
    obtain ⟨popped, kept, b0, e1, e2, e3, e4⟩ :=
      finishBranches_spec i bs root (List.mem_of_getLast? hlast) (hx (i, f) (by simp))
    have hxs : ∀ x ∈ xs, root <+: x.1 := fun x hx' => hx x (by simp [hx'])
    have hlast' : (b0 :: kept).getLast? = some root := by
      rw [e1] at hlast; simpa using hlast
    have hch' : (b0 :: kept).Pairwise (fun inner outer => outer <+: inner) := by
      rw [e1, List.pairwise_append] at hch; exact hch.2.1
    have hk : ∀ b ∈ b0 :: kept, b <+: i := by
      intro b hb
      rcases List.mem_cons.mp hb with h | h
      · subst h; exact e4
      · exact ((List.pairwise_cons.mp hch').1 b h).trans e4
    have hne : b0 ≠ i := by
      rintro rfl
      have : b0 ≤ cur := prefix_le (hbs b0 (by rw [e1]; simp))
      exact absurd hcur (not_lt.mpr this)
    have hpop : ∀ b ∈ popped, ∀ j ∈ i :: xs.map Prod.fst, ¬ b <+: j := by
      intro b hb j hj hbj
      have hbc : b <+: cur := hbs b (by rw [e1]; simp [hb])
      refine e3 b hb (prefix_convex hbc hbj (le_of_lt hcur) ?_)
      rcases List.mem_cons.mp hj with h | h
      · exact le_of_eq h.symm
      · exact le_of_lt (h3 j h)
    have hci : ¬ i = cur := ne_of_gt hcur
    have hci' : ¬ i < cur := not_lt.mpr (le_of_lt hcur)
    cases f with
    | true =>
      obtain ⟨ev, r1, r2, r3⟩ := ih i (b0 :: kept) hk hch' hlast' h2 hxs
      refine ⟨popped.map .finish ++ .fast i :: ev, ?_, ?_, ?_⟩
      · simp [runFrom, call, hci, hci', e2, r1]
      · rw [e1]
        cases r2 with
        | cons n1 n2 n3 =>
          have : Closes (b0 :: kept) (.fast i :: (_ ++ .finish b0 :: _)) :=
            Closes.cons (Nested.file ⟨e4, hne⟩ n1) n2 n3
          refine closes_popped this ?_
          intro b hb j hj
          apply hpop b hb j
          rw [← r3]; simpa [processed] using hj
      · rw [processed_append, processed_finish]; simp [processed, r3]
    | false =>
      obtain ⟨ev, r1, r2, r3⟩ := ih i (i :: b0 :: kept) (by
          intro b hb
          rcases List.mem_cons.mp hb with h | h
          · subst h; exact List.prefix_refl _
          · exact hk b h)
        (List.pairwise_cons.mpr ⟨hk, hch'⟩) (by simpa using hlast') h2 hxs
      refine ⟨popped.map .finish ++ .start i :: ev, ?_, ?_, ?_⟩
      · simp [runFrom, call, hci, hci', e2, r1]
      · rw [e1]
        cases r2 with
        | @cons _ _ inner1 rest1 n1 n2 n3 =>
          cases n2 with
          | @cons _ _ inner2 rest2 m1 m2 m3 =>
            have : Closes (b0 :: kept)
                ((.start i :: (inner1 ++ .finish i :: inner2)) ++ .finish b0 :: rest2) :=
              Closes.cons (Nested.dir ⟨e4, hne⟩ n1 m1 (fun j hj => n3 j (by
                rw [processed_append]; simp [hj]))) m2 m3
            have := closes_popped this (popped := popped) (by
              intro b hb j hj
              apply hpop b hb j
              rw [← r3]
              simpa [processed, processed_append] using hj)
            simpa using this
      · rw [processed_append, processed_finish]; simp [processed, r3]

/-- C13: for every strictly ordered walk below its first element `root` (a directory), the tree
reducer accepts all elements and its calls are: start the root, a properly nested sequence inside
it, end the root; and every element is processed exactly once, in order. -/
theorem reducer_nested (root : List α) (xs : List (List α × Bool))
    (hs : (root :: xs.map Prod.fst).Pairwise (· < ·)) (hx : ∀ x ∈ xs, root <+: x.1) :
    ∃ inner, run ((root, false) :: xs) = some (.start root :: (inner ++ [.finish root])) ∧
      Nested root inner ∧ processed inner = xs.map Prod.fst := by
  obtain ⟨ev, h1, h2, h3⟩ := runFrom_spec root xs root [root] (by simp) (by simp) (by simp) hs hx
  cases h2 with
  | cons n1 n2 n3 =>
    cases n2
    refine ⟨_, ?_, n1, ?_⟩
    · simp [run, runFrom, init, call, h1]
    · simpa [processed_append, processed] using h3

/-- A walk consisting of a single file: it is processed once and nothing is ended. -/
theorem reducer_single_file (i : List α) : run [(i, true)] = some [.fast i] := by
  simp [run, runFrom, init, call, finishProcessing]

omit [LinearOrder α] in
/-- In a nested trace every begun directory is ended exactly as often as it is begun. -/
theorem nested_starts_eq_finishes [DecidableEq α] {d : List α} {ev : List (Event α)} (h : Nested d ev) (i : List α) :
    ev.count (.start i) = ev.count (.finish i) := by
  induction h with
  | nil => rfl
  | file _ _ ih => simp [ih]
  | @dir d j inner r _ _ _ _ ih1 ih2 =>
    simp only [List.count_cons, List.count_append, ih1, ih2]
    have : (Event.start j == Event.start i) = (Event.finish j == Event.finish i) := by
      by_cases h : j = i
      · subst h; simp
      · have h1 : Event.start j ≠ Event.start i := by simpa using h
        have h2 : Event.finish j ≠ Event.finish i := by simpa using h
        rw [beq_eq_false_iff_ne.mpr h1, beq_eq_false_iff_ne.mpr h2]
    simp [this]; omega

/-- An index that goes backwards is refused, whatever happened before. -/
theorem out_of_order_refused (st : St α) (cur i : List α) (f : Bool) (hc : st.index = some cur)
    (h : i < cur) : call st i f = .valueError := by
  simp [call, hc, h, ne_of_lt h]

/-- Leaving the tree: all open directories are ended, innermost first, and `False` is returned. -/
theorem leaving_tree_ends_all (st : St α) (cur i : List α) (f : Bool) (hc : st.index = some cur)
    (h : cur < i) (hb : ∀ b ∈ st.branches, ¬ b <+: i) :
    ∃ st', call st i f = .ok (st.branches.map .finish) st' false := by
  have : ∀ bs : List (List α), (∀ b ∈ bs, ¬ b <+: i) →
      finishBranches i bs = (bs.map .finish, []) := by
    intro bs hbs
    induction bs with
    | nil => rfl
    | cons b bs ih =>
      have hb := hbs b (by simp)
      rw [finishBranches, if_pos (by simpa using fun h => hb ((take_eq_iff_prefix b i).mp h)),
        ih (fun b h => hbs b (by simp [h]))]
      rfl
  refine ⟨{ st with branches := [] }, ?_⟩
  simp only [call, hc, if_neg (ne_of_gt h), if_neg (not_lt.mpr (le_of_lt h)), this _ hb]

-- (), (1,), (1,1), (2,), (2,0,7) where (1,) and (2,) are directories
example : (([] : List Nat) :: ([([1], false), ([1, 1], true), ([2], false), ([2, 0, 7], true)] :
    List (List Nat × Bool)).map Prod.fst).Pairwise (· < ·) := by decide
example : run ([([], false), ([1], false), ([1, 1], true), ([2], false), ([2, 0, 7], true)] :
    List (List Nat × Bool)) =
    some [.start [], .start [1], .fast [1, 1], .finish [1], .start [2], .fast [2, 0, 7],
      .finish [2], .finish []] := by decide

end Verif.C13
