import Verif.Proof.MetaFile
import Mathlib.Data.List.Infix
/- Reading flat files with arbitrary content: where the records are cut, whatever the sizes of the reads. -/
namespace Verif.FlatFile
open Verif.Quoting (nl)

variable {pre : Bytes}

/-- a record begins at position `i` -/
def Bound (pre w : Bytes) (i : Nat) : Prop := 1 ≤ i ∧ w[i - 1]? = some nl ∧ startsLine pre (w.drop i) = true

theorem startsLine_mono {r t : Bytes} (h : startsLine pre r = true) : startsLine pre (r ++ t) = true := by
  unfold startsLine at *
  rw [Bool.and_eq_true] at *
  obtain ⟨h1, h2⟩ := h
  have hp := List.isPrefixOf_iff_prefix.1 h1
  refine ⟨List.isPrefixOf_iff_prefix.2 (hp.trans (List.prefix_append _ _)), ?_⟩
  rw [List.drop_append_of_le_length hp.length_le]
  rw [List.contains_iff_mem] at *
  exact List.mem_append_left _ h2

theorem scan_spec (w : Bytes) (k : Nat) :
    (∀ p, scan pre w k = some p → ∃ i, p = k + i ∧ Bound pre w i ∧ ∀ j < i, ¬ Bound pre w j) ∧
    (scan pre w k = none → ∀ j, ¬ Bound pre w j) := by
  induction w generalizing k with
  | nil =>
    refine ⟨fun p h => by simp [scan] at h, fun _ j hj => ?_⟩
    have := hj.2.1
    simp at this
  | cons c r ih =>
    have hshift : ∀ j, Bound pre (c :: r) (j + 1) → j = 0 ∨ Bound pre r j := by
      intro j hj
      by_cases h0 : j = 0
      · exact Or.inl h0
      · right
        obtain ⟨i, rfl⟩ := (⟨j - 1, by omega⟩ : ∃ i, j = i + 1)
        obtain ⟨-, h2, h3⟩ := hj
        refine ⟨by omega, ?_, ?_⟩
        · simpa using h2
        · simpa using h3
    have hback : ∀ j, Bound pre r j → Bound pre (c :: r) (j + 1) := by
      intro j ⟨h1, h2, h3⟩
      obtain ⟨i, rfl⟩ := (⟨j - 1, by omega⟩ : ∃ i, j = i + 1)
      exact ⟨by omega, by simpa using h2, by simpa using h3⟩
    rw [scan]
    by_cases h : (c == nl && startsLine pre r) = true
    · rw [if_pos h]
      rw [Bool.and_eq_true, beq_iff_eq] at h
      refine ⟨fun p hp => ⟨1, by simpa using hp.symm, ⟨by omega, by simp [h.1], by simpa using h.2⟩, ?_⟩, fun hc => by simp at hc⟩
      intro j hj hb
      have := hb.1
      omega
    · rw [if_neg h]
      have h1 : ¬ Bound pre (c :: r) 1 := by
        rintro ⟨-, h2, h3⟩
        apply h
        rw [Bool.and_eq_true, beq_iff_eq]
        exact ⟨by simpa using h2, by simpa using h3⟩
      obtain ⟨ih1, ih2⟩ := ih (k + 1)
      refine ⟨fun p hp => ?_, fun hn j hj => ?_⟩
      · obtain ⟨i, hi, hb, hmin⟩ := ih1 p hp
        refine ⟨i + 1, by omega, hback i hb, ?_⟩
        intro j hj hbj
        have := hbj.1
        obtain ⟨j', rfl⟩ := (⟨j - 1, by omega⟩ : ∃ i, j = i + 1)
        rcases hshift j' hbj with h0 | hb'
        · subst h0; exact h1 hbj
        · exact hmin j' (by omega) hb'
      · have := hj.1
        obtain ⟨j', rfl⟩ := (⟨j - 1, by omega⟩ : ∃ i, j = i + 1)
        rcases hshift j' hj with h0 | hb'
        · subst h0; exact h1 hj
        · exact ih2 hn j' hb'

theorem bound_drop1 {w : Bytes} {i : Nat} (h1 : 1 ≤ i) : Bound pre (w.drop 1) i ↔ Bound pre w (i + 1) := by
  obtain ⟨j, rfl⟩ := (⟨i - 1, by omega⟩ : ∃ j, i = j + 1)
  unfold Bound
  simp only [List.drop_drop, List.getElem?_drop]
  rw [show 1 + (j + 1 - 1) = j + 1 + 1 - 1 by omega, show 1 + (j + 1) = j + 1 + 1 by omega]
  simp

/-- the first place where a record begins, which is not 0 or 1 -/
theorem searchFrom1_spec (w : Bytes) :
    (∀ p, searchFrom1 pre w = some p → 2 ≤ p ∧ Bound pre w p ∧ ∀ j, 2 ≤ j → j < p → ¬ Bound pre w j) ∧
    (searchFrom1 pre w = none → ∀ j, 2 ≤ j → ¬ Bound pre w j) := by
  obtain ⟨h1, h2⟩ := scan_spec (pre := pre) (w.drop 1) 1
  refine ⟨fun p hp => ?_, fun hn j hj hb => ?_⟩
  · obtain ⟨i, rfl, hb, hmin⟩ := h1 p hp
    have := hb.1
    refine ⟨by omega, ?_, ?_⟩
    · rw [Nat.add_comm]; exact (bound_drop1 hb.1).1 hb
    · intro j hj hjp hbj
      obtain ⟨j', rfl⟩ := (⟨j - 1, by omega⟩ : ∃ i, j = i + 1)
      exact hmin j' (by omega) ((bound_drop1 (by omega)).2 hbj)
  · obtain ⟨j', rfl⟩ := (⟨j - 1, by omega⟩ : ∃ i, j = i + 1)
    exact h2 hn j' ((bound_drop1 (by omega)).2 hb)

theorem searchFrom1_eq {w : Bytes} {p : Nat} (h2 : 2 ≤ p) (hb : Bound pre w p) (hmin : ∀ j, 2 ≤ j → j < p → ¬ Bound pre w j) :
    searchFrom1 pre w = some p := by
  obtain ⟨h1, h3⟩ := searchFrom1_spec (pre := pre) w
  cases hs : searchFrom1 pre w with
  | none => exact absurd hb (h3 hs p h2)
  | some q =>
    obtain ⟨hq2, hqb, hqm⟩ := h1 q hs
    rcases Nat.lt_trichotomy p q with h | h | h
    · exact absurd hb (hqm p h2 h)
    · rw [h]
    · exact absurd hqb (hmin q hq2 h)

theorem bound_append_right {z u : Bytes} {j : Nat} (h : 1 ≤ j) : Bound pre (z ++ u) (z.length + j) ↔ Bound pre u j := by
  obtain ⟨i, rfl⟩ := (⟨j - 1, by omega⟩ : ∃ j', j = j' + 1)
  unfold Bound
  rw [List.getElem?_append_right (by omega), List.drop_append,
    show z.length + (i + 1) - 1 - z.length = i + 1 - 1 by omega, show z.length + (i + 1) - z.length = i + 1 by omega,
    List.drop_eq_nil_of_le (by omega)]
  simp
  intros; omega

theorem bound_mono {b t : Bytes} {j : Nat} (h : Bound pre b j) : Bound pre (b ++ t) j := by
  obtain ⟨h1, h2, h3⟩ := h
  have hl : j - 1 < b.length := by
    by_contra hc
    rw [List.getElem?_eq_none (by omega)] at h2
    simp at h2
  refine ⟨h1, by rw [List.getElem?_append_left hl]; exact h2, ?_⟩
  rw [List.drop_append_of_le_length (by omega)]
  exact startsLine_mono h3

theorem startsLine_unmono (hpre : nl ∉ pre) {r t : Bytes} (hmem : nl ∈ r) (h3 : startsLine pre (r ++ t) = true) : startsLine pre r = true := by
  unfold startsLine at *
  rw [Bool.and_eq_true, List.isPrefixOf_iff_prefix, List.contains_iff_mem] at *
  obtain ⟨hp, -⟩ := h3
  obtain ⟨l, r', rfl⟩ := List.append_of_mem hmem
  -- the first newline
  obtain ⟨l', r'', hl', hr'⟩ : ∃ l' r'', nl ∉ l' ∧ l ++ nl :: r' = l' ++ nl :: r'' := by
    clear hp hmem
    induction l with
    | nil => exact ⟨[], r', by simp, rfl⟩
    | cons c l ih =>
      by_cases hc : c = nl
      · exact ⟨[], l ++ nl :: r', by simp, by simp [hc]⟩
      · obtain ⟨l', r'', h, h'⟩ := ih
        refine ⟨c :: l', r'', ?_, by simp [h']⟩
        simp only [List.mem_cons, not_or]
        exact ⟨fun e => hc e.symm, h⟩
  rw [hr'] at hp ⊢
  rw [List.append_assoc, List.cons_append] at hp
  have hp' := prefix_line hpre hp
  refine ⟨hp'.trans (List.prefix_append _ _), ?_⟩
  rw [List.drop_append_of_le_length hp'.length_le]
  simp

/-- more content doesn't bring in an earlier beginning -/
theorem bound_unmono (hpre : nl ∉ pre) {b t : Bytes} {j i : Nat} (hji : j < i) (hb : Bound pre b i) (h : Bound pre (b ++ t) j) :
    Bound pre b j := by
  obtain ⟨h1, h2, h3⟩ := h
  have hl : i - 1 < b.length := by
    by_contra hc
    have := hb.2.1
    rw [List.getElem?_eq_none (by omega)] at this
    simp at this
  refine ⟨h1, by rw [List.getElem?_append_left (by omega)] at h2; exact h2, ?_⟩
  rw [List.drop_append_of_le_length (by omega)] at h3
  have hmem : nl ∈ b.drop j := by
    have : (b.drop j)[i - 1 - j]? = some nl := by
      rw [List.getElem?_drop, show j + (i - 1 - j) = i - 1 by omega]; exact hb.2.1
    exact List.mem_of_getElem? this
  exact startsLine_unmono hpre hmem h3

theorem searchFrom1_mono (hpre : nl ∉ pre) {b t : Bytes} {p : Nat} (h : searchFrom1 pre b = some p) : searchFrom1 pre (b ++ t) = some p := by
  obtain ⟨h2, hb, hm⟩ := (searchFrom1_spec b).1 p h
  exact searchFrom1_eq h2 (bound_mono hb) fun j hj hjp hbj => hm j hj hjp (bound_unmono hpre hjp hb hbj)

/-- where the first record of the content ends -/
def firstEnd (pre w : Bytes) : Nat := (searchFrom1 pre w).getD w.length

theorem firstEnd_le (w : Bytes) : firstEnd pre w ≤ w.length := by
  unfold firstEnd
  cases h : searchFrom1 pre w with
  | none => simp
  | some p =>
    obtain ⟨_, hb, _⟩ := (searchFrom1_spec w).1 p h
    have := hb.2.1
    by_contra hc
    rw [List.getElem?_eq_none (by simp at hc; omega)] at this
    simp at this

theorem firstEnd_pos {w : Bytes} (hw : w ≠ []) : 0 < firstEnd pre w := by
  unfold firstEnd
  cases h : searchFrom1 pre w with
  | none => simpa using List.length_pos_iff.2 hw
  | some p =>
    have := ((searchFrom1_spec w).1 p h).1
    simp; omega

/-- the records of the content -/
def cut (pre : Bytes) : Nat → Bytes → List Bytes
  | 0, _ => []
  | fuel + 1, w => if w = [] then [] else w.take (firstEnd pre w) :: cut pre fuel (w.drop (firstEnd pre w))

theorem cut_fuel (fuel fuel' : Nat) (w : Bytes) (h : w.length < fuel) (h' : w.length < fuel') : cut pre fuel w = cut pre fuel' w := by
  induction fuel generalizing fuel' w with
  | zero => omega
  | succ fuel ih =>
    obtain ⟨k, rfl⟩ := (⟨fuel' - 1, by omega⟩ : ∃ k, fuel' = k + 1)
    rw [cut, cut]
    by_cases hw : w = []
    · simp [hw]
    · rw [if_neg hw, if_neg hw]
      have := firstEnd_pos (pre := pre) hw
      have := List.length_pos_iff.2 hw
      rw [ih k _ (by rw [List.length_drop]; omega) (by rw [List.length_drop]; omega)]

theorem cut_flatten (fuel : Nat) (w : Bytes) (h : w.length < fuel) : (cut pre fuel w).flatten = w := by
  induction fuel generalizing w with
  | zero => omega
  | succ fuel ih =>
    rw [cut]
    by_cases hw : w = []
    · simp [hw]
    · rw [if_neg hw]
      have := firstEnd_pos (pre := pre) hw
      have := List.length_pos_iff.2 hw
      rw [List.flatten_cons, ih _ (by rw [List.length_drop]; omega), List.take_append_drop]

/-- `_get_next_pos` on any content -/
theorem getNextPos_any {sizes : Nat → Nat} (hpre : nl ∉ pre) (fuel : Nat) (s : St) (hend : s.atEnd = false) (hf : s.rest.length < fuel) :
    ∃ s', getNextPos pre sizes fuel s = (firstEnd pre (s.buf ++ s.rest), s') ∧ s'.buf ++ s'.rest = s.buf ++ s.rest ∧
      (s'.atEnd = true ↔ searchFrom1 pre (s.buf ++ s.rest) = none) ∧ firstEnd pre (s.buf ++ s.rest) ≤ s'.buf.length := by
  induction fuel generalizing s with
  | zero => omega
  | succ fuel ih =>
    rw [getNextPos]
    cases hs : searchFrom1 pre s.buf with
    | some p =>
      have h := searchFrom1_mono hpre (t := s.rest) hs
      refine ⟨s, by simp [firstEnd, h], rfl, by simp [hend, h], ?_⟩
      have := firstEnd_le (pre := pre) s.buf
      simpa [firstEnd, h, hs] using this
    | none =>
      simp only
      by_cases hrest : s.rest = []
      · rw [if_pos (by simp [hrest])]
        exact ⟨{ s with k := s.k + 1, atEnd := true }, by simp [firstEnd, hrest, hs], by simp [hrest], by simp [hrest, hs],
          by simp [firstEnd, hrest, hs]⟩
      · have hnew : s.rest.take (sizes s.k + 1) ≠ [] := by simp [hrest]
        rw [if_neg hnew]
        have happ : (s.buf ++ s.rest.take (sizes s.k + 1)) ++ s.rest.drop (sizes s.k + 1) = s.buf ++ s.rest := by
          rw [List.append_assoc, List.take_append_drop]
        have hlen : (s.rest.drop (sizes s.k + 1)).length < s.rest.length := by
          have := List.length_pos_iff.2 hrest
          rw [List.length_drop]; omega
        obtain ⟨s', h1, h2, h3, h4⟩ := ih
          { s with buf := s.buf ++ s.rest.take (sizes s.k + 1), rest := s.rest.drop (sizes s.k + 1), k := s.k + 1 } hend
          (by show (s.rest.drop (sizes s.k + 1)).length < fuel; omega)
        simp only [happ] at h1 h2 h3 h4
        exact ⟨s', h1, h2, h3, h4⟩

theorem iterateRecords_any {sizes : Nat → Nat} (hpre : nl ∉ pre) (fuel : Nat) (s : St) (hend : s.atEnd = false)
    (hf : (s.buf ++ s.rest).length < fuel) : iterateRecords pre sizes fuel s = cut pre fuel (s.buf ++ s.rest) := by
  induction fuel generalizing s with
  | zero => omega
  | succ fuel ih =>
    rw [iterateRecords, cut]
    obtain ⟨s', h1, h2, h3, h4⟩ := getNextPos_any (sizes := sizes) hpre (s.rest.length + 1) s hend (Nat.lt_succ_self _)
    rw [h1]
    simp only
    have htake : s'.buf.take (firstEnd pre (s.buf ++ s.rest)) = (s.buf ++ s.rest).take (firstEnd pre (s.buf ++ s.rest)) := by
      rw [← h2, List.take_append_of_le_length (by rw [h2]; exact h4)]
    have hdrop : s'.buf.drop (firstEnd pre (s.buf ++ s.rest)) ++ s'.rest = (s.buf ++ s.rest).drop (firstEnd pre (s.buf ++ s.rest)) := by
      rw [← h2, List.drop_append_of_le_length (by rw [h2]; exact h4)]
    by_cases hw : s.buf ++ s.rest = []
    · have : searchFrom1 pre (s.buf ++ s.rest) = none := by rw [hw]; rfl
      rw [if_pos (h3.2 this), if_pos hw, if_neg]
      rw [firstEnd, this, hw]
      simp
    · rw [if_neg hw]
      have hpos := firstEnd_pos (pre := pre) hw
      have := List.length_pos_iff.2 hw
      cases hse : searchFrom1 pre (s.buf ++ s.rest) with
      | none =>
        rw [if_pos (h3.2 hse), if_pos (by omega), htake]
        have hfe : firstEnd pre (s.buf ++ s.rest) = (s.buf ++ s.rest).length := by simp [firstEnd, hse]
        rw [hfe, List.drop_length]
        cases fuel <;> simp [cut]
      | some p =>
        rw [if_neg (fun h => by rw [h3.1 h] at hse; simp at hse), htake]
        congr 1
        rw [ih, hdrop]
        · show s'.atEnd = false
          rw [Bool.eq_false_iff]
          intro h
          rw [h3.1 h] at hse; simp at hse
        · show (s'.buf.drop _ ++ s'.rest).length < fuel
          rw [hdrop, List.length_drop]
          omega

/-- the records of a file with any content -/
def cuts (pre w : Bytes) : List Bytes := cut pre (w.length + 1) w

theorem iterate_any {β : Type} {sizes : Nat → Nat} (hpre : nl ∉ pre) (toObj : Bytes → Option β) (w : Bytes) :
    iterate pre sizes toObj w = (cuts pre w).filterMap toObj := by
  unfold iterate cuts
  rw [iterateRecords_any hpre _ _ rfl (by simp [open'])]
  simp [open']

theorem cuts_nil : cuts pre [] = [] := by simp [cuts, cut]

theorem cuts_cons {w : Bytes} (hw : w ≠ []) : cuts pre w = w.take (firstEnd pre w) :: cuts pre (w.drop (firstEnd pre w)) := by
  rw [cuts, cut, if_neg hw, cuts]
  have := firstEnd_pos (pre := pre) hw
  have := List.length_pos_iff.2 hw
  rw [cut_fuel _ ((w.drop (firstEnd pre w)).length + 1) _ (by rw [List.length_drop]; omega) (by omega)]

theorem cuts_flatten (w : Bytes) : (cuts pre w).flatten = w := cut_flatten _ _ (Nat.lt_succ_self _)

section recs
variable (hpre : nl ∉ pre) (hne : pre ≠ [])
include hpre hne

omit hpre hne in
theorem text_startsLine (r : Rec) (t : Bytes) : startsLine pre (r.text pre ++ t) = true := by
  simp only [Rec.text, Rec.lines, joinLines_cons, List.append_assoc, List.cons_append]
  rw [← List.append_assoc]
  exact startsLine_true

/-- a record followed by the beginning of another one is read -/
theorem cuts_rec {r : Rec} (hr : r.Ok pre) {t : Bytes} (ht : startsLine pre t = true) : cuts pre (r.text pre ++ t) = r.text pre :: cuts pre t := by
  have h := search1_some hpre hne hr ht
  rw [cuts_cons (by simp [Rec.text, Rec.lines])]
  simp [firstEnd, h]

/-- the records before damage, except for the last one -/
theorem cuts_before {A : List Rec} (hA : ∀ r ∈ A, r.Ok pre) {t : Bytes} (ht : startsLine pre t = true) :
    cuts pre (texts pre A ++ t) = A.map (Rec.text pre) ++ cuts pre t := by
  induction A with
  | nil => simp [texts]
  | cons r A ih =>
    have hA' := fun r hr => hA r (List.mem_cons_of_mem _ hr)
    have hs : startsLine pre (texts pre A ++ t) = true := by
      cases A with
      | nil => simpa [texts] using ht
      | cons r' A' => exact startsLine_mono texts_startsLine
    rw [show texts pre (r :: A) ++ t = r.text pre ++ (texts pre A ++ t) by simp [texts], cuts_rec hpre hne (hA r List.mem_cons_self) hs, ih hA']
    rfl

/-- no record begins inside of a record -/
theorem not_bound {r : Rec} (hr : r.Ok pre) {t : Bytes} (ht : t = [] ∨ startsLine pre t = true) {j : Nat} (h1 : 1 ≤ j)
    (h2 : j < (r.text pre).length) : ¬ Bound pre (r.text pre ++ t) j := by
  intro hb
  by_cases h : j = 1
  · subst h
    have := hb.2.1
    obtain ⟨c, cs, rfl⟩ := List.exists_cons_of_ne_nil hne
    simp only [Rec.text, Rec.lines, joinLines_cons, List.cons_append, Nat.sub_self] at this
    simp only [List.getElem?_cons_zero, Option.some.injEq] at this
    exact hpre (by rw [this]; simp)
  · rcases ht with rfl | ht
    · have hn : searchFrom1 pre (r.text pre ++ []) = none :=
        search1_none hpre hne hr (name := []) (by simp) (by simp)
      exact (searchFrom1_spec _).2 hn j (by omega) hb
    · exact ((searchFrom1_spec _).1 _ (search1_some hpre hne hr ht)).2.2 j (by omega) h2 hb

/-- the records after damage, except for the first one -/
theorem cuts_after {b : Rec} {B : List Rec} (hb : b.Ok pre) (hB : ∀ r ∈ B, r.Ok pre) (n : Nat) (z : Bytes) (hz : z.length < n) :
    ∃ P, cuts pre (z ++ texts pre (b :: B)) = P ++ B.map (Rec.text pre) ∧ P.flatten = z ++ b.text pre ∧
      (∀ z', z = z' ++ [nl] → z' ≠ [] → ∃ P', P = P' ++ [b.text pre]) := by
  induction n generalizing z with
  | zero => omega
  | succ n ih =>
    have htexts : texts pre (b :: B) = b.text pre ++ texts pre B := by simp [texts]
    have htB : texts pre B = [] ∨ startsLine pre (texts pre B) = true := by
      cases B with
      | nil => left; rfl
      | cons r B => right; exact texts_startsLine
    have hbl : 0 < (b.text pre).length := List.length_pos_iff.2 (by simp [Rec.text, Rec.lines])
    have hallB : cuts pre (texts pre B) = B.map (Rec.text pre) := by
      have := iterateRecords_spec (sizes := fun _ => 0) hpre hne hB ((texts pre B).length + 1) (open' (texts pre B)) rfl rfl
        (Nat.lt_succ_of_le (length_texts _))
      rw [iterateRecords_any hpre _ _ rfl (by simp [open'])] at this
      simpa [open', cuts] using this
    have hw : z ++ texts pre (b :: B) ≠ [] := by
      rw [htexts]; intro h
      simp only [List.append_eq_nil_iff] at h
      rw [h.2.1] at hbl; simp at hbl
    rw [cuts_cons hw]
    -- where the first record ends
    by_cases hin : ∃ p, 2 ≤ p ∧ p ≤ z.length ∧ Bound pre (z ++ texts pre (b :: B)) p
    · -- inside of the damage
      have hle : firstEnd pre (z ++ texts pre (b :: B)) ≤ z.length := by
        obtain ⟨p, hp2, hpz, hpb⟩ := hin
        cases hs : searchFrom1 pre (z ++ texts pre (b :: B)) with
        | none => exact absurd hpb ((searchFrom1_spec _).2 hs p hp2)
        | some q =>
          simp only [firstEnd, hs, Option.getD_some]
          by_contra hc
          exact ((searchFrom1_spec _).1 q hs).2.2 p hp2 (by omega) hpb
      have hpos := firstEnd_pos (pre := pre) hw
      have hbe : startsLine pre ((z ++ texts pre (b :: B)).drop (firstEnd pre (z ++ texts pre (b :: B)))) = true := by
        obtain ⟨p, hp2, hpz, hpb⟩ := hin
        cases hs : searchFrom1 pre (z ++ texts pre (b :: B)) with
        | none => exact absurd hpb ((searchFrom1_spec _).2 hs p hp2)
        | some q =>
          simp only [firstEnd, hs, Option.getD_some]
          exact ((searchFrom1_spec _).1 q hs).2.1.2.2
      generalize firstEnd pre (z ++ texts pre (b :: B)) = e at hle hpos hbe
      rw [List.take_append_of_le_length hle, List.drop_append_of_le_length hle]
      obtain ⟨P, h1, h2, h3⟩ := ih (z.drop e) (by rw [List.length_drop]; omega)
      refine ⟨z.take e :: P, by rw [h1]; rfl, by rw [List.flatten_cons, h2, ← List.append_assoc, List.take_append_drop], ?_⟩
      intro z' hz' hne'
      by_cases hlast : z.drop e = []
      · -- the cut is at the end of the damage
        refine ⟨[z.take e], ?_⟩
        have hPall : P = [b.text pre] := by
          rw [hlast, List.nil_append, htexts] at h1
          rcases htB with hB0 | hBs
          · have hBnil : B = [] := by
              cases B with
              | nil => rfl
              | cons r B => simp [texts, Rec.text, Rec.lines] at hB0
            have := cuts_flatten (pre := pre) (b.text pre ++ texts pre B)
            rw [hBnil] at h1
            simp only [List.map_nil, List.append_nil, texts, List.flatMap_nil] at h1
            rw [← h1, cuts_cons (by simp [Rec.text, Rec.lines])]
            have hn : searchFrom1 pre (b.text pre) = none :=
              search1_none hpre hne hb (name := []) (by simp) (List.prefix_append _ _)
            simp [firstEnd, hn, cuts_nil]
          · rw [cuts_rec hpre hne hb hBs, hallB] at h1
            exact (List.append_left_injective _ (by simpa using h1)).symm
        rw [hPall]; rfl
      · by_cases hone : z.drop e = [nl]
        · -- a record does not begin with a newline
          exfalso
          have hd : startsLine pre ((z ++ texts pre (b :: B)).drop e) = true := hbe
          rw [List.drop_append_of_le_length hle, hone] at hd
          unfold startsLine at hd
          rw [Bool.and_eq_true, List.isPrefixOf_iff_prefix] at hd
          obtain ⟨c, cs, rfl⟩ := List.exists_cons_of_ne_nil hne
          have := hd.1
          simp only [List.cons_append, List.cons_prefix_cons] at this
          exact hpre (by rw [this.1]; simp)
        · obtain ⟨z'', hz''⟩ : ∃ z'', z.drop e = z'' ++ [nl] := by
            rw [hz'] at hlast ⊢
            by_cases he : e ≤ z'.length
            · exact ⟨z'.drop e, by rw [List.drop_append_of_le_length he]⟩
            · exfalso; apply hlast
              rw [List.drop_eq_nil_of_le]; simp; omega
          obtain ⟨P', hP'⟩ := h3 z'' hz'' (fun h => hone (by rw [hz'', h]; rfl))
          exact ⟨z.take e :: P', by rw [hP']; rfl⟩
    · -- the record goes on to the end of the first intact one
      have hend : firstEnd pre (z ++ texts pre (b :: B)) = z.length + (b.text pre).length := by
        have hno : ∀ j, 2 ≤ j → j < z.length + (b.text pre).length → ¬ Bound pre (z ++ texts pre (b :: B)) j := by
          intro j hj2 hj hbj
          by_cases hjz : j ≤ z.length
          · exact hin ⟨j, hj2, hjz, hbj⟩
          · obtain ⟨i, rfl⟩ := (⟨j - z.length, by omega⟩ : ∃ i, j = z.length + i)
            rw [bound_append_right (by omega), htexts] at hbj
            exact not_bound hpre hne hb htB (by omega) (by omega) hbj
        have hlast : (b.text pre)[(b.text pre).length - 1]? = some nl := by
          rw [← List.getLast?_eq_getElem?]
          have : ∃ L l, b.lines pre = L ++ [l] := by
            rcases List.eq_nil_or_concat (b.lines pre) with h | ⟨L, l, h⟩
            · simp [Rec.lines] at h
            · exact ⟨L, l, by simpa using h⟩
          obtain ⟨L, l, hL⟩ := this
          rw [Rec.text, hL, joinLines_append]
          simp
        rcases htB with hB0 | hBs
        · cases hs : searchFrom1 pre (z ++ texts pre (b :: B)) with
          | none => rw [firstEnd, hs, htexts, hB0]; simp
          | some q =>
            exfalso
            obtain ⟨hq2, hqb, -⟩ := (searchFrom1_spec _).1 q hs
            have hq : z.length + (b.text pre).length ≤ q := by
              by_contra hc
              exact hno q hq2 (by omega) hqb
            have h3 := hqb.2.2
            rw [List.drop_eq_nil_of_le (by rw [htexts, hB0]; simp; omega)] at h3
            simp [startsLine] at h3
        · have hbnd : Bound pre (z ++ texts pre (b :: B)) (z.length + (b.text pre).length) := by
            rw [bound_append_right (by omega), htexts]
            refine ⟨by omega, ?_, ?_⟩
            · rw [List.getElem?_append_left (by omega)]; exact hlast
            · simpa using hBs
          have h2 : 2 ≤ (b.text pre).length := by
            have := List.length_pos_iff.2 hne
            simp [Rec.text, Rec.lines]; omega
          simp [firstEnd, searchFrom1_eq (by omega) hbnd hno]
      rw [hend, htexts]
      have e1 : (z ++ (b.text pre ++ texts pre B)).take (z.length + (b.text pre).length) = z ++ b.text pre := by
        rw [← List.append_assoc, ← List.length_append, List.take_left]
      have e2 : (z ++ (b.text pre ++ texts pre B)).drop (z.length + (b.text pre).length) = texts pre B := by
        rw [← List.append_assoc, ← List.length_append, List.drop_left]
      rw [e1, e2, hallB]
      refine ⟨[z ++ b.text pre], rfl, by simp, ?_⟩
      intro z' hz' hz0
      exfalso
      apply hin
      have := List.length_pos_iff.2 hz0
      refine ⟨z.length, by rw [hz']; simp; omega, Nat.le_refl _, by rw [hz']; simp, ?_, ?_⟩
      · rw [hz']; simp
      · simpa using texts_startsLine

/-- the text of a record, if there is one -/
def optText (pre : Bytes) (r : Option Rec) : Bytes := match r with
  | some r => r.text pre
  | none => []

/-- Arbitrary bytes between records: all records but those next to them are read, and the other pieces are made up of the damaged part
and its neighbours. -/
theorem cuts_damaged {A B : List Rec} (hA : ∀ r ∈ A, r.Ok pre) (hB : ∀ r ∈ B, r.Ok pre) (X : Bytes) :
    ∃ P, cuts pre (texts pre A ++ X ++ texts pre B) = A.dropLast.map (Rec.text pre) ++ P ++ B.tail.map (Rec.text pre) ∧
      P.flatten = optText pre A.getLast? ++ X ++ optText pre B.head? ∧
      (∀ X', X = X' ++ [nl] → A ≠ [] ∨ X' ≠ [] → ∀ b, B.head? = some b → ∃ P', P = P' ++ [b.text pre]) := by
  have key : ∀ z : Bytes, ∃ P, cuts pre (z ++ texts pre B) = P ++ B.tail.map (Rec.text pre) ∧ P.flatten = z ++ optText pre B.head? ∧
      (∀ z', z = z' ++ [nl] → z' ≠ [] → ∀ b, B.head? = some b → ∃ P', P = P' ++ [b.text pre]) := by
    intro z
    cases B with
    | nil => exact ⟨cuts pre z, by simp [texts], by simp [cuts_flatten, optText], by simp⟩
    | cons b B =>
      obtain ⟨P, h1, h2, h3⟩ := cuts_after hpre hne (hB b List.mem_cons_self) (fun r hr => hB r (List.mem_cons_of_mem _ hr)) _ z
        (Nat.lt_succ_self _)
      refine ⟨P, h1, h2, ?_⟩
      intro z' hz hz' b' hb'
      simp only [List.head?_cons, Option.some.injEq] at hb'
      subst hb'
      exact h3 z' hz hz'
  rcases List.eq_nil_or_concat A with rfl | ⟨A0, a, rfl⟩
  · obtain ⟨P, h1, h2, h3⟩ := key X
    exact ⟨P, by simpa [texts] using h1, by simpa [optText] using h2, fun X' hX' h b hb => h3 X' hX' (by simpa using h) b hb⟩
  · obtain ⟨P, h1, h2, h3⟩ := key (a.text pre ++ X)
    refine ⟨P, ?_, ?_, ?_⟩
    · rw [show texts pre (A0.concat a) ++ X ++ texts pre B = texts pre A0 ++ (a.text pre ++ (X ++ texts pre B)) by simp [texts],
        cuts_before hpre hne (fun r hr => hA r (by simp [hr])) (text_startsLine a _), ← List.append_assoc, h1]
      simp
    · rw [h2]; simp [optText]
    · intro X' hX' _ b hb
      refine h3 (a.text pre ++ X') (by rw [hX']; simp) ?_ b hb
      simp [Rec.text, Rec.lines]

/-- ... and if the arbitrary bytes begin like a record, the one before them is read, too -/
theorem cuts_damaged_left {A B : List Rec} (hA : ∀ r ∈ A, r.Ok pre) (hB : ∀ r ∈ B, r.Ok pre) {X : Bytes}
    (hX : startsLine pre X = true) :
    ∃ P, cuts pre (texts pre A ++ X ++ texts pre B) = A.map (Rec.text pre) ++ P ++ B.tail.map (Rec.text pre) ∧
      P.flatten = X ++ optText pre B.head? ∧
      (∀ X', X = X' ++ [nl] → ∀ b, B.head? = some b → ∃ P', P = P' ++ [b.text pre]) := by
  obtain ⟨P, h1, h2, h3⟩ := cuts_damaged hpre hne (A := []) (by simp) hB X
  refine ⟨P, ?_, by simpa [optText] using h2, ?_⟩
  · rw [List.append_assoc, cuts_before hpre hne hA (startsLine_mono hX), List.append_assoc]
    simp only [texts, List.flatMap_nil, List.nil_append, List.dropLast_nil, List.map_nil] at h1
    rw [← texts] at h1
    rw [h1]
  · intro X' hX' b hb
    refine h3 X' hX' (Or.inr ?_) b hb
    rintro rfl
    unfold startsLine at hX
    rw [Bool.and_eq_true, List.isPrefixOf_iff_prefix] at hX
    obtain ⟨c, cs, rfl⟩ := List.exists_cons_of_ne_nil hne
    have := hX.1
    rw [hX'] at this
    simp only [List.nil_append, List.cons_prefix_cons] at this
    exact hpre (by rw [this.1]; simp)

end recs

/-- a piece of content which isn't the first one begins with a line beginning like a record, at the beginning of a line -/
theorem cuts_heads (hpre : nl ∉ pre) (n : Nat) (w : Bytes) (hn : w.length < n) (x : Bytes) (hx : x ∈ (cuts pre w).tail) :
    startsLine pre x = true ∧ ∃ u v, w = u ++ [nl] ++ x ++ v := by
  induction n generalizing w with
  | zero => omega
  | succ n ih =>
    by_cases hw : w = []
    · rw [hw, cuts_nil] at hx; simp at hx
    · rw [cuts_cons hw, List.tail_cons] at hx
      have hpos := firstEnd_pos (pre := pre) hw
      have hlen := List.length_pos_iff.2 hw
      by_cases hd : w.drop (firstEnd pre w) = []
      · rw [hd, cuts_nil] at hx; simp at hx
      · cases hs : searchFrom1 pre w with
        | none => exfalso; apply hd; simp [firstEnd, hs]
        | some p =>
          have hp : firstEnd pre w = p := by simp [firstEnd, hs]
          obtain ⟨hp2, hb, -⟩ := (searchFrom1_spec w).1 p hs
          have hsplit : w = (w.take (p - 1) ++ [nl]) ++ w.drop p := by
            have h1 : w.take p = w.take (p - 1) ++ [nl] := by
              conv_lhs => rw [show p = p - 1 + 1 by omega]
              rw [List.take_add_one, hb.2.1]; rfl
            rw [← h1, List.take_append_drop]
          rw [hp] at hx hd hpos
          rw [cuts_cons hd] at hx
          rcases List.mem_cons.1 hx with rfl | hx
          · constructor
            · -- the first line is in the piece
              have h3 := hb.2.2
              cases hs' : searchFrom1 pre (w.drop p) with
              | none => rw [firstEnd, hs', Option.getD_none, List.take_length]; exact h3
              | some q =>
                obtain ⟨hq2, hqb, -⟩ := (searchFrom1_spec _).1 q hs'
                simp only [firstEnd, hs', Option.getD_some]
                generalize w.drop p = y at h3 hqb
                refine startsLine_unmono hpre (t := y.drop q) ?_ (by rw [List.take_append_drop]; exact h3)
                have : (y.take q)[q - 1]? = some nl := by
                  rw [List.getElem?_take, if_pos (by omega)]; exact hqb.2.1
                exact List.mem_of_getElem? this
            · exact ⟨w.take (p - 1), (w.drop p).drop (firstEnd pre (w.drop p)), by
                rw [List.append_assoc, List.take_append_drop]; exact hsplit⟩
          · obtain ⟨h1, u, v, h2⟩ := ih (w.drop p) (by rw [List.length_drop]; omega) (by rw [cuts_cons hd]; exact hx)
            refine ⟨h1, w.take (p - 1) ++ [nl] ++ u, v, ?_⟩
            conv_lhs => rw [hsplit, h2]
            simp
/-- reading from an index on, if the lines before some records don't begin a record from the index on -/
theorem iterateStartingWith_after {α : Type} [LinearOrder α] {toIndex : Bytes → List α} {index : List α} {β : Type}
    {toObj : Bytes → Option β} {idx : β → List α} (hpre : nl ∉ pre) (hne : pre ≠ []) {sizes : Nat → Nat} {L0 : List Bytes}
    (hL0 : ∀ l ∈ L0, nl ∉ l ∧ ¬ (pre.isPrefixOf l ∧ index ≤ toIndex (l.drop pre.length))) {rs : List Rec} (hrs : ∀ r ∈ rs, r.Ok pre)
    (hobj : ∀ r ∈ rs, ∀ o, toObj (r.text pre) = some o → idx o = toIndex r.name)
    (hsort : rs.Pairwise fun a b => toIndex a.name < toIndex b.name) :
    iterateStartingWith pre sizes toIndex toObj idx index (joinLines L0 ++ texts pre rs) =
      (rs.filter fun r => index.isPrefixOf (toIndex r.name)).filterMap fun r => toObj (r.text pre) := by
  have hlen : (rs.flatMap (Rec.lines pre)).length ≤ (texts pre rs).length := by
    rw [texts_eq]
    exact length_joinLines _
  have hL : ∀ l ∈ L0 ++ rs.flatMap (Rec.lines pre), nl ∉ l := by
    intro l hl
    rcases List.mem_append.1 hl with hl | hl
    · exact (hL0 l hl).1
    obtain ⟨r, hr, hl⟩ := List.mem_flatMap.1 hl
    rcases List.mem_cons.1 hl with rfl | hl
    · intro h
      rcases List.mem_append.1 h with h | h
      · exact hpre h
      · exact (hrs r hr).name h
    · exact ((hrs r hr).body l hl).1
  obtain ⟨s', e, hs'⟩ := skipToIndex_spec (toIndex := toIndex) (index := index) (sizes := sizes) hpre hne hL ((joinLines L0 ++ texts pre rs).length + 1)
    (by have := length_joinLines L0; simp only [List.length_append]; omega) (open' (joinLines L0 ++ texts pre rs)) rfl
    (by rw [joinLines_append, ← texts_eq]; rfl)
  unfold iterateStartingWith
  simp only [e]
  have h0 : dropUntil pre toIndex index L0 = [] := by
    clear hL e hs' s' 
    induction L0 with
    | nil => rfl
    | cons l L ih =>
      rw [dropUntil, if_neg (hL0 l List.mem_cons_self).2]
      exact ih fun l hl => hL0 l (List.mem_cons_of_mem _ hl)
  rw [dropUntil_append, if_pos h0, dropUntil_recs hrs] at hs'
  -- records before the first one not less than `index` do not start with `index`
  have hfil : rs.filter (fun r => index.isPrefixOf (toIndex r.name)) =
      (rs.dropWhile fun r => ¬ index ≤ toIndex r.name).filter fun r => index.isPrefixOf (toIndex r.name) := by
    have hsplit := List.takeWhile_append_dropWhile (p := fun r : Rec => decide (¬ index ≤ toIndex r.name)) (l := rs)
    conv => lhs; rw [← hsplit]
    rw [List.filter_append, List.filter_eq_nil_iff.2, List.nil_append]
    intro r hr hp
    have := List.all_eq_true.1 (List.all_takeWhile (p := fun r : Rec => decide (¬ index ≤ toIndex r.name)) (l := rs)) r hr
    rw [List.isPrefixOf_iff_prefix] at hp
    simp only [decide_eq_true_eq] at this
    exact this (prefix_le hp)
  have hsub := List.dropWhile_sublist (fun r : Rec => decide (¬ index ≤ toIndex r.name)) (l := rs)
  have hge : ∀ r ∈ rs.dropWhile (fun r => ¬ index ≤ toIndex r.name), index ≤ toIndex r.name := by
    have hpw := hsort.sublist hsub
    cases hd : rs.dropWhile (fun r => ¬ index ≤ toIndex r.name) with
    | nil => simp
    | cons r0 rs0 =>
      have h0 : index ≤ toIndex r0.name := by
        have := List.head?_dropWhile_not (fun r : Rec => decide (¬ index ≤ toIndex r.name)) rs
        rw [hd] at this
        simpa using this
      rw [hd] at hpw
      intro r hr
      rcases List.mem_cons.1 hr with rfl | hr
      · exact h0
      · exact h0.trans (le_of_lt ((List.pairwise_cons.1 hpw).1 r hr))
  by_cases hnil : rs.dropWhile (fun r => ¬ index ≤ toIndex r.name) = []
  · rw [hnil] at hs' hfil
    simp only [List.flatMap_nil, if_true] at hs'
    rw [if_pos hs', hfil]
    rfl
  · rw [if_neg] at hs'
    · rw [if_neg (by rw [hs'.1]; simp), hfil]
      refine startingLoop_spec hpre hne (fun r hr => hrs r (hsub.subset hr)) (fun r hr => hobj r (hsub.subset hr)) hge
        (hsort.sublist hsub) _ ?_ hnil s' hs'.1 (hs'.2.trans (texts_eq _).symm)
      have := hsub.length_le
      have := length_texts (pre := pre) rs
      simp only [List.length_append]
      omega
    · intro h
      apply hnil
      cases hd : rs.dropWhile (fun r => ¬ index ≤ toIndex r.name) with
      | nil => rfl
      | cons r0 rs0 => rw [hd] at h; simp [Rec.lines] at h


end Verif.FlatFile
