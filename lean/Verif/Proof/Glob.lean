import Verif.Model.Glob
import Verif.Spec.Glob
import Mathlib.Data.List.Infix
/- Globs: the regular expression matches what the glob stands for; prefixes of the glob match the directories above. -/
namespace Verif.Glob
open Verif.Spec.Glob (Like ClassText InSet InClass Expands Covers)

/-! ### characters -/

theorem sameChar_iff (fold : Bool) (a b : Byte) : sameChar fold a b = true ↔ Like fold a b := by
  cases fold with
  | false => simp [sameChar, Like]
  | true =>
    simp only [sameChar, Like, if_true, decide_eq_true_eq, true_and]
    simp only [lower]
    constructor
    · intro h
      split at h <;> split at h
      · left; have := congrArg (· - 32) h; simpa [UInt8.add_sub_cancel] using this
      · next h1 h2 => right; left; exact ⟨h1.1, h1.2, h.symm⟩
      · next h1 h2 => right; right; exact ⟨h2.1, h2.2, h⟩
      · exact .inl h
    · have key : ∀ a : Byte, 65 ≤ a → a ≤ 90 → ¬ (65 ≤ a + 32 ∧ a + 32 ≤ 90) := by
        intro a h1 h2
        have h1' : 65 ≤ a.toNat := by simpa [UInt8.le_iff_toNat_le] using h1
        have h2' : a.toNat ≤ 90 := by simpa [UInt8.le_iff_toNat_le] using h2
        have : (a + 32).toNat = a.toNat + 32 := by rw [UInt8.toNat_add]; simp; omega
        simp only [UInt8.le_iff_toNat_le, this]
        simp
        omega
      rintro (rfl | ⟨h1, h2, rfl⟩ | ⟨h1, h2, rfl⟩)
      · rfl
      · rw [if_pos ⟨h1, h2⟩, if_neg (key a h1 h2)]
      · rw [if_neg (key b h1 h2), if_pos ⟨h1, h2⟩]

theorem ranges_spec (body : Bytes) {rs : List (Byte × Byte)} (h : ranges body = some rs) (c : Byte) :
    InSet body c ↔ ∃ r ∈ rs, r.1 ≤ c ∧ c ≤ r.2 := by
  have eqc : ∀ x : Byte, (x ≤ c ∧ c ≤ x) ↔ c = x := by
    intro x
    constructor
    · rintro ⟨h1, h2⟩; exact UInt8.le_antisymm h2 h1
    · rintro rfl; exact ⟨UInt8.le_refl _, UInt8.le_refl _⟩
  have inset_char : ∀ (x : Byte) (r : Bytes), (∀ z r', r ≠ 45 :: z :: r') → (InSet (x :: r) c ↔ c = x ∨ InSet r c) := by
    intro x r hr
    constructor
    · intro h
      cases h with
      | range => exact absurd rfl (hr _ _)
      | afterRange => exact absurd rfl (hr _ _)
      | char => exact .inl rfl
      | afterChar _ h => exact .inr h
    · rintro (rfl | h)
      · exact .char hr
      · exact .afterChar hr h
  have inset_nil : ¬ InSet [] c := by intro h; cases h
  induction body using ranges.induct generalizing rs with
  | case1 => simp [ranges] at h; subst h; simp [inset_nil]
  | case2 x => simp [ranges] at h; subst h; rw [inset_char x [] (by simp)]; simp [inset_nil, eqc]
  | case3 x y =>
    simp [ranges] at h; subst h
    rw [inset_char x [y] (by simp), inset_char y [] (by simp)]
    simp [inset_nil, eqc]
  | case4 x z r hz =>
    simp [ranges, hz] at h
  | case5 x z r hz ih =>
    rw [ranges, if_pos rfl, if_neg hz, Option.map_eq_some_iff] at h
    obtain ⟨rs', h1, rfl⟩ := h
    have ih := ih h1
    constructor
    · intro h
      cases h with
      | range h1 h2 => exact ⟨_, List.mem_cons_self, h1, h2⟩
      | afterRange h => obtain ⟨r, hr, h⟩ := ih.1 h; exact ⟨r, List.mem_cons_of_mem _ hr, h⟩
      | char h => exact absurd rfl (h _ _)
      | afterChar h => exact absurd rfl (h _ _)
    · rintro ⟨r', hr, h⟩
      rcases List.mem_cons.1 hr with rfl | hr
      · exact .range h.1 h.2
      · exact .afterRange (ih.2 ⟨r', hr, h⟩)
  | case6 x y z r hy ih =>
    rw [ranges, if_neg hy, Option.map_eq_some_iff] at h
    obtain ⟨rs', h1, rfl⟩ := h
    have ih' : InSet (y :: z :: r) c ↔ ∃ r ∈ rs', r.1 ≤ c ∧ c ≤ r.2 := ih h1
    rw [inset_char x (y :: z :: r) (by intro z' r' h; simp at h; exact hy h.1), ih']
    simp [eqc]

theorem inClass_iff (fold neg : Bool) (body : Bytes) (h : (ranges body).isSome) (c : Byte) :
    (inClass fold body c != neg) = true ↔ InClass fold neg body c := by
  obtain ⟨rs, hrs⟩ := Option.isSome_iff_exists.1 h
  have e : inClass fold body c = true ↔ ∃ x, Like fold x c ∧ InSet body x := by
    simp only [inClass, hrs, Option.getD_some, List.any_eq_true, List.mem_range, Bool.and_eq_true, decide_eq_true_eq, ranges_spec body hrs]
    constructor
    · rintro ⟨r, hr, x, hx, ⟨h1, h2⟩, h3⟩
      have ex : (UInt8.ofNat x).toNat = x := by rw [UInt8.toNat_ofNat']; omega
      refine ⟨UInt8.ofNat x, (sameChar_iff _ _ _).1 h3, r, hr, ?_, ?_⟩ <;> rw [UInt8.le_iff_toNat_le, ex] <;> assumption
    · rintro ⟨x, h1, r, hr, h2, h3⟩
      refine ⟨r, hr, x.toNat, UInt8.toNat_lt x, ⟨UInt8.le_iff_toNat_le.1 h2, UInt8.le_iff_toNat_le.1 h3⟩, ?_⟩
      rw [UInt8.ofNat_toNat]
      exact (sameChar_iff _ _ _).2 h1
  unfold InClass
  rw [← e]
  cases neg <;> cases inClass fold body c <;> simp

/-! ### the regular expression -/

inductive TM (fold : Bool) : List Tok → Bytes → Prop
  | nil : TM fold [] []
  | any {ts s} (t : Bytes) : TM fold ts s → TM fold (.any :: ts) (t ++ s)
  | star {ts s} (t : Bytes) : 47 ∉ t → TM fold ts s → TM fold (.star :: ts) (t ++ s)
  | one {ts s} (c : Byte) : c ≠ 47 → TM fold ts s → TM fold (.one :: ts) (c :: s)
  | lit {ts s} {c d : Byte} : sameChar fold c d = true → TM fold ts s → TM fold (.lit c :: ts) (d :: s)
  | cls {ts s} {neg : Bool} {body : Bytes} {c : Byte} : (inClass fold body c != neg) = true → TM fold ts s → TM fold (.cls neg body :: ts) (c :: s)

theorem starLoop_iff (p : Byte → Bool) (m : Bytes → Bool) (s : Bytes) :
    starLoop p m s = true ↔ ∃ t r, s = t ++ r ∧ (∀ c ∈ t, p c = true) ∧ m r = true := by
  induction s with
  | nil =>
    rw [starLoop]
    constructor
    · intro h; exact ⟨[], [], rfl, by simp, h⟩
    · rintro ⟨t, r, h, -, hm⟩
      have := List.append_eq_nil_iff.1 h.symm
      rw [this.2] at hm; exact hm
  | cons c s ih =>
    rw [starLoop, Bool.or_eq_true, Bool.and_eq_true, ih]
    constructor
    · rintro (h | ⟨hc, t, r, rfl, ht, hm⟩)
      · exact ⟨[], c :: s, rfl, by simp, h⟩
      · refine ⟨c :: t, r, rfl, ?_, hm⟩
        intro x hx
        rcases List.mem_cons.1 hx with rfl | hx
        exacts [hc, ht x hx]
    · rintro ⟨t, r, h, ht, hm⟩
      cases t with
      | nil => left; rw [h]; exact hm
      | cons x t =>
        simp only [List.cons_append, List.cons.injEq] at h
        obtain ⟨rfl, rfl⟩ := h
        exact .inr ⟨ht c List.mem_cons_self, t, r, rfl, fun y hy => ht y (List.mem_cons_of_mem _ hy), hm⟩

theorem rmatch_iff (fold : Bool) (k : Bytes → Bool) (ts : List Tok) (s : Bytes) :
    rmatch fold k ts s = true ↔ ∃ m r, s = m ++ r ∧ TM fold ts m ∧ k r = true := by
  induction ts generalizing s with
  | nil =>
    rw [rmatch]
    constructor
    · intro h; exact ⟨[], s, rfl, .nil, h⟩
    · rintro ⟨m, r, rfl, hm, hk⟩; cases hm; exact hk
  | cons t ts ih =>
    cases t with
    | any =>
      rw [rmatch, starLoop_iff]
      simp only [ih]
      constructor
      · rintro ⟨t, _, rfl, -, m, r, rfl, hm, hk⟩; exact ⟨t ++ m, r, by simp, .any t hm, hk⟩
      · rintro ⟨m, r, rfl, hm, hk⟩
        cases hm with
        | any t hm => exact ⟨t, _, by rw [List.append_assoc], by simp, _, r, rfl, hm, hk⟩
    | star =>
      rw [rmatch, starLoop_iff]
      simp only [ih, ne_eq, decide_not, Bool.not_eq_eq_eq_not, Bool.not_true, decide_eq_false_iff_not]
      constructor
      · rintro ⟨t, _, rfl, ht, m, r, rfl, hm, hk⟩; exact ⟨t ++ m, r, by simp, .star t (fun h => ht _ h rfl) hm, hk⟩
      · rintro ⟨m, r, rfl, hm, hk⟩
        cases hm with
        | star t ht hm => exact ⟨t, _, by rw [List.append_assoc], fun c hc h => ht (h ▸ hc), _, r, rfl, hm, hk⟩
    | one =>
      cases s with
      | nil =>
        rw [rmatch]
        simp only [Bool.false_eq_true, false_iff]
        rintro ⟨m, r, h, hm, -⟩
        cases hm; simp at h
      | cons d s =>
        simp only [rmatch, Bool.and_eq_true, ih, decide_eq_true_eq]
        constructor
        · rintro ⟨hd, m, r, rfl, hm, hk⟩; exact ⟨d :: m, r, rfl, .one d hd hm, hk⟩
        · rintro ⟨m, r, h, hm, hk⟩
          cases hm with
          | one c hc hm =>
            simp only [List.cons_append, List.cons.injEq] at h
            obtain ⟨rfl, rfl⟩ := h
            exact ⟨hc, _, r, rfl, hm, hk⟩
    | lit c =>
      cases s with
      | nil =>
        rw [rmatch]
        simp only [Bool.false_eq_true, false_iff]
        rintro ⟨m, r, h, hm, -⟩
        cases hm; simp at h
      | cons d s =>
        simp only [rmatch, Bool.and_eq_true, ih]
        constructor
        · rintro ⟨hd, m, r, rfl, hm, hk⟩; exact ⟨d :: m, r, rfl, .lit hd hm, hk⟩
        · rintro ⟨m, r, h, hm, hk⟩
          cases hm with
          | lit hc hm =>
            simp only [List.cons_append, List.cons.injEq] at h
            obtain ⟨rfl, rfl⟩ := h
            exact ⟨hc, _, r, rfl, hm, hk⟩
    | cls neg body =>
      cases s with
      | nil =>
        rw [rmatch]
        simp only [Bool.false_eq_true, false_iff]
        rintro ⟨m, r, h, hm, -⟩
        cases hm; simp at h
      | cons d s =>
        simp only [rmatch, Bool.and_eq_true, ih]
        constructor
        · rintro ⟨hd, m, r, rfl, hm, hk⟩; exact ⟨d :: m, r, rfl, .cls hd hm, hk⟩
        · rintro ⟨m, r, h, hm, hk⟩
          cases hm with
          | cls hc hm =>
            simp only [List.cons_append, List.cons.injEq] at h
            obtain ⟨rfl, rfl⟩ := h
            exact ⟨hc, _, r, rfl, hm, hk⟩

/-! ### classes in the text -/

theorem findIdx_split {l a b : Bytes} (h : l = a ++ 93 :: b) (ha : 93 ∉ a) : l.findIdx? (· = 93) = some a.length := by
  subst h
  induction a with
  | nil => simp [List.findIdx?_cons]
  | cons x a ih =>
    have hx : x ≠ 93 := fun h => ha (by simp [h])
    rw [List.cons_append, List.findIdx?_cons, if_neg (by simpa using hx), ih fun h => ha (List.mem_cons_of_mem _ h)]
    simp

theorem split_findIdx {l : Bytes} {k : Nat} (h : l.findIdx? (· = 93) = some k) : l = l.take k ++ 93 :: l.drop (k + 1) ∧ 93 ∉ l.take k := by
  obtain ⟨h1, h2, h3⟩ := List.findIdx?_eq_some_iff_getElem.1 h
  have h2' : l[k] = 93 := by simpa using h2
  refine ⟨?_, ?_⟩
  · conv_lhs => rw [← List.take_append_drop k l]
    rw [List.drop_eq_getElem_cons h1, h2']
  · intro hm
    obtain ⟨i, hi, e⟩ := List.getElem_of_mem hm
    have hik : i < k := by simp at hi; omega
    have := h3 i hik
    rw [List.getElem_take] at e
    simp [e] at this

/-- the text up to the closing bracket -/
def close (r : Bytes) : Option (Bytes × Bytes) :=
  match (r.drop (if r[0]? = some 93 then 1 else 0)).findIdx? (· = 93) with
  | none => none
  | some k => some (r.take ((if r[0]? = some 93 then 1 else 0) + k), r.drop ((if r[0]? = some 93 then 1 else 0) + k + 1))

theorem close_iff (r body p : Bytes) : close r = some (body, p) ↔ r = body ++ 93 :: p ∧ ∃ b bs, body = b :: bs ∧ 93 ∉ bs := by
  constructor
  · intro h
    cases r with
    | nil => simp [close] at h
    | cons x r =>
      by_cases hx : x = 93
      · subst hx
        simp only [close, List.getElem?_cons_zero, if_true, List.drop_succ_cons, List.drop_zero] at h
        split at h
        · simp at h
        · next k hk =>
          obtain ⟨h1, h2⟩ := split_findIdx hk
          simp only [Option.some.injEq, Prod.mk.injEq, Nat.add_comm 1 k, List.take_succ_cons] at h
          obtain ⟨rfl, rfl⟩ := h
          exact ⟨by rw [List.cons_append, ← h1], _, _, rfl, h2⟩
      · simp only [close, List.getElem?_cons_zero, Option.some.injEq, hx, if_false, List.drop_zero, Nat.zero_add] at h
        split at h
        · simp at h
        · next k hk =>
          obtain ⟨h1, h2⟩ := split_findIdx hk
          obtain ⟨rfl, rfl⟩ := Prod.mk.inj (Option.some.inj h)
          refine ⟨h1, ?_⟩
          cases k with
          | zero => simp at h1; exact absurd h1 hx
          | succ k => exact ⟨x, r.take k, by simp, fun h => h2 (by simp [h])⟩
  · rintro ⟨rfl, b, bs, rfl, hb⟩
    by_cases hx : b = 93
    · subst hx
      simp only [close, List.cons_append, List.getElem?_cons_zero, if_true, List.drop_succ_cons, List.drop_zero]
      rw [findIdx_split rfl hb]
      simp [Nat.add_comm 1]
    · simp only [close, List.cons_append, List.getElem?_cons_zero, Option.some.injEq, hx, if_false, List.drop_zero]
      rw [← List.cons_append, findIdx_split rfl (by simp [hb, Ne.symm hx])]
      simp

theorem classEnd_neg {x : Byte} (hx : x = 33 ∨ x = 94) (r : Bytes) : classEnd (x :: r) = (close r).map fun a => (x :: a.1, a.2) := by
  have h : (x :: r).head? = some 33 ∨ (x :: r).head? = some 94 := by simpa using hx
  simp only [classEnd, close, if_pos h, List.getElem?_cons_succ]
  have e : (x :: r).drop (if r[0]? = some 93 then 1 + 1 else 1) = r.drop (if r[0]? = some 93 then 1 else 0) := by split <;> simp
  rw [e]
  cases (r.drop (if r[0]? = some 93 then 1 else 0)).findIdx? (· = 93) with
  | none => rfl
  | some k =>
    by_cases h9 : r[0]? = some 93
    · simp only [if_pos h9, Option.map_some]
      rw [show 1 + 1 + k = (1 + k) + 1 by omega, List.take_succ_cons, List.drop_succ_cons]
    · simp only [if_neg h9, Option.map_some]
      rw [show 1 + k = (0 + k) + 1 by omega, List.take_succ_cons, List.drop_succ_cons]

theorem classEnd_pos {r : Bytes} (h : ¬ (r.head? = some 33 ∨ r.head? = some 94)) : classEnd r = close r := by
  simp only [classEnd, close, if_neg h]
  rfl

theorem classEnd_text {r : Bytes} {neg : Bool} {body p : Bytes} (h : ClassText r neg body p) :
    ∃ stuff, classEnd r = some (stuff, p) ∧ mkClass stuff = .cls neg body := by
  obtain ⟨(⟨rfl, h⟩ | ⟨rfl, rfl, h1, h2⟩), hb⟩ := h
  · have : ∀ x : Byte, x = 33 ∨ x = 94 → r = x :: (body ++ 93 :: p) → ∃ stuff, classEnd r = some (stuff, p) ∧ mkClass stuff = .cls true body := by
      rintro x hx rfl
      refine ⟨x :: body, ?_, ?_⟩
      · rw [classEnd_neg hx, (close_iff _ _ _).2 ⟨rfl, hb⟩]; rfl
      · rw [mkClass, if_pos (by simpa using hx)]; rfl
    rcases h with h | h
    exacts [this 33 (.inl rfl) h, this 94 (.inr rfl) h]
  · obtain ⟨b, bs, rfl, hb⟩ := hb
    refine ⟨b :: bs, ?_, ?_⟩
    · rw [classEnd_pos (r := b :: bs ++ 93 :: p) (not_or.2 ⟨h1, h2⟩), (close_iff _ _ _).2 ⟨rfl, b, bs, rfl, hb⟩]
    · rw [mkClass, if_neg (not_or.2 ⟨h1, h2⟩)]

theorem text_classEnd {r stuff p : Bytes} (h : classEnd r = some (stuff, p)) : ∃ neg body, ClassText r neg body p ∧ mkClass stuff = .cls neg body := by
  by_cases hh : r.head? = some 33 ∨ r.head? = some 94
  · cases r with
    | nil => simp at hh
    | cons x r =>
      have hx : x = 33 ∨ x = 94 := by simpa using hh
      rw [classEnd_neg hx, Option.map_eq_some_iff] at h
      obtain ⟨⟨body, p'⟩, h1, h2⟩ := h
      simp only [Prod.mk.injEq] at h2
      obtain ⟨rfl, rfl⟩ := h2
      obtain ⟨rfl, hb⟩ := (close_iff _ _ _).1 h1
      refine ⟨true, body, ⟨.inl ⟨rfl, ?_⟩, hb⟩, ?_⟩
      · rcases hx with rfl | rfl
        exacts [.inl rfl, .inr rfl]
      · rw [mkClass, if_pos (by simpa using hx)]; rfl
  · rw [classEnd_pos hh] at h
    obtain ⟨rfl, b, bs, rfl, hb⟩ := (close_iff _ _ _).1 h
    have hh' : b ≠ 33 ∧ b ≠ 94 := by simpa using hh
    refine ⟨false, b :: bs, ⟨.inr ⟨rfl, rfl, by simpa using hh'.1, by simpa using hh'.2⟩, b, bs, rfl, hb⟩, ?_⟩
    rw [mkClass, if_neg (by simpa using hh')]

theorem no_text {r : Bytes} (h : classEnd r = none) (neg : Bool) (body p : Bytes) : ¬ ClassText r neg body p := by
  intro hc
  obtain ⟨stuff, h1, -⟩ := classEnd_text hc
  rw [h] at h1; simp at h1

theorem classEnd_none {r : Bytes} (h : ∀ neg body p, ¬ ClassText r neg body p) : classEnd r = none := by
  cases hc : classEnd r with
  | none => rfl
  | some a =>
    obtain ⟨neg, body, ht, -⟩ := text_classEnd (stuff := a.1) (p := a.2) hc
    exact absurd ht (h _ _ _)

/-! ### parts and globs -/

theorem parse_nil : parse [] = [] := by rw [parse.eq_def]
theorem parse_bs (c : Byte) (p : Bytes) : parse (92 :: c :: p) = .lit c :: parse p := by rw [parse.eq_def]; simp
theorem parse_bs_last : parse [92] = [.lit 92] := by rw [parse.eq_def]; simp
theorem parse_ss (p : Bytes) : parse (42 :: 42 :: p) = .any :: parse p := by rw [parse.eq_def]; simp
theorem parse_star {p : Bytes} (h : p.head? ≠ some 42) : parse (42 :: p) = .star :: parse p := by
  rw [parse.eq_def]
  cases p with
  | nil => simp [parse_nil]
  | cons d p => simp at h; simp [h]
theorem parse_q (p : Bytes) : parse (63 :: p) = .one :: parse p := by rw [parse.eq_def]; simp
theorem parse_other {c : Byte} (h1 : c ≠ 42) (h2 : c ≠ 63) (h3 : c ≠ 91) (h4 : c ≠ 92) (p : Bytes) : parse (c :: p) = .lit c :: parse p := by
  rw [parse.eq_def]; simp [h1, h2, h3, h4]
theorem parse_cls {r : Bytes} {neg : Bool} {body p : Bytes} (h : ClassText r neg body p) : parse (91 :: r) = .cls neg body :: parse p := by
  obtain ⟨stuff, h1, h2⟩ := classEnd_text h
  rw [parse.eq_def]
  simp only [show (91 : Byte) ≠ 92 by decide, show (91 : Byte) ≠ 42 by decide, show (91 : Byte) ≠ 63 by decide, if_false, if_true]
  split
  · next h => rw [h1] at h; simp at h
  · next h =>
    rw [h1] at h
    simp only [Option.some.injEq, Prod.mk.injEq] at h
    rw [← h.1, ← h.2, h2]
theorem parse_open {r : Bytes} (h : classEnd r = none) : parse (91 :: r) = .lit 91 :: parse r := by
  rw [parse.eq_def]
  simp only [show (91 : Byte) ≠ 92 by decide, show (91 : Byte) ≠ 42 by decide, show (91 : Byte) ≠ 63 by decide, if_false, if_true]
  split
  · rfl
  · next h' => rw [h] at h'; simp at h'

theorem like_special {fold : Bool} {c d : Byte} (h1 : 90 < c) (h2 : c < 97) (h : Like fold c d) : d = c := by
  rcases h with rfl | ⟨-, ⟨-, h, -⟩ | ⟨h3, h4, rfl⟩⟩
  · rfl
  · exact absurd h1 (UInt8.not_lt.2 h)
  · have h3' : 65 ≤ d.toNat := by simpa [UInt8.le_iff_toNat_le] using h3
    have h4' : d.toNat ≤ 90 := by simpa [UInt8.le_iff_toNat_le] using h4
    have e : (d + 32).toNat = d.toNat + 32 := by rw [UInt8.toNat_add]; simp; omega
    rw [UInt8.lt_iff_toNat_lt, e] at h2
    simp at h2
    omega
theorem sameChar_91 (fold : Bool) (d : Byte) : sameChar fold 91 d = true ↔ d = 91 := by
  rw [sameChar_iff]
  exact ⟨like_special (by decide) (by decide), fun h => .inl h.symm⟩
theorem sameChar_92 (fold : Bool) (d : Byte) : sameChar fold 92 d = true ↔ d = 92 := by
  rw [sameChar_iff]
  exact ⟨like_special (by decide) (by decide), fun h => .inl h.symm⟩

theorem TM_of_expands {fold : Bool} {g m : Bytes} (hc : compiles (parse g) = true) (h : Expands fold g m) : TM fold (parse g) m := by
  induction h with
  | nil => rw [parse_nil]; exact .nil
  | starstar t _ ih => rw [parse_ss] at hc ⊢; exact .any t (ih (by simpa [compiles] using hc))
  | star t h1 h2 _ ih => rw [parse_star h1] at hc ⊢; exact .star t h2 (ih (by simpa [compiles] using hc))
  | question c h1 _ ih => rw [parse_q] at hc ⊢; exact .one c h1 (ih (by simpa [compiles] using hc))
  | backslash h1 _ ih => rw [parse_bs] at hc ⊢; exact .lit ((sameChar_iff _ _ _).2 h1) (ih (by simpa [compiles] using hc))
  | lastBackslash => rw [parse_bs_last]; exact .lit ((sameChar_92 _ _).2 rfl) .nil
  | cls h1 h2 _ ih =>
    rw [parse_cls h1] at hc ⊢
    simp only [compiles, List.all_cons, Bool.and_eq_true] at hc
    exact .cls ((inClass_iff _ _ _ hc.1 _).2 h2) (ih hc.2)
  | openBracket h1 _ ih =>
    rw [parse_open (classEnd_none h1)] at hc ⊢
    exact .lit ((sameChar_91 _ _).2 rfl) (ih (by simpa [compiles] using hc))
  | other h1 h2 h3 h4 h5 _ ih =>
    rw [parse_other h1 h2 h3 h4] at hc ⊢
    exact .lit ((sameChar_iff _ _ _).2 h5) (ih (by simpa [compiles] using hc))

theorem expands_of_TM {fold : Bool} (n : Nat) : ∀ {g m : Bytes}, g.length ≤ n → compiles (parse g) = true → TM fold (parse g) m → Expands fold g m := by
  induction n with
  | zero =>
    intro g m hn hc h
    obtain rfl : g = [] := List.length_eq_zero_iff.1 (by omega)
    rw [parse_nil] at h; cases h; exact .nil
  | succ n ih =>
    intro g m hn hc h
    cases g with
    | nil => rw [parse_nil] at h; cases h; exact .nil
    | cons c p =>
      have hp : p.length ≤ n := by simpa using hn
      by_cases h92 : c = 92
      · subst h92
        cases p with
        | nil =>
          rw [parse_bs_last] at h
          cases h with
          | lit h1 h2 => cases h2; rw [(sameChar_92 _ _).1 h1]; exact .lastBackslash
        | cons d p =>
          rw [parse_bs] at h hc
          cases h with
          | lit h1 h2 => exact .backslash ((sameChar_iff _ _ _).1 h1) (ih (by simp at hp; omega) (by simpa [compiles] using hc) h2)
      by_cases h42 : c = 42
      · subst h42
        by_cases hh : p.head? = some 42
        · cases p with
          | nil => simp at hh
          | cons d p =>
            simp at hh; subst hh
            rw [parse_ss] at h hc
            cases h with
            | any t h2 => exact .starstar t (ih (by simp at hp; omega) (by simpa [compiles] using hc) h2)
        · rw [parse_star hh] at h hc
          cases h with
          | star t h1 h2 => exact .star t hh h1 (ih hp (by simpa [compiles] using hc) h2)
      by_cases h63 : c = 63
      · subst h63
        rw [parse_q] at h hc
        cases h with
        | one d h1 h2 => exact .question d h1 (ih hp (by simpa [compiles] using hc) h2)
      by_cases h91 : c = 91
      · subst h91
        cases hce : classEnd p with
        | none =>
          rw [parse_open hce] at h hc
          cases h with
          | lit h1 h2 => rw [(sameChar_91 _ _).1 h1]; exact .openBracket (no_text hce) (ih hp (by simpa [compiles] using hc) h2)
        | some a =>
          obtain ⟨stuff, q⟩ := a
          obtain ⟨neg, body, ht, -⟩ := text_classEnd hce
          have hl := classEnd_length hce
          rw [parse_cls ht] at h hc
          simp only [compiles, List.all_cons, Bool.and_eq_true] at hc
          cases h with
          | cls h1 h2 => exact .cls ht ((inClass_iff _ _ _ hc.1 _).1 h1) (ih (by omega) hc.2 h2)
      · rw [parse_other h42 h63 h91 h92] at h hc
        cases h with
        | lit h1 h2 => exact .other h42 h63 h91 h92 ((sameChar_iff _ _ _).1 h1) (ih hp (by simpa [compiles] using hc) h2)

theorem TM_iff {fold : Bool} {g m : Bytes} (hc : compiles (parse g) = true) : TM fold (parse g) m ↔ Expands fold g m :=
  ⟨expands_of_TM g.length (Nat.le_refl _) hc, TM_of_expands hc⟩

theorem globRe_iff {fold : Bool} {g : Bytes} (hc : compiles (parse g) = true) (s : Bytes) :
    globRe fold g s = true ↔ ∃ m r, s = m ++ r ∧ Expands fold g m ∧ (r = [] ∨ r = [10] ∨ r.head? = some 47) := by
  rw [globRe, rmatch_iff]
  simp only [TM_iff hc, Bool.or_eq_true, dollar, decide_eq_true_eq, or_assoc]

theorem covers_iff {fold : Bool} {g s : Bytes} : Covers fold g s ↔ ∃ m r, s = m ++ r ∧ Expands fold g m ∧ (r = [] ∨ r.head? = some 47) := by
  constructor
  · rintro (h | ⟨d, t, rfl, h⟩)
    · exact ⟨s, [], by simp, h, .inl rfl⟩
    · exact ⟨d, 47 :: t, rfl, h, .inr rfl⟩
  · rintro ⟨m, r, rfl, h, (rfl | hr)⟩
    · exact .inl (by simpa using h)
    · cases r with
      | nil => simp at hr
      | cons x r => simp at hr; subst hr; exact .inr ⟨m, r, rfl, h⟩

/-! ### directories above a match -/

/-- Globs for which the directories above a match are found: no `/` in a class, matched by a class or after a backslash, and no `**` which is
none (in a class, or an escaped `*` followed by `*`). -/
inductive Simple (fold : Bool) : Bytes → Prop
  | nil : Simple fold []
  | starstar {p : Bytes} : Simple fold p → Simple fold (42 :: 42 :: p)
  | star {p : Bytes} : p.head? ≠ some 42 → Simple fold p → Simple fold (42 :: p)
  | question {p : Bytes} : Simple fold p → Simple fold (63 :: p)
  | backslash {p : Bytes} {c : Byte} : c ≠ 47 → (c = 42 → p.head? ≠ some 42) → Simple fold p → Simple fold (92 :: c :: p)
  | cls {r p : Bytes} {neg : Bool} {body : Bytes} : ClassText r neg body p → ¬ [42, 42] <:+: body → ¬ InClass fold neg body 47 →
      Simple fold p → Simple fold (91 :: r)
  | other {p : Bytes} {c : Byte} : c ≠ 42 → c ≠ 63 → c ≠ 91 → c ≠ 92 → Simple fold p → Simple fold (c :: p)

theorem truncate_head (p : Bytes) : (truncate p).head? = p.head? := by
  cases p with
  | nil => rfl
  | cons c p =>
    rw [truncate]
    split
    · next h => simp [h.1]
    · rfl

theorem truncate_cons {c : Byte} {p : Bytes} (h : c = 42 → p.head? ≠ some 42) : truncate (c :: p) = c :: truncate p := by
  rw [truncate, if_neg (fun hx => h hx.1 hx.2)]

theorem truncate_append {a p : Bytes} {x : Byte} (h : ¬ [42, 42] <:+: a) (hx : x ≠ 42) : truncate (a ++ x :: p) = a ++ x :: truncate p := by
  induction a with
  | nil => rw [List.nil_append, truncate_cons (fun h => absurd h hx)]; rfl
  | cons c a ih =>
    rw [List.cons_append, truncate_cons, ih]
    · rfl
    · intro hi; exact h (hi.trans (List.suffix_cons _ _).isInfix)
    · rintro rfl hh
      cases a with
      | nil => simp at hh; exact hx hh
      | cons d a =>
        simp at hh; subst hh
        exact h ⟨[], a, rfl⟩

theorem like_slash {fold : Bool} {c : Byte} (h : Like fold c 47) : c = 47 := by
  rcases h with rfl | ⟨-, ⟨h3, h4, h⟩ | ⟨h3, -, -⟩⟩
  · rfl
  · have h3' : 65 ≤ c.toNat := by simpa [UInt8.le_iff_toNat_le] using h3
    have h4' : c.toNat ≤ 90 := by simpa [UInt8.le_iff_toNat_le] using h4
    have e : (c + 32).toNat = c.toNat + 32 := by rw [UInt8.toNat_add]; simp; omega
    rw [← h] at e
    simp at e
    omega
  · exact absurd h3 (by decide)

theorem text_swap {r : Bytes} {neg : Bool} {body p : Bytes} (h : ClassText r neg body p) (q : Bytes) :
    ∃ a, r = a ++ 93 :: p ∧ ClassText (a ++ 93 :: q) neg body q ∧ (¬ [42, 42] <:+: body → ¬ [42, 42] <:+: a) := by
  obtain ⟨(⟨rfl, h⟩ | ⟨rfl, rfl, h1, h2⟩), hb⟩ := h
  · have key : ∀ x : Byte, x = 33 ∨ x = 94 → (¬ [42, 42] <:+: body → ¬ [42, 42] <:+: x :: body) := by
      intro x hx hb hi
      rcases List.infix_cons_iff.1 hi with hi | hi
      · rw [List.cons_prefix_cons] at hi
        rw [← hi.1] at hx
        exact absurd hx (by decide)
      · exact hb hi
    rcases h with rfl | rfl
    · exact ⟨33 :: body, rfl, ⟨.inl ⟨rfl, .inl rfl⟩, hb⟩, key _ (.inl rfl)⟩
    · exact ⟨94 :: body, rfl, ⟨.inl ⟨rfl, .inr rfl⟩, hb⟩, key _ (.inr rfl)⟩
  · exact ⟨body, rfl, ⟨.inr ⟨rfl, rfl, h1, h2⟩, hb⟩, id⟩

theorem text_unique {r : Bytes} {neg neg' : Bool} {body body' p p' : Bytes} (h : ClassText r neg body p) (h' : ClassText r neg' body' p') :
    neg = neg' ∧ body = body' ∧ p = p' := by
  obtain ⟨s, h1, h2⟩ := classEnd_text h
  obtain ⟨s', h1', h2'⟩ := classEnd_text h'
  rw [h1] at h1'
  simp only [Option.some.injEq, Prod.mk.injEq] at h1'
  rw [h1'.1, h2'] at h2
  simp only [Tok.cls.injEq] at h2
  exact ⟨h2.1.symm, h2.2.symm, h1'.2⟩

/-- a directory above an expansion is an expansion of a part of the glob before a `/`, or of the glob up to the first `**` -/
theorem above {fold : Bool} {g m : Bytes} (hs : Simple fold g) (h : Expands fold g m) (d t : Bytes) (hm : m = d ++ 47 :: t) :
    (∃ p, (p ++ [47]) <+: truncate g ∧ Expands fold p d) ∨ Expands fold (truncate g) d := by
  induction h generalizing d with
  | nil => simp at hm
  | @starstar p s t' _ ih =>
    right
    rw [show truncate (42 :: 42 :: p) = [42, 42] by rw [truncate]; simp]
    have := Expands.starstar (fold := fold) d Expands.nil
    simpa using this
  | @star p s t' h1 h2 h3 ih =>
    have hs' : Simple fold p := by
      cases hs with
      | starstar => simp at h1
      | star _ h => exact h
      | other h => exact absurd rfl h
    have hd : ∃ d', d = t' ++ d' ∧ s = d' ++ 47 :: t := by
      rcases List.append_eq_append_iff.1 hm with ⟨a, h4, h5⟩ | ⟨a, h4, h5⟩
      · exact ⟨a, h4, h5⟩
      · cases a with
        | nil => exact ⟨[], by simpa using h4.symm, by simpa using h5.symm⟩
        | cons x a =>
          simp at h5
          exact absurd (by rw [h4, ← h5.1]; simp) h2
    obtain ⟨d', rfl, rfl⟩ := hd
    rw [truncate_cons fun _ => h1]
    rcases ih hs' d' rfl with ⟨q, hq, he⟩ | he
    · left
      refine ⟨42 :: q, by simpa [List.cons_prefix_cons] using hq, .star t' ?_ h2 he⟩
      intro hh
      cases q with
      | nil => simp at hh
      | cons x q =>
        simp at hh; subst hh
        have := truncate_head p
        obtain ⟨u, hu⟩ := hq
        rw [← hu] at this
        simp at this
        exact h1 this.symm
    · exact .inr (.star t' (by rw [truncate_head]; exact h1) h2 he)
  | @question p s c h1 h2 ih =>
    have hs' : Simple fold p := by
      cases hs with
      | question h => exact h
      | other _ h => exact absurd rfl h
    rw [truncate_cons (fun h => absurd h (by decide))]
    cases d with
    | nil => simp at hm; exact absurd hm.1 h1
    | cons x d =>
      simp at hm
      obtain ⟨rfl, rfl⟩ := hm
      rcases ih hs' d rfl with ⟨q, hq, he⟩ | he
      · exact .inl ⟨63 :: q, by simpa [List.cons_prefix_cons] using hq, .question c h1 he⟩
      · exact .inr (.question c h1 he)
  | @backslash p s c d' h1 h2 ih =>
    obtain ⟨hc, hcc, hs'⟩ : c ≠ 47 ∧ (c = 42 → p.head? ≠ some 42) ∧ Simple fold p := by
      cases hs with
      | backslash h1 h2 h3 => exact ⟨h1, h2, h3⟩
      | other _ _ _ h => exact absurd rfl h
    rw [truncate_cons (fun h => absurd h (by decide)), truncate_cons hcc]
    cases d with
    | nil => simp at hm; rw [hm.1] at h1; exact absurd (like_slash h1) hc
    | cons x d =>
      simp at hm
      obtain ⟨rfl, rfl⟩ := hm
      rcases ih hs' d rfl with ⟨q, hq, he⟩ | he
      · exact .inl ⟨92 :: c :: q, by simpa [List.cons_prefix_cons] using hq, .backslash h1 he⟩
      · exact .inr (.backslash h1 he)
  | lastBackslash =>
    cases d with
    | nil => simp at hm
    | cons x d => simp at hm
  | @cls r p s neg body c h1 h2 h3 ih =>
    obtain ⟨hn, hc, hs'⟩ : ¬ [42, 42] <:+: body ∧ ¬ InClass fold neg body 47 ∧ Simple fold p := by
      cases hs with
      | cls h1' h2 h3 h4 =>
        obtain ⟨rfl, rfl, rfl⟩ := text_unique h1 h1'
        exact ⟨h2, h3, h4⟩
      | other _ _ h => exact absurd rfl h
    obtain ⟨a, rfl, -, ha⟩ := text_swap h1 p
    rw [truncate_cons (fun h => absurd h (by decide)), truncate_append (ha hn) (by decide)]
    cases d with
    | nil => simp at hm; rw [hm.1] at h2; exact absurd h2 hc
    | cons x d =>
      simp at hm
      obtain ⟨rfl, rfl⟩ := hm
      have swap : ∀ q, ClassText (a ++ 93 :: q) neg body q := by
        intro q
        obtain ⟨a', h4, h5, -⟩ := text_swap h1 q
        rwa [← List.append_cancel_right h4] at h5
      rcases ih hs' d rfl with ⟨q, hq, he⟩ | he
      · refine .inl ⟨91 :: (a ++ 93 :: q), ?_, .cls (swap q) h2 he⟩
        simpa [List.cons_prefix_cons, List.append_assoc, List.prefix_append_right_inj] using hq
      · exact .inr (.cls (swap _) h2 he)
  | @openBracket p s h1 h2 ih =>
    cases hs with
    | cls h => exact absurd h (h1 _ _ _)
    | other _ _ h => exact absurd rfl h
  | @other p s c d' h1 h2 h3 h4 h5 h6 ih =>
    have hs' : Simple fold p := by
      cases hs with
      | starstar => exact absurd rfl h1
      | star => exact absurd rfl h1
      | question => exact absurd rfl h2
      | backslash => exact absurd rfl h4
      | cls => exact absurd rfl h3
      | other _ _ _ _ h => exact h
    rw [truncate_cons (fun h => absurd h h1)]
    cases d with
    | nil =>
      simp at hm
      obtain ⟨rfl, rfl⟩ := hm
      obtain rfl := like_slash h5
      exact .inl ⟨[], by simp, .nil⟩
    | cons x d =>
      simp at hm
      obtain ⟨rfl, rfl⟩ := hm
      rcases ih hs' d rfl with ⟨q, hq, he⟩ | he
      · exact .inl ⟨c :: q, by simpa [List.cons_prefix_cons] using hq, .other h1 h2 h3 h4 h5 he⟩
      · exact .inr (.other h1 h2 h3 h4 h5 he)

/-! ### the list of prefixes -/

theorem split_ne_nil (g : Bytes) : split g ≠ [] := by
  induction g with
  | nil => simp [split]
  | cons c g ih =>
    rw [split]
    split
    · simp
    · cases h : split g with
      | nil => exact absurd h ih
      | cons p ps => simp

theorem split_append (a b : Bytes) : split (a ++ 47 :: b) = split a ++ split b := by
  induction a with
  | nil => simp [split]
  | cons c a ih =>
    rw [List.cons_append, split, split, ih]
    split
    · rfl
    · cases h : split a with
      | nil => exact absurd h (split_ne_nil a)
      | cons p ps => rfl

theorem join_split (g : Bytes) : join (split g) = g := by
  induction g with
  | nil => rfl
  | cons c g ih =>
    rw [split]
    split
    · next h =>
      subst h
      cases hs : split g with
      | nil => exact absurd hs (split_ne_nil g)
      | cons p ps => rw [← hs]; rw [hs, join, ← hs, ih]; rfl; simp
    · cases hs : split g with
      | nil => exact absurd hs (split_ne_nil g)
      | cons p ps =>
        rw [hs] at ih
        cases ps with
        | nil => simp only [join] at ih ⊢; rw [ih]
        | cons q ps => simp only [join, List.cons_append] at ih ⊢; rw [ih]

theorem mem_prefixes {g : Bytes} {ps : List Bytes} (h : prefixes g = some ps) {p : Bytes} (hp : p = g ∨ (p ++ [47]) <+: g) (hne : p ≠ [])
    (hd : isDrive p = false) : p ∈ ps := by
  simp only [prefixes] at h
  split at h
  · simp at h
  · simp only [Option.some.injEq] at h
    have hmem : p ∈ (List.range (split g).length).map fun i => join ((split g).take (i + 1)) := by
      rw [List.mem_map]
      have hpos : ∀ q : Bytes, 0 < (split q).length := fun q => List.length_pos_of_ne_nil (split_ne_nil q)
      rcases hp with rfl | ⟨u, rfl⟩
      · refine ⟨(split p).length - 1, by rw [List.mem_range]; have := hpos p; omega, ?_⟩
        have := hpos p
        rw [Nat.sub_add_cancel (by omega), List.take_length, join_split]
      · rw [List.append_assoc, List.singleton_append, split_append]
        refine ⟨(split p).length - 1, ?_, ?_⟩
        · rw [List.mem_range, List.length_append]; have := hpos p; omega
        · have := hpos p
          rw [Nat.sub_add_cancel (by omega), List.take_left, join_split]
    rw [← h]
    cases hps : (List.range (split g).length).map fun i => join ((split g).take (i + 1)) with
    | nil => rw [hps] at hmem; simp at hmem
    | cons q qs =>
      rw [hps] at hmem
      rcases List.mem_cons.1 hmem with rfl | hq
      · simp [hne, hd]
      · simp [hq]

end Verif.Glob
