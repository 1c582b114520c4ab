import Verif.Spec.Attrs
import Verif.Proof.MetaFile
import Verif.Props.C16
/-
Lemmas about extended attributes and access control lists.
-/
namespace Verif.Attrs
open Verif Verif.Quoting Verif.FlatFile Verif.MetaRecord Verif.Collate

/-! ### base64 -/

theorem b64_char : ∀ n < 64, b64val (b64char n) = some n ∧ b64char n ≠ 61 ∧ AclQuote.isSpace (b64char n) = false := by decide +kernel

theorem b64_step {n : Nat} (h : n < 64) (quad left pads : Nat) (r : Bytes) :
    b64loop quad left pads (b64char n :: r) =
      if quad = 0 then b64loop 1 n 0 r
      else if quad = 1 then (b64loop 2 (n % 16) 0 r).map (UInt8.ofNat (left * 4 + n / 16) :: ·)
      else if quad = 2 then (b64loop 3 (n % 4) 0 r).map (UInt8.ofNat (left * 16 + n / 4) :: ·)
      else (b64loop 0 0 0 r).map (UInt8.ofNat (left * 64 + n) :: ·) := by
  obtain ⟨h1, h2, -⟩ := b64_char n h
  rw [b64loop, if_neg h2, h1]

theorem ofNat_eq {n : Nat} {a : UInt8} (h : n = a.toNat) : UInt8.ofNat n = a := by
  rw [h, UInt8.ofNat_toNat]

theorem b64_step0 {n : Nat} (h : n < 64) (left pads : Nat) (r : Bytes) : b64loop 0 left pads (b64char n :: r) = b64loop 1 n 0 r := by
  rw [b64_step h]; simp
theorem b64_step1 {n : Nat} (h : n < 64) (left pads : Nat) (r : Bytes) :
    b64loop 1 left pads (b64char n :: r) = (b64loop 2 (n % 16) 0 r).map (UInt8.ofNat (left * 4 + n / 16) :: ·) := by
  rw [b64_step h, if_neg (by decide), if_pos rfl]
theorem b64_step2 {n : Nat} (h : n < 64) (left pads : Nat) (r : Bytes) :
    b64loop 2 left pads (b64char n :: r) = (b64loop 3 (n % 4) 0 r).map (UInt8.ofNat (left * 16 + n / 4) :: ·) := by
  rw [b64_step h, if_neg (by decide), if_neg (by decide), if_pos rfl]
theorem b64_step3 {n : Nat} (h : n < 64) (left pads : Nat) (r : Bytes) :
    b64loop 3 left pads (b64char n :: r) = (b64loop 0 0 0 r).map (UInt8.ofNat (left * 64 + n) :: ·) := by
  rw [b64_step h, if_neg (by decide), if_neg (by decide), if_neg (by decide)]

theorem b64_decode (s : Bytes) : b64decode (b64encode s) = some s := by
  unfold b64decode
  induction s using b64encode.induct with
  | case1 => rfl
  | case2 a =>
    have ha := a.toNat_lt
    have h2 : ∀ x, b64loop 2 x 0 [61, 61] = some [] := fun x => by simp [b64loop]
    rw [b64encode, b64_step0 (by omega), b64_step1 (by omega), h2, Option.map_some, ofNat_eq (a := a) (by omega)]
  | case3 a b =>
    have ha := a.toNat_lt
    have hb := b.toNat_lt
    have h3 : ∀ x, b64loop 3 x 0 [61] = some [] := fun x => by simp [b64loop]
    rw [b64encode, b64_step0 (by omega), b64_step1 (by omega), b64_step2 (by omega), h3, Option.map_some, Option.map_some,
      ofNat_eq (a := a) (by omega), ofNat_eq (a := b) (by omega)]
  | case4 a b c r ih =>
    have ha := a.toNat_lt
    have hb := b.toNat_lt
    have hc := c.toNat_lt
    rw [b64encode, b64_step0 (by omega), b64_step1 (by omega), b64_step2 (by omega), b64_step3 (by omega), ih, Option.map_some,
      Option.map_some, Option.map_some, ofNat_eq (a := a) (by omega), ofNat_eq (a := b) (by omega), ofNat_eq (a := c) (by omega)]

theorem b64_chars (s : Bytes) : ∀ c ∈ b64encode s, AclQuote.isSpace c = false := by
  have hc : ∀ n, n < 64 → AclQuote.isSpace (b64char n) = false := fun n h => (b64_char n h).2.2
  have he : AclQuote.isSpace 61 = false := by decide
  induction s using b64encode.induct with
  | case1 => simp [b64encode]
  | case2 a =>
    have ha := a.toNat_lt
    simp only [b64encode, List.mem_cons, List.not_mem_nil, or_false]
    rintro c (rfl | rfl | rfl | rfl) <;> first | exact he | exact hc _ (by omega)
  | case3 a b =>
    have ha := a.toNat_lt
    have hb := b.toNat_lt
    simp only [b64encode, List.mem_cons, List.not_mem_nil, or_false]
    rintro c (rfl | rfl | rfl | rfl) <;> first | exact he | exact hc _ (by omega)
  | case4 a b c r ih =>
    have ha := a.toNat_lt
    have hb := b.toNat_lt
    have hc' := c.toNat_lt
    simp only [b64encode, List.mem_cons]
    rintro x (rfl | rfl | rfl | rfl | h) <;> first | exact ih _ h | exact hc _ (by omega)

theorem b64_ne {s : Bytes} (h : s ≠ []) : b64encode s ≠ [] := by
  induction s using b64encode.induct <;> simp_all [b64encode]

/-! ### lines -/

theorem joinNl_eq (l : Bytes) (L : List Bytes) : joinNl (l :: L) ++ [nl] = joinLines (l :: L) := by
  induction L generalizing l with
  | nil => simp [joinNl]
  | cons m L ih => rw [joinNl, joinLines_cons, ← ih m]; simp

theorem splitOn_lines (L : List Bytes) (h : ∀ l ∈ L, nl ∉ l) : splitOn nl (joinLines L) = L ++ [[]] := by
  induction L with
  | nil => rfl
  | cons l L ih =>
    rw [joinLines_cons, splitOn_cons (h l (by simp)), ih fun l hl => h l (by simp [hl])]; rfl

theorem dropWhile_head {p : UInt8 → Bool} {l : Bytes} (h : ∀ c ∈ l.head?, p c = false) : l.dropWhile p = l := by
  cases l with
  | nil => rfl
  | cons c r => rw [List.dropWhile_cons, if_neg (by simp [h c (by simp)])]

theorem strip_of {p : UInt8 → Bool} {l : Bytes} (h1 : ∀ c ∈ l.head?, p c = false) (h2 : ∀ c ∈ l.getLast?, p c = false) :
    ((l.dropWhile p).reverse.dropWhile p).reverse = l := by
  rw [dropWhile_head h1, dropWhile_head (by simpa using h2), List.reverse_reverse]

theorem aclIndex_quote {index : List Bytes} (h : PathIndex index) : aclIndex (AclQuote.quote (indexPath index)) = index := by
  have hc : ∀ c ∈ index, c ≠ [] := fun c hc => (h.1 c hc).1
  by_cases hi : index = []
  · subst hi; decide
  · have hip : indexPath index = joinSlash index := by simp [indexPath, hi]
    have hsp := splitOn_join (fun c hc => (h.1 c hc).2) hi
    unfold aclIndex
    rw [C16.unquote_quote, hip, hsp, if_neg]
    intro hq
    have : joinSlash index = [46] := by
      have := congrArg AclQuote.unquote hq
      rwa [C16.unquote_quote] at this
    rw [this] at hsp
    exact h.2 (hsp ▸ by decide)

theorem quote_no_nl (p : Bytes) : nl ∉ AclQuote.quote p := by
  intro h
  have := C16.quote_safe p _ h
  revert this; decide

/-! ### extended attributes -/

/-- the name which is read back -/
def readName (a : Bytes × Bytes) : Bytes := if a.2 = [] then a.1 else AclQuote.quote a.1

theorem setAttr_new {attrs : List (Bytes × Bytes)} {n v : Bytes} (h : n ∉ attrs.map (·.1)) : setAttr attrs n v = attrs ++ [(n, v)] := by
  induction attrs with
  | nil => rfl
  | cons a r ih =>
    simp only [List.map_cons, List.mem_cons, not_or] at h
    rw [setAttr, if_neg (Ne.symm h.1), ih h.2]; rfl

theorem readLine_line {a : Bytes × Bytes} (h : a.2 = [] → LineName a.1) (attrs : List (Bytes × Bytes)) :
    eaReadLine attrs (eaLine a) = some (setAttr attrs (readName a) a.2) := by
  by_cases hv : a.2 = []
  · have hn := h hv
    have hs : strip a.1 = a.1 := strip_of hn.first hn.last
    simp only [eaReadLine, eaLine, readName, hv, if_true, hs, hn.nonempty, if_false, hn.noEq, not_false_eq_true]
  · have hq := C16.quote_safe a.1
    have hne : (61 : UInt8) ∉ AclQuote.quote a.1 := by
      intro h
      exact (hq _ h).2.2 rfl
    have hsp : ∀ c ∈ AclQuote.quote a.1, AclQuote.isSpace c = false := by
      intro c hc
      have := hq c hc
      simp [AclQuote.isSpace]
      omega
    have hall : ∀ c ∈ AclQuote.quote a.1 ++ lit "=0s" ++ b64encode a.2, AclQuote.isSpace c = false := by
      intro c hc
      simp only [List.mem_append] at hc
      rcases hc with (hc | hc) | hc
      · exact hsp c hc
      · revert c; decide
      · exact b64_chars _ c hc
    have hs : strip (AclQuote.quote a.1 ++ lit "=0s" ++ b64encode a.2) = AclQuote.quote a.1 ++ lit "=0s" ++ b64encode a.2 :=
      strip_of (fun c hc => hall c (List.mem_of_mem_head? hc)) fun c hc => hall c (List.mem_of_mem_getLast? hc)
    have h3 : lit "=0s" = 61 :: lit "0s" := by decide
    have htw : (AclQuote.quote a.1 ++ lit "=0s" ++ b64encode a.2).takeWhile (· != 61) = AclQuote.quote a.1 := by
      rw [List.append_assoc, List.takeWhile_append_of_pos, h3]
      · simp
      · intro c hc
        simp only [bne_iff_ne, ne_eq]
        rintro rfl
        exact hne hc
    simp only [eaReadLine, eaLine, readName, hv, if_false, hs]
    rw [if_neg (by simp [h3]), if_neg (by simp [h3]), htw]
    have hd : (AclQuote.quote a.1 ++ lit "=0s" ++ b64encode a.2).drop ((AclQuote.quote a.1).length + 1) = lit "0s" ++ b64encode a.2 := by
      rw [List.append_assoc, ← List.drop_drop, List.drop_left, h3]; rfl
    rw [hd]
    have h2 : (lit "0s").length = 2 := by decide
    rw [List.take_append_of_le_length (by omega), List.take_of_length_le (by omega), if_neg (by simp),
      List.drop_append_of_le_length (by omega), List.drop_of_length_le (by omega), List.nil_append, b64_decode]
    rfl

theorem readLines {attrs : List (Bytes × Bytes)} (h : ∀ a ∈ attrs, a.2 = [] → LineName a.1) (acc : List (Bytes × Bytes))
    (hd : (acc.map (·.1) ++ attrs.map readName).Nodup) :
    (attrs.map eaLine).foldlM eaReadLine acc = some (acc ++ attrs.map fun a => (readName a, a.2)) := by
  induction attrs generalizing acc with
  | nil => simp
  | cons a r ih =>
    rw [List.map_cons, List.foldlM_cons, readLine_line (h a (by simp))]
    simp only [Option.bind_eq_bind, Option.bind_some]
    rw [setAttr_new, ih (fun a ha => h a (by simp [ha]))]
    · simp
    · simpa [List.append_assoc] using hd
    · rw [List.map_cons] at hd
      intro hm
      exact (List.nodup_append.1 hd).2.2 _ hm _ (by simp) rfl

/-- the record as lines -/
def eaRec (ea : Ea) : Rec := ⟨AclQuote.quote (indexPath ea.index), ea.attrs.map eaLine⟩

theorem eaRec_text (ea : Ea) : eaToRecord ea = (eaRec ea).text (lit "# file: ") := by
  rw [eaToRecord, joinNl_eq]; rfl

theorem eaLine_ok {a : Bytes × Bytes} (h : a.2 = [] → LineName a.1) : nl ∉ eaLine a ∧ ¬ lit "# file: " <+: eaLine a := by
  by_cases hv : a.2 = []
  · have := h hv
    simp only [eaLine, hv, if_true]
    exact ⟨this.oneLine, this.notHeader⟩
  · have hq := C16.quote_safe a.1
    have hall : ∀ c ∈ AclQuote.quote a.1 ++ lit "=0s" ++ b64encode a.2, AclQuote.isSpace c = false := by
      intro c hc
      simp only [List.mem_append] at hc
      rcases hc with (hc | hc) | hc
      · have := hq c hc
        simp [AclQuote.isSpace]
        omega
      · revert c; decide
      · exact b64_chars _ c hc
    simp only [eaLine, hv, if_false]
    constructor
    · intro h
      have := hall _ h
      revert this; decide
    · intro h
      have := hall 32 (h.subset (by decide))
      revert this; decide

theorem eaRec_ok {ea : Ea} (h : ∀ a ∈ ea.attrs, a.2 = [] → LineName a.1) : (eaRec ea).Ok (lit "# file: ") := by
  refine ⟨quote_no_nl _, ?_⟩
  intro l hl
  obtain ⟨a, ha, rfl⟩ := List.mem_map.1 hl
  exact eaLine_ok (h a ha)

theorem eaOfRecord_text {ea : Ea} (hi : PathIndex ea.index) (h : ∀ a ∈ ea.attrs, a.2 = [] → LineName a.1)
    (hd : (ea.attrs.map readName).Nodup) :
    eaOfRecord ((eaRec ea).text (lit "# file: ")) = some ⟨ea.index, ea.attrs.map fun a => (readName a, a.2)⟩ := by
  have hok := eaRec_ok h
  have h8 : (lit "# file: ").length = 8 := by decide
  have hL : ∀ l ∈ (eaRec ea).lines (lit "# file: "), nl ∉ l := by
    intro l hl
    rcases List.mem_cons.1 hl with rfl | hl
    · simp only [List.mem_append, not_or]
      exact ⟨by decide, hok.name⟩
    · exact (hok.body l hl).1
  rw [eaOfRecord, Rec.text, splitOn_lines _ hL]
  simp only [Rec.lines, List.cons_append]
  rw [if_neg (by rw [List.take_append_of_le_length (by omega), List.take_of_length_le (by omega)]; simp),
    List.drop_append_of_le_length (by omega), List.drop_of_length_le (by omega), List.nil_append]
  rw [List.foldlM_append]
  simp only [eaRec]
  rw [readLines h [] (by simpa using hd), aclIndex_quote hi]
  simp [eaReadLine, strip]

end Verif.Attrs
