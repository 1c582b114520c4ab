import Verif.Proof.FStatsMake
import Verif.Proof.RemoveLines
/-
Lemmas about file statistics: lines (C68).
-/
set_option linter.unusedSectionVars false

namespace Verif.FStats
open Verif Verif.Quoting Verif.MetaRecord Verif.FlatFile

/-! ### buffers -/

def lines (sep : UInt8) (ls : List Bytes) : Bytes := (ls.map fun l => l ++ [sep]).flatten

theorem lines_append (sep : UInt8) (a b : List Bytes) : lines sep (a ++ b) = lines sep a ++ lines sep b := by simp [lines]

theorem joinSep_eq (sep : UInt8) {ls : List Bytes} (h : ls ≠ []) : joinSep sep ls = lines sep ls := by
  induction ls with
  | nil => exact absurd rfl h
  | cons l r ih =>
    cases r with
    | nil => simp [joinSep, lines]
    | cons b r =>
      rw [joinSep, ih (by simp)]
      · simp [lines]
      · simp

theorem flush_out (sep : UInt8) (b : Buf) : (b.flush sep).out ++ lines sep (b.flush sep).lines = b.out ++ lines sep b.lines := by
  unfold Buf.flush
  split
  · next h => rw [joinSep_eq sep h]; simp [lines]
  · rfl

theorem flush_lines (sep : UInt8) (b : Buf) : (b.flush sep).lines = [] := by
  unfold Buf.flush
  split
  · rfl
  · next h => simpa using h

theorem write_out (max : Nat) (sep : UInt8) (b : Buf) (l : Bytes) :
    (b.write max sep l).out ++ lines sep (b.write max sep l).lines = b.out ++ lines sep (b.lines ++ [l]) := by
  unfold Buf.write
  simp only []
  split
  · rw [flush_out]
  · rfl

theorem writeAll_eq (max : Nat) (sep : UInt8) (ls : List Bytes) : writeAll max sep ls = lines sep ls := by
  have : ∀ (ls : List Bytes) (b : Buf), (ls.foldl (Buf.write max sep) b).out ++ lines sep (ls.foldl (Buf.write max sep) b).lines = b.out ++ lines sep (b.lines ++ ls) := by
    intro ls
    induction ls with
    | nil => intro b; simp
    | cons l ls ih =>
      intro b
      rw [List.foldl_cons, ih, lines_append, ← List.append_assoc, write_out, List.append_assoc, ← lines_append, List.append_assoc, List.singleton_append]
  have h := this ls ⟨[], []⟩
  unfold writeAll
  have h2 := flush_out sep (ls.foldl (Buf.write max sep) ⟨[], []⟩)
  rw [flush_lines, h] at h2
  simpa [lines] using h2

theorem splitOn_ne (d : UInt8) (x : Bytes) : splitOn d x ≠ [] := by
  cases x with
  | nil => simp [splitOn]
  | cons c r =>
    rw [splitOn]
    split
    · simp
    · split <;> simp

theorem splitOn_sep (d : UInt8) (x y : Bytes) : splitOn d (x ++ d :: y) = splitOn d x ++ splitOn d y := by
  induction x with
  | nil => simp [splitOn]
  | cons c r ih =>
    rw [List.cons_append, splitOn, splitOn, ih]
    split
    · simp
    · cases hs : splitOn d r with
      | nil => exact absurd hs (splitOn_ne d r)
      | cons a l => simp

/-- splitting what is put together -/
theorem splitOn_append (d : UInt8) (x y : Bytes) :
    splitOn d (x ++ y) = (splitOn d x).dropLast ++ (((splitOn d x).getLast?.getD []) ++ (splitOn d y).headD []) :: (splitOn d y).tail := by
  induction x with
  | nil =>
    cases hs : splitOn d y with
    | nil => exact absurd hs (splitOn_ne d y)
    | cons a l => simp [splitOn, hs]
  | cons c r ih =>
    rw [List.cons_append, splitOn, splitOn, ih]
    cases hs : splitOn d r with
    | nil => exact absurd hs (splitOn_ne d r)
    | cons a l =>
      cases l with
      | nil => split <;> simp
      | cons b l => split <;> simp [List.getLast?_cons_cons]

theorem readBlocks_eq (sep : UInt8) (bs : List Bytes) : ∀ rest : Bytes, sep ∉ rest → readBlocks sep rest bs =
    (splitOn sep (rest ++ bs.flatten)).dropLast ++ (if (splitOn sep (rest ++ bs.flatten)).getLast?.getD [] ≠ [] then [(splitOn sep (rest ++ bs.flatten)).getLast?.getD []] else []) := by
  have hlast : ∀ (x : Bytes), sep ∉ (splitOn sep x).getLast?.getD [] := by
    intro x
    induction x with
    | nil => simp [splitOn]
    | cons c r ih =>
      rw [splitOn]
      cases hs : splitOn sep r with
      | nil => exact absurd hs (splitOn_ne sep r)
      | cons a l =>
        rw [hs] at ih
        cases l with
        | nil =>
          split
          · simpa using ih
          · next hc => simp only [List.getLast?_singleton, Option.getD_some, List.mem_cons, not_or] at ih ⊢; exact ⟨fun e => hc e.symm, ih⟩
        | cons b l => split <;> simpa [List.getLast?_cons_cons] using ih
  induction bs with
  | nil =>
    intro rest hr
    rw [readBlocks]
    simp [splitOn_last hr]
  | cons b bs ih =>
    intro rest hr
    rw [readBlocks]
    cases hs : splitOn sep b with
    | nil => exact absurd hs (splitOn_ne sep b)
    | cons a l =>
    have hsp : (rest ++ a) :: l = splitOn sep (rest ++ b) := by
      rw [splitOn_append, splitOn_last hr, hs]
      simp
    simp only []
    rw [hsp]
    rw [ih _ (hlast _), List.flatten_cons, ← List.append_assoc rest b, splitOn_append sep (rest ++ b), splitOn_append sep ((splitOn sep (rest ++ b)).getLast?.getD []), splitOn_last (hlast _)]
    cases ht : (splitOn sep bs.flatten).tail with
    | nil => simp
    | cons a l => simp [List.getLast?_append, List.getLast?_cons]

theorem splitOn_lines' (sep : UInt8) (ls : List Bytes) (h : ∀ l ∈ ls, sep ∉ l) : splitOn sep (lines sep ls) = ls ++ [[]] := by
  induction ls with
  | nil => rfl
  | cons l ls ih =>
    have : lines sep (l :: ls) = l ++ sep :: lines sep ls := by simp [lines]
    rw [this, splitOn_cons (h l (by simp)), ih fun l hl => h l (by simp [hl])]; rfl

/-- lines are read as they were written -/
theorem read_lines (max : Nat) (sep : UInt8) (ls : List Bytes) (h : ∀ l ∈ ls, sep ∉ l) (bs : List Bytes) (hb : bs.flatten = writeAll max sep ls) : readBlocks sep [] bs = ls := by
  rw [readBlocks_eq sep bs [] (by simp), List.nil_append, hb, writeAll_eq, splitOn_lines' sep ls h]
  simp

/-! ### entries -/

theorem quotePath_append (x y : Bytes) : quotePath (x ++ y) = quotePath x ++ quotePath y := by
  induction x with
  | nil => rfl
  | cons c r ih =>
    rw [List.cons_append, quotePath, quotePath, ih]
    split
    · rfl
    · split <;> rfl

theorem quotePath_joinSlash (l : List Bytes) : quotePath (joinSlash l) = joinSlash (l.map quotePath) := by
  induction l with
  | nil => rfl
  | cons a r ih =>
    cases r with
    | nil => rfl
    | cons b r =>
      rw [joinSlash, quotePath_append, List.map_cons, List.map_cons, joinSlash, ← List.map_cons, ← ih]
      congr 1

theorem not_mem_quotePath {c : UInt8} (h2 : c ≠ bs) (h3 : c ≠ chN) {p : Bytes} (h : c ∉ p) : c ∉ quotePath p := by
  induction p with
  | nil => exact h
  | cons a r ih =>
    simp only [List.mem_cons, not_or] at h
    have := ih h.2
    rw [quotePath]
    split
    · simp [h2, h3, this]
    · split
      · simp [h2, this]
      · simp [h.1, this]

theorem join_split (d : UInt8) (x : Bytes) : (splitOn d x).tail.foldl (fun a b => a ++ d :: b) ((splitOn d x).headD []) = x := by
  have key : ∀ (l : List Bytes) (a c : Bytes), l.foldl (fun a b => a ++ d :: b) (c ++ a) = c ++ l.foldl (fun a b => a ++ d :: b) a := by
    intro l
    induction l with
    | nil => intros; rfl
    | cons b l ih => intro a c; rw [List.foldl_cons, List.foldl_cons, List.append_assoc, ih]
  induction x with
  | nil => rfl
  | cons c r ih =>
    rw [splitOn]
    cases hs : splitOn d r with
    | nil => exact absurd hs (splitOn_ne d r)
    | cons a l =>
      rw [hs] at ih
      simp only [List.tail_cons, List.headD_cons] at ih
      split
      · next h =>
        subst h
        simp only [List.tail_cons, List.headD_cons, List.foldl_cons, List.nil_append]
        rw [show c :: a = [c] ++ a from rfl, key, ih]; rfl
      · simp only [List.tail_cons, List.headD_cons]
        rw [show c :: a = [c] ++ a from rfl, key, ih]; rfl

theorem digit_not {c : UInt8} (hc : isDigit c = false) (n : Nat) : c ∉ fmtNat n := fun h => by
  have := List.all_eq_true.1 (fmtNat_spec n).2.1 c h
  rw [hc] at this
  exact absurd this (by simp)

theorem getSize_not {c : UInt8} (hc : isDigit c = false) (hN : c ≠ 78) (hA : c ≠ 65) (f : Option SStats.File) : c ∉ getSize f := by
  cases f with
  | none => intro h; revert h; simp [getSize, show lit "NA" = [78, 65] by decide +kernel, hN, hA]
  | some f =>
    simp only [getSize]
    split
    · exact digit_not hc _
    · intro h; rw [List.mem_singleton.1 h] at hc; revert hc; decide

theorem sizeOf_getSize (f : Option SStats.File) : sizeOf (getSize f) = some (sizeVal f) := by
  cases f with
  | none => simp [getSize, sizeOf, sizeVal]
  | some f =>
    simp only [getSize, sizeVal]
    split
    · rw [sizeOf, if_neg, (fmtNat_spec _).2.2]
      intro h
      have := (fmtNat_spec f.size).2.1
      rw [h] at this
      revert this; decide +kernel
    · decide +kernel

theorem indexPath_quote (l : List Bytes) : quotePath (indexPath l) = if l = [] then [46] else joinSlash (l.map quotePath) := by
  unfold indexPath
  split
  · decide +kernel
  · exact quotePath_joinSlash l

theorem quotePath_head {a : UInt8} {r : Bytes} : (quotePath (a :: r)).head? = some 35 ↔ a = 35 := by
  rw [quotePath]
  by_cases h1 : a = nl
  · subst h1; simp [show bs ≠ 35 by decide, show nl ≠ 35 by decide]
  · by_cases h2 : a = bs
    · subst h2; simp [show bs ≠ nl by decide, show bs ≠ 35 by decide]
    · simp [h1, h2]

theorem joinSlash_head {a : Bytes} (l : List Bytes) (ha : a ≠ []) : (joinSlash (a :: l)).head? = a.head? := by
  cases a with
  | nil => exact absurd rfl ha
  | cons c r => cases l <;> simp [joinSlash]

theorem entryLine_head {e : Entry} (h : NameOk e.index) : (entryLine e).head? = some 35 ↔ hashed e.index = true := by
  have happ : ∀ (x y : Bytes), x ≠ [] → (x ++ y).head? = x.head? := by
    intro x y hx
    cases x with
    | nil => exact absurd rfl hx
    | cons a r => rfl
  have hne : indexPath e.index ≠ [] := by
    unfold indexPath
    split
    · simp
    · next hn =>
      cases hi : e.index with
      | nil => exact absurd hi hn
      | cons a l =>
        have ha := (h.1 a (by simp [hi])).1
        intro e0
        have := joinSlash_head l ha
        rw [e0] at this
        cases a with
        | nil => exact ha rfl
        | cons => simp at this
  unfold entryLine
  rw [happ _ _ (quotePath_ne_nil hne)]
  cases hi : e.index with
  | nil => simp [indexPath, hashed, show quotePath [46] = [46] by decide +kernel]
  | cons a l =>
    have ha := (h.1 a (by simp [hi])).1
    rw [quotePath_ne_head hi ha]
where
  quotePath_ne_head {a : Bytes} {l : List Bytes} {i : List Bytes} (_ : i = a :: l) (ha : a ≠ []) : ((quotePath (indexPath (a :: l))).head? = some 35) = (hashed (a :: l) = true) := by
    rw [indexPath, if_neg (by simp), quotePath_joinSlash, List.map_cons, joinSlash_head _ (quotePath_ne_nil ha)]
    cases a with
    | nil => exact absurd rfl ha
    | cons c r => simp [hashed, quotePath_head]

theorem parse_entry (unit : Nat) {e : Entry} (h : NameOk e.index) :
    parseLine unit (entryLine e) = if hashed e.index then none else some (e.index.map quotePath, entryVals unit e) := by
  have hh := entryLine_head h
  unfold parseLine
  by_cases hc : hashed e.index = true
  · rw [if_pos (hh.2 hc), if_pos hc]
  · rw [if_neg (fun x => hc (hh.1 x)), if_neg hc]
    have h32 : isDigit 32 = false := by decide
    have hsp : splitOn 32 (entryLine e) = splitOn 32 (quotePath (indexPath e.index)) ++ [fmtNat (if e.changed then 1 else 0), getSize e.src, getSize e.dst, getSize e.inc] := by
      unfold entryLine
      rw [splitOn_sep, splitOn_cons (digit_not h32 _), splitOn_cons (getSize_not h32 (by decide) (by decide) _), splitOn_cons (getSize_not h32 (by decide) (by decide) _),
        splitOn_last (getSize_not h32 (by decide) (by decide) _)]
    rw [hsp, List.reverse_append]
    simp only [List.reverse_cons, List.reverse_nil, List.nil_append, List.cons_append]
    cases hr : (splitOn 32 (quotePath (indexPath e.index))).reverse with
    | nil => exact absurd (List.reverse_eq_nil_iff.1 hr) (splitOn_ne _ _)
    | cons f fs =>
      have hrev : (f :: fs).reverse = splitOn 32 (quotePath (indexPath e.index)) := by rw [← hr, List.reverse_reverse]
      rw [List.reverse_cons] at hrev
      simp only [(fmtNat_spec _).2.2, sizeOf_getSize, hrev, join_split]
      congr 1
      simp only [Prod.mk.injEq]
      refine ⟨?_, ?_⟩
      · rw [indexPath_quote]
        by_cases hi : e.index = []
        · simp [hi]
        · rw [if_neg hi, if_neg, splitOn_join _ (by simpa using hi)]
          · intro c hc
            obtain ⟨a, ha, rfl⟩ := List.mem_map.1 hc
            exact not_mem_quotePath (by decide) (by decide) (h.1 a ha).2.1
          · rw [← quotePath_joinSlash]
            intro he
            have he := quotePath_dot he
            have := splitOn_join (index := e.index) (fun c hc => (h.1 c hc).2.1) hi
            rw [he] at this
            exact h.2 (by rw [← this]; decide +kernel)
      · simp only [entryVals]
        split <;> simp

theorem header_parse (unit : Nat) : header.filterMap (parseLine unit) = [] := by
  have h : ∀ l ∈ header, l.head? = some 35 := by decide +kernel
  rw [List.filterMap_eq_nil_iff]
  intro l hl
  rw [parseLine, if_pos (h l hl)]

theorem entry_no_sep {sep : UInt8} (hs : sep = 10 ∨ sep = 0) {e : Entry} (h : NameOk e.index) : sep ∉ entryLine e := by
  have h0 : sep ∉ quotePath (indexPath e.index) := by
    rcases hs with rfl | rfl
    · exact C15.quote_no_newline _
    · refine not_mem_quotePath (by decide) (by decide) ?_
      unfold indexPath
      split
      · decide
      · have : ∀ l : List Bytes, (∀ c ∈ l, (0 : UInt8) ∉ c) → (0 : UInt8) ∉ joinSlash l := by
          intro l
          induction l with
          | nil => simp [joinSlash]
          | cons a r ih =>
            intro hl
            cases r with
            | nil => exact hl a (by simp)
            | cons b r =>
              rw [joinSlash]
              have := ih fun c hc => hl c (by simp [hc])
              simp [hl a (by simp), this]
        exact this _ fun c hc => (h.1 c hc).2.2
  have hd : isDigit sep = false := by rcases hs with rfl | rfl <;> decide
  have h32 : sep ≠ 32 := by rcases hs with rfl | rfl <;> decide
  have hN : sep ≠ 78 := by rcases hs with rfl | rfl <;> decide
  have hA : sep ≠ 65 := by rcases hs with rfl | rfl <;> decide
  simp [entryLine, h0, h32, digit_not hd, getSize_not hd hN hA]

/-- the entries are read as they were written, without those which look like comments -/
theorem parse_file (max unit : Nat) {sep : UInt8} (hs : sep = 10 ∨ sep = 0) {es : List Entry} (h : ∀ e ∈ es, NameOk e.index) {bs : List Bytes} (hb : bs.flatten = fileText max sep es) :
    parse unit (readBlocks sep [] bs) = (es.filter fun e => !hashed e.index).map fun e => (e.index.map quotePath, entryVals unit e) := by
  rw [read_lines max sep (header ++ es.map entryLine) _ bs hb]
  · rw [parse, List.filterMap_append, header_parse, List.nil_append, List.filterMap_map, ← List.filterMap_eq_map, ← List.filterMap_eq_filter, List.filterMap_filterMap]
    refine List.filterMap_congr fun e he => ?_
    simp only [Function.comp_apply, parse_entry unit (h e he)]
    cases hd : hashed e.index <;> simp [Option.guard, hd]
  · intro l hl
    rcases List.mem_append.1 hl with hl | hl
    · have : ∀ l ∈ header, (10 : UInt8) ∉ l ∧ (0 : UInt8) ∉ l := by decide +kernel
      rcases hs with rfl | rfl
      · exact (this l hl).1
      · exact (this l hl).2
    · obtain ⟨e, he, rfl⟩ := List.mem_map.1 hl
      exact entry_no_sep hs (h e he)

/-! ### names -/
section
variable {α β : Type} [DecidableEq α] [DecidableEq β]

def Forest.map (q : α → β) : Forest α → Forest β
  | .nil => .nil
  | .cons a v c r => .cons (a.map q) v (c.map q) (r.map q)

theorem pre_map (q : α → β) (F : Forest α) : pre (F.map q) = (pre F).map fun x => (x.1.map q, x.2) := by
  induction F with
  | nil => rfl
  | cons a v c r ih1 ih2 => simp [Forest.map, pre, ih1, ih2]

theorem prefix_map {q : α → β} (hq : Function.Injective q) (a b : List α) : a.map q <+: b.map q ↔ a <+: b := by
  constructor
  · intro h
    induction a generalizing b with
    | nil => exact List.nil_prefix
    | cons x a ih =>
      cases b with
      | nil => simp at h
      | cons y b =>
        simp only [List.map_cons, List.cons_prefix_cons] at h ⊢
        exact ⟨hq h.1, ih b h.2⟩
  · exact fun h => h.map q

theorem wf_map {q : α → β} (hq : Function.Injective q) {p : List α} {F : Forest α} (h : WF p F) : WF (p.map q) (F.map q) := by
  induction F generalizing p with
  | nil => trivial
  | cons a v c r ih1 ih2 =>
    obtain ⟨⟨n, rfl⟩, h2, h3, h4⟩ := h
    refine ⟨⟨q n, by simp⟩, ih1 h2, ih2 h3, fun x hx => ?_⟩
    rw [pre_map] at hx
    obtain ⟨y, hy, rfl⟩ := List.mem_map.1 hx
    rw [prefix_map hq]
    exact h4 y hy

def mapNames (q : α → β) (es : List (FS α)) : List (FS β) := es.map fun x => (x.1.map q, x.2)

theorem forest_map {q : α → β} (hq : Function.Injective q) {es : List (FS α)} (h : IsForest es) : IsForest (mapNames q es) := by
  obtain ⟨⟨v, F, rfl, hw⟩, hn⟩ := h
  refine ⟨⟨v, F.map q, by simp [mapNames, pre_map], wf_map hq hw⟩, fun x hx => ?_⟩
  obtain ⟨y, hy, rfl⟩ := List.mem_map.1 hx
  exact hn y hy

theorem total_map {q : α → β} (hq : Function.Injective q) (es : List (FS α)) (d : List α) : total (mapNames q es) (d.map q) = total es d := by
  have : (mapNames q es).filter (fun x => decide (d.map q <+: x.1)) = mapNames q (es.filter fun x => decide (d <+: x.1)) := by
    simp only [mapNames, List.filter_map]
    congr 1
    refine List.filter_congr fun x _ => ?_
    simp only [Function.comp_apply, prefix_map hq]
  unfold total
  simp only [this]
  simp only [mapNames, List.map_map]
  rfl

theorem important_map {q : α → β} (hq : Function.Injective q) (cut : Vals) (es : List (FS α)) (d : List α) : Important cut (mapNames q es) (d.map q) ↔ Important cut es d := by
  unfold Important
  rw [total_map hq]
  have : (∃ x ∈ mapNames q es, x.1 = d.map q) ↔ ∃ x ∈ es, x.1 = d := by
    constructor
    · rintro ⟨x, hx, e⟩
      obtain ⟨y, hy, rfl⟩ := List.mem_map.1 hx
      exact ⟨y, hy, (List.map_injective_iff.2 hq) e⟩
    · rintro ⟨x, hx, rfl⟩
      exact ⟨_, List.mem_map.2 ⟨x, hx, rfl⟩, rfl⟩
  rw [this]

theorem contribution_map {q : α → β} (hq : Function.Injective q) (cut : Vals) (es : List (FS α)) (d : List α) :
    contribution (d.map q) (cut, mapNames q es) = contribution d (cut, es) := by
  unfold contribution
  simp only [important_map hq, total_map hq]

/-- the names in a tree are names of the listing -/
theorem important_name {q : α → β} {cut : Vals} {es : List (FS α)} {n : List β} (h : Important cut (mapNames q es) n) : ∃ d : List α, n = d.map q := by
  obtain ⟨x, hx, rfl⟩ := h.1
  obtain ⟨y, hy, rfl⟩ := List.mem_map.1 hx
  exact ⟨y.1, rfl⟩
end
end Verif.FStats
