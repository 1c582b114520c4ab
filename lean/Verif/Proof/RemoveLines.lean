import Verif.Model.RemoveLines
import Verif.Proof.MetaFile
import Verif.Props.C16
import Mathlib.Data.List.Induction
/-
Lemmas about the text of metadata files after `remove file`.
-/
namespace Verif.RemoveLines
open Verif Verif.Quoting Verif.FlatFile Verif.MetaRecord

/-- the lines are those of successive calls of `readline` -/
theorem toLines_readline (s : Bytes) : toLines s = if s = [] then [] else (readline s).1 :: toLines (readline s).2 := by
  induction s with
  | nil => rfl
  | cons c r ih =>
    simp only [toLines, readline, reduceCtorEq, if_false]
    by_cases hc : c = nl
    · simp [hc]
    · simp only [hc, if_false, beq_iff_eq]
      by_cases hr : r = []
      · subst hr; rfl
      · rw [ih]; simp only [hr, if_false]

theorem toLines_flatten (s : Bytes) : (toLines s).flatten = s := by
  induction s with
  | nil => rfl
  | cons c r ih =>
    simp only [toLines]
    by_cases hc : c = nl
    · simp [hc, ih]
    · simp only [hc, if_false]
      cases h : toLines r with
      | nil => rw [h] at ih; simp at ih; subst ih; rfl
      | cons x xs => rw [h] at ih; simp at ih ⊢; exact ih

theorem toLines_line {l : Bytes} (hl : nl ∉ l) (R : Bytes) : toLines (l ++ nl :: R) = (l ++ [nl]) :: toLines R := by
  rw [toLines_readline, readline_line hl]; simp

theorem toLines_join (L : List Bytes) (h : ∀ l ∈ L, nl ∉ l) : toLines (joinLines L) = L.map (· ++ [nl]) := by
  induction L with
  | nil => rfl
  | cons l L ih =>
    rw [joinLines_cons, toLines_line (h l (by simp)), ih (fun l hl => h l (by simp [hl]))]; rfl

/-! ### quoting keeps prefixes -/

/-- byte by byte codes without common prefixes -/
theorem prefix_code {q : Bytes → Bytes} {enc : UInt8 → Bytes} (hnil : q [] = []) (hcons : ∀ a l, q (a :: l) = enc a ++ q l)
    (hinj : ∀ a b u v, enc a ++ u = enc b ++ v → a = b) (hne : ∀ a, enc a ≠ []) (x y : Bytes) : q x <+: q y ↔ x <+: y := by
  induction x generalizing y with
  | nil => simp [hnil]
  | cons a x ih =>
    cases y with
    | nil => simp [hnil, hcons, hne]
    | cons b y =>
      rw [hcons, hcons]
      constructor
      · rintro ⟨t, ht⟩
        rw [List.append_assoc] at ht
        have := hinj _ _ _ _ ht
        subst this
        have := List.append_cancel_left ht
        rw [List.cons_prefix_cons]
        exact ⟨rfl, (ih y).1 ⟨t, this⟩⟩
      · intro h
        rw [List.cons_prefix_cons] at h
        obtain ⟨rfl, h⟩ := h
        exact (List.prefix_append_right_inj _).2 ((ih y).2 h)

theorem quotePath_prefix (x y : Bytes) : quotePath x <+: quotePath y ↔ x <+: y := by
  refine prefix_code (enc := fun a => quotePath [a]) rfl ?_ ?_ ?_ x y
  · intro a l
    simp only [quotePath]
    by_cases h1 : a = nl
    · simp [h1]
    · by_cases h2 : a = bs
      · simp [h2, show bs ≠ nl by decide]
      · simp [h1, h2]
  · intro a b u v h
    have e := C15.unquote_quote
    simp only [quotePath] at h
    by_cases a1 : a = nl <;> by_cases b1 : b = nl <;> by_cases a2 : a = bs <;> by_cases b2 : b = bs <;>
      simp_all [show nl ≠ bs by decide, show bs ≠ nl by decide, show chN ≠ bs by decide, show bs ≠ chN by decide]
  · intro a
    exact quotePath_ne_nil (by simp)

theorem aclQuote_prefix (x y : Bytes) : AclQuote.quote x <+: AclQuote.quote y ↔ x <+: y := by
  refine prefix_code (enc := fun a => AclQuote.quote [a]) rfl ?_ ?_ ?_ x y
  · intro a l
    simp only [AclQuote.quote]
    by_cases h : AclQuote.needsQuote a = true <;> simp [h]
  · intro a b u v h
    have hs : ∀ (a : UInt8) (u : Bytes), AclQuote.unquote (AclQuote.quote [a] ++ u) = a :: AclQuote.unquote u := by
      intro a u
      simp only [AclQuote.quote]
      by_cases h : AclQuote.needsQuote a = true
      · simp only [h, if_true]; exact C16.unquote_quoted_cons a u
      · rw [if_neg h]
        refine C16.unquote_cons_ne a u ?_
        rintro rfl
        exact h (by decide)
    have := congrArg AclQuote.unquote h
    rw [hs, hs] at this
    exact (List.cons.inj this).1
  · intro a
    simp only [AclQuote.quote]
    by_cases h : AclQuote.needsQuote a = true <;> simp [h]

/-! ### paths -/

/-- components as they occur -/
def Comps (p : List Bytes) : Prop := ∀ c ∈ p, c ≠ [] ∧ (47 : UInt8) ∉ c

theorem joinSlash_cons (a : Bytes) {r : List Bytes} (h : r ≠ []) : joinSlash (a :: r) = a ++ 47 :: joinSlash r := by
  cases r with
  | nil => exact absurd rfl h
  | cons b r => rfl

theorem append_slash_inj {a b u v : Bytes} (ha : (47 : UInt8) ∉ a) (hb : (47 : UInt8) ∉ b) (h : a ++ 47 :: u = b ++ 47 :: v) :
    a = b ∧ u = v := by
  induction a generalizing b with
  | nil =>
    cases b with
    | nil => simpa using h
    | cons c b => simp only [List.nil_append, List.cons_append, List.cons.injEq] at h; exact absurd (by simp [h.1]) hb
  | cons c a ih =>
    cases b with
    | nil => simp only [List.nil_append, List.cons_append, List.cons.injEq] at h; exact absurd (by simp [h.1]) ha
    | cons d b =>
      simp only [List.cons_append, List.cons.injEq] at h
      simp only [List.mem_cons, not_or] at ha hb
      have := ih ha.2 hb.2 h.2
      exact ⟨by rw [h.1, this.1], this.2⟩

/-- `p/` is the start of a path exactly if the path is below `p` -/
theorem slash_prefix {p i : List Bytes} (hp : Comps p) (hi : Comps i) (hp0 : p ≠ []) (hi0 : i ≠ []) :
    joinSlash p ++ [47] <+: joinSlash i ↔ p <+: i ∧ p ≠ i := by
  induction p generalizing i with
  | nil => exact absurd rfl hp0
  | cons a p ih =>
    cases i with
    | nil => exact absurd rfl hi0
    | cons b i =>
      have ha := (hp a (by simp)).2
      have hb := (hi b (by simp)).2
      by_cases hi1 : i = []
      · subst hi1
        constructor
        · intro h
          exfalso
          refine hb (h.subset (by simp : (47 : UInt8) ∈ joinSlash (a :: p) ++ [47]))
        · rintro ⟨h, hne⟩
          rw [List.cons_prefix_cons, List.prefix_nil] at h
          exact absurd (by rw [h.1, h.2]) hne
      · rw [joinSlash_cons b hi1]
        by_cases hp1 : p = []
        · subst hp1
          rw [show joinSlash [a] = a from rfl, List.cons_prefix_cons]
          constructor
          · rintro ⟨t, ht⟩
            rw [List.append_assoc] at ht
            have := append_slash_inj ha hb ht
            exact ⟨⟨this.1, by simp⟩, fun h => hi1 (List.cons.inj h).2.symm⟩
          · rintro ⟨⟨rfl, -⟩, -⟩
            exact ⟨joinSlash i, by simp⟩
        · rw [joinSlash_cons a hp1, List.cons_prefix_cons]
          have := ih (fun c hc => hp c (by simp [hc])) (fun c hc => hi c (by simp [hc])) hp1 hi1
          constructor
          · rintro ⟨t, ht⟩
            simp only [List.append_assoc, List.cons_append] at ht
            have e := append_slash_inj ha hb ht
            have := this.1 ⟨t, by rw [← e.2]; simp⟩
            exact ⟨⟨e.1, this.1⟩, fun h => this.2 (List.cons.inj h).2⟩
          · rintro ⟨⟨rfl, h⟩, hne⟩
            obtain ⟨t, ht⟩ := this.2 ⟨h, fun h => hne (by rw [h])⟩
            exact ⟨t, by rw [← ht]; simp⟩

theorem indexPath_inj {p i : List Bytes} (hp : Comps p) (hi : Comps i) (hp1 : p ≠ [[46]]) (hi1 : i ≠ [[46]])
    (h : indexPath p = indexPath i) : p = i := by
  have key : ∀ {x : List Bytes}, Comps x → x ≠ [[46]] → filenameToIndex (quotePath (indexPath x)) = x := by
    intro x hx hx1
    exact (filename_roundtrip (r := { index := x })
      ⟨hx, hx1, by simp, by simp, by simp, by simp, by simp, by simp, by simp, by simp, by simp, by simp, by simp⟩).2
  rw [← key hp hp1, h, key hi hi1]

/-- exact or below -/
theorem path_cases {p i : List Bytes} (hp : Comps p) (hi : Comps i) (hp0 : p ≠ []) (hp1 : p ≠ [[46]]) (hi1 : i ≠ [[46]]) :
    (indexPath i = indexPath p ∨ indexPath p ++ [47] <+: indexPath i) ↔ p <+: i := by
  by_cases hi0 : i = []
  · subst hi0
    rw [List.prefix_nil]
    constructor
    · rintro (h | h)
      · exact (indexPath_inj hp hi hp1 hi1 h.symm)
      · have := h.length_le
        have h2 : indexPath p ≠ [] := by
          rw [indexPath, if_neg hp0]; exact joinSlash_ne_nil (fun c hc => (hp c hc).1) hp0
        have h3 : 0 < (indexPath p).length := List.length_pos_iff.2 h2
        rw [List.length_append, show (indexPath ([] : List Bytes)).length = 1 from rfl, List.length_singleton] at this
        omega
    · intro h; exact absurd h hp0
  · have e1 : indexPath p = joinSlash p := by rw [indexPath, if_neg hp0]
    have e2 : indexPath i = joinSlash i := by rw [indexPath, if_neg hi0]
    constructor
    · rintro (h | h)
      · exact indexPath_inj hp hi hp1 hi1 h.symm ▸ List.prefix_refl _
      · rw [e1, e2, slash_prefix hp hi hp0 hi0] at h; exact h.1
    · intro h
      by_cases e : p = i
      · left; rw [e]
      · right; rw [e1, e2, slash_prefix hp hi hp0 hi0]; exact ⟨h, e⟩

/-! ### records -/

section recs
variable {k : Kind} {Q : Bytes}

theorem loop_skip (hk : nl ∉ k.marker) (body : List Bytes) (h : ∀ l ∈ body, nl ∉ l ∧ ¬ k.marker <+: l) (ls : List Bytes) :
    (loop k Q true (body.map (· ++ [nl]) ++ ls)) =
      { loop k Q true ls with alts := (body.filter fun l => isAlt (l ++ [nl])).map (fun l => k.unquote (lastWord (l ++ [nl]))) ++ (loop k Q true ls).alts } := by
  induction body with
  | nil => rfl
  | cons l body ih =>
    have h1 := h l (by simp)
    have hm : k.marker.isPrefixOf (l ++ [nl]) = false := by
      rw [Bool.eq_false_iff, Ne, List.isPrefixOf_iff_prefix]
      intro hp
      exact h1.2 (prefix_line hk hp)
    rw [List.map_cons, List.cons_append]
    simp only [loop, hm, Bool.not_false, Bool.and_self, if_true]
    rw [ih (fun l hl => h l (by simp [hl]))]
    by_cases ha : isAlt (l ++ [nl]) = true
    · simp [ha]
    · simp [ha]

theorem loop_keep (hk : nl ∉ k.marker) (body : List Bytes) (h : ∀ l ∈ body, nl ∉ l ∧ ¬ k.marker <+: l) (ls : List Bytes) :
    (loop k Q false (body.map (· ++ [nl]) ++ ls)) = { loop k Q false ls with out := joinLines body ++ (loop k Q false ls).out } := by
  induction body with
  | nil => simp
  | cons l body ih =>
    have h1 := h l (by simp)
    have hm : k.marker.isPrefixOf (l ++ [nl]) = false := by
      rw [Bool.eq_false_iff, Ne, List.isPrefixOf_iff_prefix]
      intro hp
      exact h1.2 (prefix_line hk hp)
    rw [List.map_cons, List.cons_append]
    simp only [loop, hm, Bool.false_and, if_false, Bool.false_eq_true]
    rw [ih (fun l hl => h l (by simp [hl]))]
    simp

/-- whether the record is removed -/
def hits (k : Kind) (Q : Bytes) (r : Rec) : Bool := k.hit Q (k.marker ++ r.name ++ [nl])

/-- the long names in a record -/
def altsOf (k : Kind) (r : Rec) : List Bytes := (r.body.filter fun l => isAlt (l ++ [nl])).map fun l => k.unquote (lastWord (l ++ [nl]))

theorem loop_recs (hk : nl ∉ k.marker) (rs : List Rec) (h : ∀ r ∈ rs, r.Ok k.marker) (sk : Bool) :
    loop k Q sk ((rs.flatMap (Rec.lines k.marker)).map (· ++ [nl])) =
      ⟨texts k.marker (rs.filter fun r => !(hits k Q r)), (rs.filter (hits k Q)).flatMap (altsOf k), rs.any (hits k Q)⟩ := by
  induction rs generalizing sk with
  | nil => cases sk <;> rfl
  | cons r rs ih =>
    have hr := h r (by simp)
    have ih := fun sk => ih (fun r hr => h r (by simp [hr])) sk
    have hm : k.marker.isPrefixOf (k.marker ++ r.name ++ [nl]) = true := by
      rw [List.isPrefixOf_iff_prefix, List.append_assoc]; exact List.prefix_append _ _
    rw [List.flatMap_cons, List.map_append]
    simp only [Rec.lines, List.map_cons, List.cons_append]
    rw [loop]
    simp only [hm, Bool.not_true, Bool.and_false, if_false, Bool.true_and, Bool.false_eq_true]
    by_cases hh : hits k Q r = true
    · have hh' : k.hit Q (k.marker ++ r.name ++ [nl]) = true := hh
      rw [if_pos hh', loop_skip hk _ hr.body, ih true]
      simp [hh, altsOf]
    · have hh' : ¬ k.hit Q (k.marker ++ r.name ++ [nl]) = true := hh
      rw [if_neg hh', loop_keep hk _ hr.body, ih false]
      simp [hh, texts, Rec.text, Rec.lines]

/-- the new content consists of the other records -/
theorem removeText_recs (hk : nl ∉ k.marker) {p : List Bytes} (rs : List Rec) (h : ∀ r ∈ rs, r.Ok k.marker) :
    removeText k p (texts k.marker rs) =
      ⟨texts k.marker (rs.filter fun r => !(hits k (k.quote (indexPath p)) r)),
       (rs.filter (hits k (k.quote (indexPath p)))).flatMap (altsOf k), rs.any (hits k (k.quote (indexPath p)))⟩ := by
  have hl : toLines (texts k.marker rs) = (rs.flatMap (Rec.lines k.marker)).map (· ++ [nl]) := by
    rw [texts_eq]
    apply toLines_join
    intro l hl
    obtain ⟨r, hr, hl⟩ := List.mem_flatMap.1 hl
    rcases List.mem_cons.1 hl with rfl | hl
    · simp [hk, (h r hr).name]
    · exact ((h r hr).body l hl).1
  simp only [removeText, hl, loop_recs hk rs h]
  by_cases ha : rs.any (hits k (k.quote (indexPath p))) = true
  · rw [if_pos ha]
  · rw [if_neg ha]
    have : ∀ r ∈ rs, hits k (k.quote (indexPath p)) r = false := by
      intro r hr
      rw [Bool.eq_false_iff]
      intro hh
      exact ha (List.any_eq_true.2 ⟨r, hr, hh⟩)
    have h1 : (rs.filter fun r => !(hits k (k.quote (indexPath p)) r)) = rs :=
      List.filter_eq_self.2 (fun r hr => by rw [this r hr]; rfl)
    rw [h1]

end recs

/-- which records are hit: those whose path is the given one or below it -/
theorem hits_iff {k : Kind} (hk : k ≠ .fileStatistics) {p i : List Bytes} (hp : Comps p) (hi : Comps i) (hp0 : p ≠ [])
    (hp1 : p ≠ [[46]]) (hi1 : i ≠ [[46]]) (body : List Bytes) (hnl : nl ∉ k.marker ++ k.quote (indexPath i)) :
    hits k (k.quote (indexPath p)) ⟨k.quote (indexPath i), body⟩ = true ↔ p <+: i := by
  rw [← path_cases hp hi hp0 hp1 hi1]
  have hpre : ∀ x y, k.quote x <+: k.quote y ↔ x <+: y := by
    cases k with
    | attributes => exact aclQuote_prefix
    | mirrorMetadata => exact quotePath_prefix
    | fileStatistics => exact absurd rfl hk
  have hinj : ∀ x y, k.quote x = k.quote y ↔ x = y := by
    intro x y
    refine ⟨fun h => ?_, fun h => by rw [h]⟩
    have h1 := (hpre x y).1 (h ▸ List.prefix_refl _)
    have h2 := (hpre y x).1 (h ▸ List.prefix_refl _)
    exact h1.eq_of_length_le h2.length_le
  have hslash : ∀ x, k.quote x ++ [47] = k.quote (x ++ [47]) := by
    intro x
    cases k with
    | fileStatistics => exact absurd rfl hk
    | mirrorMetadata =>
      simp only [Kind.quote]
      induction x with
      | nil => decide
      | cons c x ih =>
        rw [List.cons_append, quotePath, quotePath]
        by_cases h1 : c = nl
        · simp [h1, ih]
        · by_cases h2 : c = bs
          · simp [h2, ih, show bs ≠ nl by decide]
          · simp [h1, h2, ih]
    | attributes =>
      simp only [Kind.quote]
      induction x with
      | nil => decide
      | cons c x ih =>
        rw [List.cons_append, AclQuote.quote, AclQuote.quote]
        by_cases h1 : AclQuote.needsQuote c = true
        · simp [h1, ih]
        · simp [h1, ih]
  have e : hits k (k.quote (indexPath p)) ⟨k.quote (indexPath i), body⟩ =
      (k.marker ++ k.quote (indexPath i) ++ [nl] == k.marker ++ k.quote (indexPath p) ++ [nl] ||
        (k.marker ++ k.quote (indexPath p) ++ [47]).isPrefixOf (k.marker ++ k.quote (indexPath i) ++ [nl])) := by
    cases k with
    | fileStatistics => exact absurd rfl hk
    | mirrorMetadata => rfl
    | attributes => rfl
  rw [e, Bool.or_eq_true, beq_iff_eq, List.isPrefixOf_iff_prefix]
  refine or_congr ?_ ?_
  · rw [List.append_left_inj, List.append_right_inj, hinj]
  · rw [← hpre (indexPath p ++ [47]), ← hslash, List.append_assoc, List.append_assoc, List.prefix_append_right_inj]
    constructor
    · intro h
      refine prefix_line (t := []) ?_ h
      intro hm
      -- a newline can only be the last byte
      obtain ⟨t, ht⟩ := h
      have h2 : nl ∉ k.quote (indexPath i) := fun hh => hnl (by simp [hh])
      rcases List.mem_append.1 hm with hm | hm
      · have : k.quote (indexPath p) <+: k.quote (indexPath i) ++ [nl] := ⟨[47] ++ t, by rw [← ht]; simp⟩
        rw [List.prefix_concat_iff] at this
        rcases this with h3 | h3
        · rw [h3] at ht
          have := congrArg List.length ht
          simp at this
        · exact h2 (h3.subset hm)
      · simp [show nl ≠ 47 by decide] at hm
    · intro h
      exact h.trans (List.prefix_append _ _)

/-! ### metadata records -/

/-- the fields of the record -/
def fieldsOf (hardlinks : Bool) (r : Rorp) : List (Bytes × Bytes) :=
  match r.type with
  | none => [(lit "Type", lit "None")]
  | some ty => fieldList hardlinks r ty

def recOf (hardlinks : Bool) (r : Rorp) : Rec := mkRec (quotePath (indexPath r.index)) (fieldsOf hardlinks r)

theorem fieldsOf_ok (hardlinks : Bool) {r : Rorp} (h : Storable r) : ∀ f ∈ fieldsOf hardlinks r, FieldName f.1 ∧ Value f.2 := by
  unfold fieldsOf
  cases hty : r.type with
  | none =>
    intro f hf
    rw [List.mem_singleton.1 hf]
    unfold FieldName Value; decide
  | some ty => exact fields_ok hardlinks h hty

theorem recOf_spec (hardlinks : Bool) {r : Rorp} (h : Storable r) :
    (recOf hardlinks r).Ok (lit "File ") ∧ objectToRecord hardlinks r = some ((recOf hardlinks r).text (lit "File ")) := by
  refine ⟨mkRec_ok (filename_roundtrip h).1 (fieldsOf_ok hardlinks h), ?_⟩
  unfold recOf
  rw [mkRec_text]
  unfold fieldsOf
  cases hty : r.type with
  | none => simp [objectToRecord, hty, fieldsText]
  | some ty => exact record_eq hardlinks h hty

theorem isAlt_field {f d : Bytes} (hf : f.all isAlnum = true) :
    isAlt (32 :: 32 :: (f ++ 32 :: d) ++ [nl]) = true ↔ f = lit "AlternateIncrementName" ∨ f = lit "AlternateMirrorName" := by
  have key : ∀ n : Bytes, n.all isAlnum = true →
      ((32 :: 32 :: (n ++ [32])).isPrefixOf (32 :: 32 :: (f ++ 32 :: d) ++ [nl]) = true ↔ f = n) := by
    intro n hn
    rw [List.isPrefixOf_iff_prefix]
    simp only [List.cons_append, List.cons_prefix_cons, true_and]
    constructor
    · rintro ⟨t, ht⟩
      have e : n ++ 32 :: t = f ++ 32 :: (d ++ [nl]) := by simpa using ht
      have h1 := (takeWhile_field hn t).1
      have h2 := (takeWhile_field hf (d ++ [nl])).1
      rw [e, h2] at h1
      exact h1
    · rintro rfl
      exact ⟨d ++ [nl], by simp⟩
  unfold isAlt
  rw [Bool.or_eq_true]
  exact or_congr (key (lit "AlternateIncrementName") (by decide)) (key (lit "AlternateMirrorName") (by decide))

theorem dropWhile_last {l : Bytes} (h : ∀ a b, l = a ++ [b] → b ≠ nl) : (l.reverse.dropWhile (· == nl)) = l.reverse := by
  cases l using List.reverseRecOn with
  | nil => rfl
  | append_singleton a b =>
    have := h a b rfl
    simp [this]

theorem lastWord_field {x d : Bytes} (hd : Value d) (h32 : (32 : UInt8) ∉ d) : lastWord (x ++ 32 :: d ++ [nl]) = d := by
  unfold lastWord
  have e : (x ++ 32 :: d ++ [nl]).reverse = nl :: (x ++ 32 :: d).reverse := by simp
  have e2 : ((x ++ 32 :: d ++ [nl]).reverse).dropWhile (· == nl) = (x ++ 32 :: d).reverse := by
    rw [e, List.dropWhile_cons_of_pos (by simp)]
    apply dropWhile_last
    intro a b hab
    rintro rfl
    have : nl ∈ 32 :: d := by
      obtain ⟨c, cs, rfl⟩ : ∃ c cs, d = cs ++ [c] := by
        cases d using List.reverseRecOn with
        | nil => exact absurd rfl hd.1
        | append_singleton a b => exact ⟨b, a, rfl⟩
      have h2 : (x ++ 32 :: cs) ++ [c] = a ++ [nl] := by rw [← hab]; simp
      have := (List.append_inj' h2 rfl).2
      simp at this
      simp [this]
    rcases List.mem_cons.1 this with h | h
    · exact absurd h (by decide)
    · exact hd.2 h
  rw [e2, List.reverse_append, List.reverse_cons, List.append_assoc]
  have h3 : ∀ (u v : Bytes), (32 : UInt8) ∉ u → (u ++ ([32] ++ v)).takeWhile (· != 32) = u := by
    intro u v hu
    induction u with
    | nil => rfl
    | cons c u ih =>
      simp only [List.mem_cons, not_or] at hu
      simp [Ne.symm hu.1]
      simpa using ih hu.2
  rw [h3 _ _ (by simpa using h32), List.reverse_reverse]

/-- long names are numbers, or at least words without blanks and backslashes -/
def AltOk (r : Rorp) : Prop :=
  (∀ s, r.mirrorname = some s → (32 : UInt8) ∉ s ∧ (92 : UInt8) ∉ s) ∧ (∀ s, r.incname = some s → (32 : UInt8) ∉ s ∧ (92 : UInt8) ∉ s)

theorem unquote_plain {s : Bytes} (h : (92 : UInt8) ∉ s) : unquotePath s = s := by
  induction s with
  | nil => rfl
  | cons c s ih =>
    simp only [List.mem_cons, not_or] at h
    cases s with
    | nil => rfl
    | cons d s =>
      rw [unquotePath]
      have : c ≠ bs := fun e => h.1 e.symm
      simp only [this, false_and, if_false]
      rw [ih h.2]

theorem altsOf_recOf (hardlinks : Bool) {r : Rorp} (h : Storable r) (ha : AltOk r) :
    altsOf .mirrorMetadata (recOf hardlinks r) =
      (if r.type = none then none else r.mirrorname.or r.incname).toList := by
  have key : ∀ fs : List (Bytes × Bytes), (∀ f ∈ fs, FieldName f.1 ∧ Value f.2) →
      altsOf .mirrorMetadata (mkRec (quotePath (indexPath r.index)) fs) =
        (fs.filter fun f => decide (f.1 = lit "AlternateIncrementName" ∨ f.1 = lit "AlternateMirrorName")).map
          fun f => unquotePath (lastWord (32 :: 32 :: (f.1 ++ 32 :: f.2) ++ [nl])) := by
    intro fs
    induction fs with
    | nil => intro _; rfl
    | cons f fs ih =>
      intro hfs
      have ih := ih (fun g hg => hfs g (by simp [hg]))
      have hf := (hfs f (by simp)).1.2
      unfold altsOf mkRec at ih ⊢
      simp only [List.map_cons, List.filter_cons]
      by_cases hx : f.1 = lit "AlternateIncrementName" ∨ f.1 = lit "AlternateMirrorName"
      · rw [if_pos ((isAlt_field hf).2 hx), if_pos (by simpa using hx), List.map_cons, List.map_cons, ih]; rfl
      · rw [if_neg (fun h => hx ((isAlt_field hf).1 h)), if_neg (by simpa using hx), ih]
  have hw : ∀ (n d : Bytes), Value d → (32 : UInt8) ∉ d ∧ (92 : UInt8) ∉ d →
      unquotePath (lastWord (32 :: 32 :: (n ++ 32 :: d) ++ [nl])) = d := by
    intro n d hd h2
    have : (32 : UInt8) :: 32 :: (n ++ 32 :: d) ++ [nl] = (32 :: 32 :: n) ++ 32 :: d ++ [nl] := by simp
    rw [this, lastWord_field hd h2.1, unquote_plain h2.2]
  unfold recOf
  rw [key _ (fieldsOf_ok hardlinks h)]
  unfold fieldsOf
  cases hty : r.type with
  | none => simp; decide
  | some ty =>
    simp only [reduceCtorEq, if_false]
    have e : ((fieldList hardlinks r ty).filter fun f => decide (f.1 = lit "AlternateIncrementName" ∨ f.1 = lit "AlternateMirrorName")) =
        (match r.mirrorname, r.incname with
         | some m, _ => [(lit "AlternateMirrorName", m)]
         | none, some i => [(lit "AlternateIncrementName", i)]
         | none, none => []) := by
      have hd : ∀ n ∈ ["Type", "Size", "NumHardLinks", "Inode", "DeviceLoc", "SHA1Digest", "SymData", "DeviceNum", "ModTime", "Uid", "Uname",
          "Gid", "Gname", "Permissions"], ∀ d : Bytes, decide ((lit n, d).1 = lit "AlternateIncrementName" ∨ (lit n, d).1 = lit "AlternateMirrorName") = false := by
        intro n hn d
        show decide (lit n = lit "AlternateIncrementName" ∨ lit n = lit "AlternateMirrorName") = false
        revert n
        decide
      have hno : ∀ (L M : List (Bytes × Bytes)), (∀ f ∈ L, ∃ n ∈ ["Type", "Size", "NumHardLinks", "Inode", "DeviceLoc", "SHA1Digest", "SymData",
          "DeviceNum", "ModTime", "Uid", "Uname", "Gid", "Gname", "Permissions"], f.1 = lit n) →
          ((L ++ M).filter fun f => decide (f.1 = lit "AlternateIncrementName" ∨ f.1 = lit "AlternateMirrorName")) =
            M.filter fun f => decide (f.1 = lit "AlternateIncrementName" ∨ f.1 = lit "AlternateMirrorName") := by
        intro L M hL
        rw [List.filter_append, List.filter_eq_nil_iff.2, List.nil_append]
        intro f hf
        obtain ⟨n, hn, hfn⟩ := hL f hf
        have := hd n hn f.2
        simp only at this
        rw [hfn, this]; simp
      unfold fieldList
      rw [hno]
      · cases r.mirrorname <;> cases r.incname <;> simp
      · intro f hf
        simp only [List.mem_append] at hf
        rcases hf with ((hf | hf) | hf) | hf
        · exact ⟨"Type", by simp, by rw [List.mem_singleton.1 hf]⟩
        · cases ty with
          | reg =>
            simp only [List.mem_append] at hf
            rcases hf with (hf | hf) | hf
            · exact ⟨"Size", by simp, by rw [List.mem_singleton.1 hf]⟩
            · split at hf
              · simp only [List.mem_cons, List.not_mem_nil, or_false] at hf
                rcases hf with rfl | rfl | rfl
                exacts [⟨"NumHardLinks", by simp, rfl⟩, ⟨"Inode", by simp, rfl⟩, ⟨"DeviceLoc", by simp, rfl⟩]
              · simp at hf
            · split at hf
              · exact ⟨"SHA1Digest", by simp, by rw [List.mem_singleton.1 hf]⟩
              · simp at hf
          | dir | sock | fifo => simp at hf
          | sym => exact ⟨"SymData", by simp, by rw [List.mem_singleton.1 hf]⟩
          | dev => exact ⟨"DeviceNum", by simp, by rw [List.mem_singleton.1 hf]⟩
        · split at hf
          · exact ⟨"ModTime", by simp, by rw [List.mem_singleton.1 hf]⟩
          · simp at hf
        · simp only [List.mem_cons, List.not_mem_nil, or_false] at hf
          rcases hf with rfl | rfl | rfl | rfl | rfl
          exacts [⟨"Uid", by simp, rfl⟩, ⟨"Uname", by simp, rfl⟩, ⟨"Gid", by simp, rfl⟩, ⟨"Gname", by simp, rfl⟩, ⟨"Permissions", by simp, rfl⟩]
    rw [e]
    cases hm : r.mirrorname with
    | some m => exact congrArg (fun x => [x]) (hw _ m (h.mirrorname m hm) (ha.1 m hm))
    | none =>
      cases hi : r.incname with
      | some i => exact congrArg (fun x => [x]) (hw _ i (h.incname i hi) (ha.2 i hi))
      | none => simp

theorem removeText_metadata (hardlinks : Bool) {p : List Bytes} (hp : Comps p) (hp0 : p ≠ []) (hp1 : p ≠ [[46]]) (rs : List Rorp)
    (h : ∀ r ∈ rs, Storable r) (ha : ∀ r ∈ rs, AltOk r) (max max' : Nat) {text : Bytes}
    (hw : writeObjects max (objectToRecord hardlinks) rs = some text) :
    writeObjects max' (objectToRecord hardlinks) (rs.filter fun r => !(p.isPrefixOf r.index)) =
        some (removeText .mirrorMetadata p text).out ∧
      (removeText .mirrorMetadata p text).alts =
        (rs.filter fun r => p.isPrefixOf r.index).flatMap (fun r => (if r.type = none then none else r.mirrorname.or r.incname).toList) ∧
      (removeText .mirrorMetadata p text).removed = rs.any fun r => p.isPrefixOf r.index := by
  have hw1 := fun (m : Nat) (l : List Rorp) (hl : ∀ r ∈ l, Storable r) =>
    writeObjects_spec m (objectToRecord hardlinks) l (fun r => (recOf hardlinks r).text (lit "File "))
      (fun r hr => (recOf_spec hardlinks (hl r hr)).2)
  rw [hw1 max rs h] at hw
  have ht : text = texts (Kind.mirrorMetadata.marker) (rs.map (recOf hardlinks)) := by
    rw [← Option.some.inj hw]; simp [texts, Kind.marker, List.flatMap_map]
  have hhit : ∀ r ∈ rs, hits .mirrorMetadata (Kind.mirrorMetadata.quote (indexPath p)) (recOf hardlinks r) = p.isPrefixOf r.index := by
    intro r hr
    rw [Bool.eq_iff_iff, List.isPrefixOf_iff_prefix]
    refine hits_iff (k := .mirrorMetadata) (by simp) hp (h r hr).comps hp0 hp1 (h r hr).notDot _ ?_
    simp only [Kind.marker, Kind.quote, List.mem_append, not_or]
    exact ⟨by decide, C15.quote_no_newline _⟩
  have hf : ∀ b : Bool → Bool, ((rs.map (recOf hardlinks)).filter fun r => b (hits .mirrorMetadata (Kind.mirrorMetadata.quote (indexPath p)) r)) =
      (rs.filter fun r => b (p.isPrefixOf r.index)).map (recOf hardlinks) := by
    intro b
    rw [List.filter_map]
    congr 1
    apply List.filter_congr
    intro r hr
    simp [hhit r hr]
  rw [ht, removeText_recs (by decide) _ (by
    intro x hx
    obtain ⟨r, hr, rfl⟩ := List.mem_map.1 hx
    exact (recOf_spec hardlinks (h r hr)).1)]
  refine ⟨?_, ?_, ?_⟩
  · rw [hw1 max' _ (fun r hr => h r (List.mem_of_mem_filter hr))]
    have := hf (fun b => !b)
    rw [this]
    simp [texts, Kind.marker, List.flatMap_map]
  · have := hf id
    simp only [id] at this
    show List.flatMap (altsOf Kind.mirrorMetadata) (List.filter (fun r => hits .mirrorMetadata (Kind.mirrorMetadata.quote (indexPath p)) r) _) = _
    rw [this, List.flatMap_map]
    apply List.flatMap_congr
    intro r hr
    have hr := List.mem_of_mem_filter hr
    exact altsOf_recOf hardlinks (h r hr) (ha r hr)
  · simp only [List.any_map]
    rw [Bool.eq_iff_iff, List.any_eq_true, List.any_eq_true]
    constructor
    · rintro ⟨r, hr, hh⟩; exact ⟨r, hr, by rw [← hhit r hr]; exact hh⟩
    · rintro ⟨r, hr, hh⟩; exact ⟨r, hr, by rw [← hhit r hr] at hh; exact hh⟩

end Verif.RemoveLines
