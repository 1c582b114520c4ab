import Verif.Proof.Attrs
import Verif.Props.C11
/-
Lemmas about access control lists, whole files and joining.
-/
namespace Verif.Attrs
open Verif Verif.Quoting Verif.FlatFile Verif.MetaRecord Verif.Collate

/-! ### entries -/

theorem fmtInt_chars (i : Int) : ∀ c ∈ fmtInt i, c ≠ 10 ∧ c ≠ 35 ∧ c ≠ 58 := by
  have hd : ∀ n : Nat, ∀ c ∈ fmtNat n, c ≠ 10 ∧ c ≠ 35 ∧ c ≠ 58 := by
    intro n c hc
    have := List.all_eq_true.1 (fmtNat_spec n).2.1 c hc
    simp only [isDigit, Bool.and_eq_true, decide_eq_true_eq] at this
    refine ⟨?_, ?_, ?_⟩ <;> (rintro rfl; revert this; decide)
  intro c hc
  unfold fmtInt at hc
  split at hc
  · rcases List.mem_cons.1 hc with rfl | hc
    · decide
    · exact hd _ c hc
  · exact hd _ c hc

theorem fmtInt_ne (i : Int) : fmtInt i ≠ [] := (fmtInt_value i).1.1

section
variable {int : Bytes → Option Int}

theorem qualifier_text {id : Option Int} {name : Option Bytes} (h : Qualifier int id name) (hint : ∀ i, int (fmtInt i) = some i) :
    nameOrId id name ≠ [] ∧ (∀ c ∈ nameOrId id name, c ≠ 10 ∧ c ≠ 35 ∧ c ≠ 58) ∧
      idOrName int (nameOrId id name) = (match name with | some n => (none, some n) | none => (id, none)) := by
  rcases h with ⟨n, rfl, hn⟩ | ⟨rfl, hid⟩
  · have e : nameOrId id (some n) = n := by
      cases n with
      | nil => exact absurd rfl hn.nonempty
      | cons c n => rfl
    rw [e]
    refine ⟨hn.nonempty, ?_, ?_⟩
    · intro c hc
      refine ⟨?_, ?_, ?_⟩ <;> rintro rfl
      exacts [hn.oneLine hc, hn.noHash hc, hn.noColon hc]
    · simp [idOrName, hn.noNumber]
  · cases id with
    | none => exact absurd rfl hid
    | some i =>
      have e : nameOrId (some i) none = fmtInt i := rfl
      rw [e]
      exact ⟨fmtInt_ne i, fmtInt_chars i, by simp [idOrName, hint]⟩

theorem perm_text : ∀ p < 8, permOf (permText p) = some p ∧ (∀ c ∈ permText p, c ≠ 10 ∧ c ≠ 35 ∧ c ≠ 58 ∧ isStrSpace c = false) := by
  decide +kernel

/-- the three parts of the text of an entry -/
theorem who_text {w : Who} (hw : match w with
      | .user id name => Qualifier int id name
      | .group id name => Qualifier int id name
      | _ => True) (hint : ∀ i, int (fmtInt i) = some i) :
    ∃ type q, w.text = type ++ 58 :: (q ++ [58]) ∧ type ∈ [lit "user", lit "group", lit "mask", lit "other"] ∧
      (∀ c ∈ q, c ≠ 10 ∧ c ≠ 35 ∧ c ≠ 58) ∧ whoOf int type q = some (keptWho w) := by
  cases w with
  | owner => exact ⟨lit "user", [], by decide, by decide, by decide, rfl⟩
  | owningGroup => exact ⟨lit "group", [], by decide, by decide, by decide, rfl⟩
  | mask => exact ⟨lit "mask", [], by decide, by decide, by decide, rfl⟩
  | other => exact ⟨lit "other", [], by decide, by decide, by decide, rfl⟩
  | user id name =>
    obtain ⟨h1, h2, h3⟩ := qualifier_text hw hint
    refine ⟨lit "user", nameOrId id name, ?_, by decide, h2, ?_⟩
    · have : lit "user:" = lit "user" ++ [58] := by decide
      simp [Who.text, this]; decide
    · simp only [whoOf, h1, h3, ne_eq, not_false_eq_true, if_true]
      cases name <;> rfl
  | group id name =>
    obtain ⟨h1, h2, h3⟩ := qualifier_text hw hint
    refine ⟨lit "group", nameOrId id name, ?_, by decide, h2, ?_⟩
    · have : lit "group:" = lit "group" ++ [58] := by decide
      simp [Who.text, this]; decide
    · have : lit "group" ≠ lit "user" := by decide
      simp only [whoOf, h1, h3, ne_eq, not_false_eq_true, if_true, this, if_false]
      cases name <;> rfl

theorem type_chars : ∀ type ∈ [lit "user", lit "group", lit "mask", lit "other"],
    type ≠ [] ∧ (∀ c ∈ type, c ≠ 10 ∧ c ≠ 35 ∧ c ≠ 58 ∧ isStrSpace c = false ∧ c ≠ 100 ∨ c = 100) ∧ (∀ c ∈ type, c ≠ 10 ∧ c ≠ 35 ∧ c ≠ 58 ∧ isStrSpace c = false) ∧
      (∀ c ∈ type.head?, c ≠ 100 ∧ c ≠ 35) := by
  decide +kernel

/-- the text of an entry -/
theorem entry_text {e : Entry} (h : GoodEntry int e) (hint : ∀ i, int (fmtInt i) = some i) :
    entryOf int (entryText e) = some (keptEntry e) ∧ (∀ c ∈ entryText e, c ≠ 10 ∧ c ≠ 35) ∧
      (∀ c ∈ (entryText e).head?, isStrSpace c = false ∧ c ≠ 100) ∧ (∀ c ∈ (entryText e).getLast?, isStrSpace c = false) ∧
      entryText e ≠ [] := by
  obtain ⟨type, q, h1, h2, h3, h4⟩ := who_text h.2 hint
  obtain ⟨h5, h6⟩ := perm_text e.perms h.1
  obtain ⟨h7, -, h8, h9⟩ := type_chars type h2
  have et : entryText e = type ++ 58 :: (q ++ 58 :: permText e.perms) := by simp [entryText, h1]
  rw [et]
  refine ⟨?_, ?_, ?_, ?_, by simp⟩
  · rw [entryOf, splitOn_cons (fun hc => (h8 _ hc).2.2.1 rfl), splitOn_cons (fun hc => (h3 _ hc).2.2 rfl),
      splitOn_last (fun hc => (h6 _ hc).2.2.1 rfl)]
    simp [h4, h5, keptEntry]
  · intro c hc
    simp only [List.mem_append, List.mem_cons] at hc
    rcases hc with hc | rfl | hc | rfl | hc
    · exact ⟨(h8 c hc).1, (h8 c hc).2.1⟩
    · decide
    · exact ⟨(h3 c hc).1, (h3 c hc).2.1⟩
    · decide
    · exact ⟨(h6 c hc).1, (h6 c hc).2.1⟩
  · intro c hc
    cases type with
    | nil => exact absurd rfl h7
    | cons d t =>
      simp only [List.cons_append, List.head?_cons, Option.mem_def, Option.some.injEq] at hc
      subst hc
      exact ⟨(h8 _ (by simp)).2.2.2, (h9 _ (by simp)).1⟩
  · intro c hc
    have : c ∈ (permText e.perms).getLast? := by
      have e2 : type ++ 58 :: (q ++ 58 :: permText e.perms) = (type ++ 58 :: (q ++ [58])) ++ permText e.perms := by simp
      rw [e2, List.getLast?_append] at hc
      have : permText e.perms ≠ [] := by simp [permText]
      rw [List.getLast?_eq_some_getLast this] at hc ⊢
      simpa using hc
    exact (h6 c (List.mem_of_mem_getLast? this)).2.2.2

theorem takeWhile_all {p : UInt8 → Bool} {l : Bytes} (h : ∀ c ∈ l, p c = true) : l.takeWhile p = l := by
  induction l with
  | nil => rfl
  | cons c l ih => rw [List.takeWhile_cons, if_pos (h c (by simp)), ih fun c hc => h c (by simp [hc])]

theorem aclReadLine_entry {e : Entry} (h : GoodEntry int e) (hint : ∀ i, int (fmtInt i) = some i) (st : List Entry × List Entry) :
    aclReadLine int st (entryText e) = some (st.1 ++ [keptEntry e], st.2) := by
  obtain ⟨h1, h2, h3, h4, h5⟩ := entry_text h hint
  have hs : strStrip ((entryText e).takeWhile (· != 35)) = entryText e := by
    rw [takeWhile_all (fun c hc => by simpa using (h2 c hc).2)]
    exact strip_of (fun c hc => (h3 c hc).1) h4
  have hd : (lit "default:").isPrefixOf (entryText e) = false := by
    cases ht : entryText e with
    | nil => exact absurd ht h5
    | cons c t =>
      rw [ht] at h3
      have : lit "default:" = 100 :: lit "efault:" := by decide
      rw [this]
      simp only [List.isPrefixOf, Bool.and_eq_false_iff, beq_eq_false_iff_ne, ne_eq]
      exact .inl (fun hh => (h3 c (by simp)).2 hh.symm)
  simp only [aclReadLine, hs, h5, if_false, hd, h1, Option.map_some, Bool.false_eq_true]

theorem aclReadLine_default {e : Entry} (h : GoodEntry int e) (hint : ∀ i, int (fmtInt i) = some i) (st : List Entry × List Entry) :
    aclReadLine int st (lit "default:" ++ entryText e) = some (st.1, st.2 ++ [keptEntry e]) := by
  obtain ⟨h1, h2, h3, h4, h5⟩ := entry_text h hint
  have hc : ∀ c ∈ lit "default:", c ≠ 10 ∧ c ≠ 35 ∧ isStrSpace c = false := by decide +kernel
  have hs : strStrip ((lit "default:" ++ entryText e).takeWhile (· != 35)) = lit "default:" ++ entryText e := by
    rw [takeWhile_all]
    · refine strip_of ?_ ?_
      · intro c hc
        have : c ∈ (lit "default:").head? := by
          have h8 : lit "default:" = 100 :: lit "efault:" := by decide
          rw [h8] at hc ⊢
          simpa using hc
        clear hc
        revert c; decide +kernel
      · intro c hc
        rw [List.getLast?_append, List.getLast?_eq_some_getLast h5] at hc
        exact h4 c (by rw [List.getLast?_eq_some_getLast h5]; simpa using hc)
    · intro c hm
      rcases List.mem_append.1 hm with hm | hm
      · simpa using (hc c hm).2.1
      · simpa using (h2 c hm).2
  have h8 : (lit "default:").length = 8 := by decide
  have hd : (lit "default:").isPrefixOf (lit "default:" ++ entryText e) = true := by
    rw [List.isPrefixOf_iff_prefix]; exact List.prefix_append _ _
  have hn : lit "default:" ++ entryText e ≠ [] := by simp [h5]
  simp only [aclReadLine, hs, hn, if_false, hd, if_true]
  rw [List.drop_append_of_le_length (by omega), List.drop_of_length_le (by omega), List.nil_append, h1]
  rfl

theorem read_entries {l : List Entry} (h : ∀ e ∈ l, GoodEntry int e) (hint : ∀ i, int (fmtInt i) = some i) (st : List Entry × List Entry) :
    (l.map entryText).foldlM (aclReadLine int) st = some (st.1 ++ l.map keptEntry, st.2) := by
  induction l generalizing st with
  | nil => simp
  | cons e l ih =>
    rw [List.map_cons, List.foldlM_cons, aclReadLine_entry (h e (by simp)) hint]
    simp only [Option.bind_eq_bind, Option.bind_some]
    rw [ih fun e he => h e (by simp [he])]
    simp

theorem read_defaults {l : List Entry} (h : ∀ e ∈ l, GoodEntry int e) (hint : ∀ i, int (fmtInt i) = some i) (st : List Entry × List Entry) :
    (l.map fun e => lit "default:" ++ entryText e).foldlM (aclReadLine int) st = some (st.1, st.2 ++ l.map keptEntry) := by
  induction l generalizing st with
  | nil => simp
  | cons e l ih =>
    rw [List.map_cons, List.foldlM_cons, aclReadLine_default (h e (by simp)) hint]
    simp only [Option.bind_eq_bind, Option.bind_some]
    rw [ih fun e he => h e (by simp [he])]
    simp

/-- the lines of an access control list -/
def aclLines (a : Acl) : List Bytes := a.entries.map entryText ++ a.defaults.map fun e => lit "default:" ++ entryText e

/-- the record as lines -/
def aclRec (a : Acl) : Rec := ⟨AclQuote.quote (indexPath a.index), aclLines a⟩

theorem aclRec_text {a : Acl} (h : a.entries ≠ []) : aclToRecord a = (aclRec a).text (lit "# file: ") := by
  have : a.text ++ [nl] = joinLines (aclLines a) := by
    simp only [Acl.text, h, if_false]
    cases hl : a.entries.map entryText ++ (a.defaults.map fun e => lit "default:" ++ entryText e) with
    | nil => simp [h] at hl
    | cons l L => rw [joinNl_eq, aclLines, hl]
  simp only [aclToRecord, aclRec, Rec.text, Rec.lines, joinLines_cons, ← this]
  simp

theorem aclRec_ok {a : Acl} (h : GoodAcl int a) (hint : ∀ i, int (fmtInt i) = some i) : (aclRec a).Ok (lit "# file: ") := by
  refine ⟨quote_no_nl _, ?_⟩
  intro l hl
  have hp : ∀ l : Bytes, (∀ c ∈ l, c ≠ 10 ∧ c ≠ 35) → nl ∉ l ∧ ¬ lit "# file: " <+: l := by
    intro l hl
    refine ⟨fun hn => (hl _ hn).1 rfl, fun hp => (hl 35 (hp.subset (by decide))).2 rfl⟩
  rcases List.mem_append.1 hl with hl | hl
  · obtain ⟨e, he, rfl⟩ := List.mem_map.1 hl
    exact hp _ (entry_text (h.entries e he) hint).2.1
  · obtain ⟨e, he, rfl⟩ := List.mem_map.1 hl
    refine hp _ fun c hc => ?_
    rcases List.mem_append.1 hc with hc | hc
    · have : ∀ c ∈ lit "default:", c ≠ 10 ∧ c ≠ 35 := by decide +kernel
      exact this c hc
    · exact (entry_text (h.defaults e he) hint).2.1 c hc

theorem aclOfRecord_text {a : Acl} (h : GoodAcl int a) (hint : ∀ i, int (fmtInt i) = some i) :
    aclOfRecord int ((aclRec a).text (lit "# file: ")) = some ⟨a.index, a.entries.map keptEntry, a.defaults.map keptEntry⟩ := by
  have hok := aclRec_ok h hint
  have h8 : (lit "# file: ").length = 8 := by decide
  have hh : nl ∉ lit "# file: " ++ (aclRec a).name := by
    simp only [List.mem_append, not_or]
    exact ⟨by decide, hok.name⟩
  have et : (aclRec a).text (lit "# file: ") = (lit "# file: " ++ (aclRec a).name) ++ nl :: joinLines (aclLines a) := by
    simp [Rec.text, Rec.lines, aclRec]
  rw [et, aclOfRecord, if_neg (by simp), takeWhile_line hh]
  simp only
  rw [List.drop_left]
  have hp : (lit "# file: ").isPrefixOf (lit "# file: " ++ (aclRec a).name) = true := by
    rw [List.isPrefixOf_iff_prefix]; exact List.prefix_append _ _
  rw [hp]
  have hs : splitOn nl (nl :: joinLines (aclLines a)) = [] :: (aclLines a ++ [[]]) := by
    have := splitOn_cons (d := nl) (l := []) (by simp) (joinLines (aclLines a))
    rw [List.nil_append] at this
    rw [this, splitOn_lines (aclLines a) fun l hl => (hok.body l hl).1]
  have hnil : ∀ st, aclReadLine int st [] = some st := fun st => by simp [aclReadLine, strStrip]
  rw [hs, List.foldlM_cons, hnil]
  simp only [Option.bind_eq_bind, Option.bind_some, Bool.not_true, Bool.false_eq_true, if_false]
  rw [List.foldlM_append, aclLines, List.foldlM_append, read_entries h.entries hint]
  simp only [Option.bind_eq_bind, Option.bind_some]
  rw [read_defaults h.defaults hint]
  simp only [Option.bind_some, List.foldlM_cons, hnil, List.foldlM_nil, Option.bind_eq_bind]
  simp only [Option.pure_def, Option.map_some, List.nil_append, Option.some.injEq, Acl.mk.injEq, and_true]
  rw [List.drop_append_of_le_length (by omega), List.drop_of_length_le (by omega), List.nil_append]
  exact aclIndex_quote h.index

end

/-! ### whole files -/

/-- objects written and read back -/
theorem getObjects_written {O : Type} {pre : Bytes} (hpre : nl ∉ pre) (hne : pre ≠ []) {toIndex : Bytes → List Bytes}
    {toObj : Bytes → Option O} {idx : O → List Bytes} {toRecord : O → Bytes} (rec : O → Rec) (f : O → O) {objs : List O}
    (h : ∀ o ∈ objs, (rec o).Ok pre ∧ toRecord o = (rec o).text pre ∧ toObj ((rec o).text pre) = some (f o) ∧
      toIndex (rec o).name = idx o ∧ idx (f o) = idx o)
    (hsort : objs.Pairwise fun a b => idx a < idx b) (max : Nat) (sizes : Nat → Nat) (index : List Bytes) :
    ∃ content, writeObjects max (fun o => some (toRecord o)) objs = some content ∧
      getObjects pre sizes toIndex toObj idx index content = (objs.filter fun o => index.isPrefixOf (idx o)).map f := by
  have hw := writeObjects_spec max (fun o => some (toRecord o)) objs (fun o => (rec o).text pre) fun o ho => by rw [(h o ho).2.1]
  have ht : (objs.flatMap fun o => (rec o).text pre) = texts pre (objs.map rec) := by simp [texts, List.flatMap_map]
  have hfm : ∀ l : List O, (∀ o ∈ l, o ∈ objs) → (l.map rec).filterMap (fun x => toObj (x.text pre)) = l.map f := by
    intro l hl
    induction l with
    | nil => rfl
    | cons o l ih =>
      rw [List.map_cons, List.filterMap_cons, (h o (hl o (by simp))).2.2.1]
      simp only [List.map_cons]
      rw [ih fun o ho => hl o (by simp [ho])]
  have hok : ∀ x ∈ objs.map rec, x.Ok pre := by
    intro x hx
    obtain ⟨o, ho, rfl⟩ := List.mem_map.1 hx
    exact (h o ho).1
  refine ⟨_, hw, ?_⟩
  rw [ht]
  unfold getObjects
  by_cases hi : index = []
  · rw [if_pos hi, iterate, iterateRecords_spec hpre hne hok _ _ rfl rfl (Nat.lt_succ_of_le (length_texts _)), List.filterMap_map]
    subst hi
    rw [show objs.filter (fun o => ([] : List Bytes).isPrefixOf (idx o)) = objs from List.filter_eq_self.2 fun o _ => by simp]
    exact hfm objs fun o ho => ho
  · rw [if_neg hi, iterateStartingWith_spec hpre hne (rs := objs.map rec) hok]
    · rw [List.filter_map, List.filter_congr (q := fun o : O => index.isPrefixOf (idx o))]
      · exact hfm _ fun o ho => (List.mem_filter.1 ho).1
      · intro o ho
        simp only [Function.comp, (h o ho).2.2.2.1]
        exact isPrefixOf_inst _ _ inferInstance inferInstance _ _
    · intro x hx o ho
      obtain ⟨r, hr, rfl⟩ := List.mem_map.1 hx
      rw [(h r hr).2.2.1] at ho
      rw [← Option.some.inj ho, (h r hr).2.2.2.2, (h r hr).2.2.2.1]
    · rw [List.pairwise_map]
      refine hsort.imp_of_mem ?_
      intro a b ha hb hab
      rw [(h a ha).2.2.2.1, (h b hb).2.2.2.1]
      exact hab

/-! ### joining -/

section
variable {K R O : Type} [LinearOrder K] {ridx : R → K} {oidx : O → K}

theorem loop_held (rs : List R) (y : O) (os : List O) :
    collate2Loop ridx oidx none rs (some y) os = collate2Loop ridx oidx none rs none (y :: os) := by
  cases rs with
  | nil => simp [collate2Loop]
  | cons x rs =>
    conv => lhs; rw [collate2Loop]
    conv => rhs; rw [collate2Loop, collate2Loop]

theorem collate_some (rs : List R) (hs : rs.Pairwise fun a b => ridx a < ridx b) (g : R → Option O)
    (hg : ∀ r ∈ rs, ∀ o, g r = some o → oidx o = ridx r) :
    collate2 ridx oidx rs (rs.filterMap g) = rs.map fun r => (some r, g r) := by
  unfold collate2
  induction rs with
  | nil => simp [collate2Loop]
  | cons x rs ih =>
    have ih := ih (List.pairwise_cons.1 hs).2 fun r hr => hg r (by simp [hr])
    rw [collate2Loop, List.filterMap_cons]
    cases hx : g x with
    | some o =>
      simp only
      rw [collate2Loop, collate2Loop, hg x (by simp) o hx, if_neg (lt_irrefl _), if_pos rfl, ih]
      simp [hx]
    | none =>
      simp only
      cases hf : rs.filterMap g with
      | nil =>
        rw [collate2Loop]
        simp only [List.map_cons, hx, List.cons.injEq, true_and]
        refine List.map_congr_left fun r hr => ?_
        have : g r = none := by
          by_contra hne
          obtain ⟨o, ho⟩ := Option.ne_none_iff_exists'.1 hne
          have : o ∈ rs.filterMap g := List.mem_filterMap.2 ⟨r, hr, ho⟩
          rw [hf] at this
          cases this
        rw [this]
      | cons y os =>
        have hy : y ∈ rs.filterMap g := by rw [hf]; simp
        obtain ⟨r, hr, hgr⟩ := List.mem_filterMap.1 hy
        have hlt : ridx x < oidx y := by
          rw [hg r (by simp [hr]) y hgr]
          exact (List.pairwise_cons.1 hs).1 r hr
        rw [collate2Loop, collate2Loop, if_pos hlt, loop_held, ← hf, ih]
        simp [hx]

theorem joinIter_some {blank : K → O} (rs : List R) (hs : rs.Pairwise fun a b => ridx a < ridx b) (g : R → Option O)
    (hg : ∀ r ∈ rs, ∀ o, g r = some o → oidx o = ridx r) :
    joinIter ridx oidx blank rs (rs.filterMap g) = some (rs.map fun r => (r, (g r).getD (blank (ridx r)))) := by
  unfold joinIter
  rw [collate_some rs hs g hg]
  clear hs hg
  induction rs with
  | nil => rfl
  | cons r rs ih =>
    simp only [List.map_cons, List.mapM_cons, ih]
    cases g r <;> rfl

/-- a record without a path -/
theorem joinIter_missing {blank : K → O} (rs : List R) (os : List O) (hs : rs.Pairwise fun a b => ridx a < ridx b)
    (ho : os.Pairwise fun a b => oidx a < oidx b) {o : O} (hm : o ∈ os) (hn : ∀ r ∈ rs, ridx r ≠ oidx o) :
    joinIter ridx oidx blank rs os = none := by
  have hj := C11.collate2_outer_join ridx oidx rs os hs ho
  obtain ⟨ks, -, hks, hrow⟩ := hj
  have hk : oidx o ∈ ks := (hks _).2 (.inr ⟨o, hm, rfl⟩)
  have : ∃ p ∈ collate2 ridx oidx rs os, p.1 = none := by
    clear hks
    revert hk hrow
    generalize collate2 ridx oidx rs os = rows
    intro hrow
    induction hrow with
    | nil => intro h; cases h
    | cons hr _ ih =>
      intro hk
      rcases List.mem_cons.1 hk with rfl | hk
      · refine ⟨_, List.mem_cons_self, ?_⟩
        rw [Option.eq_none_iff_forall_ne_some]
        intro x hx
        obtain ⟨h1, h2⟩ := (hr.2.1 x).1 hx
        exact hn x h1 h2
      · obtain ⟨p, hp, hp1⟩ := ih hk
        exact ⟨p, by simp [hp], hp1⟩
  obtain ⟨p, hp, hp1⟩ := this
  unfold joinIter
  generalize collate2 ridx oidx rs os = rows at hp
  clear hrow
  induction rows with
  | nil => cases hp
  | cons q rows ih =>
    rw [List.mapM_cons]
    rcases List.mem_cons.1 hp with rfl | hp
    · obtain ⟨a, b⟩ := p
      simp only at hp1
      subst hp1
      rfl
    · rw [ih hp]
      obtain ⟨a, b⟩ := q
      cases a <;> cases b <;> rfl

end

end Verif.Attrs
