import Verif.Model.FlatFile
import Verif.Proof.Index
/- Reading flat files: the records, whatever the sizes of the reads. -/
namespace Verif.FlatFile
open Verif.Quoting (nl)

def joinLines (L : List Bytes) : Bytes := L.flatMap (· ++ [nl])

@[simp] theorem joinLines_nil : joinLines [] = [] := rfl
@[simp] theorem joinLines_cons (l : Bytes) (L : List Bytes) : joinLines (l :: L) = l ++ nl :: joinLines L := by
  simp [joinLines]
theorem joinLines_append (L L' : List Bytes) : joinLines (L ++ L') = joinLines L ++ joinLines L' := by
  simp [joinLines]

/-- a record: what follows `pre` in its first line, and the other lines -/
structure Rec where
  name : Bytes
  body : List Bytes

variable (pre : Bytes)

def Rec.lines (r : Rec) : List Bytes := (pre ++ r.name) :: r.body
def Rec.text (r : Rec) : Bytes := joinLines (r.lines pre)
def texts (rs : List Rec) : Bytes := rs.flatMap (Rec.text pre)

/-- lines are lines, and only the first one starts with `pre` -/
structure Rec.Ok (r : Rec) : Prop where
  name : nl ∉ r.name
  body : ∀ l ∈ r.body, nl ∉ l ∧ ¬ pre <+: l

variable {pre}

theorem startsLine_false_of_no_nl {r : Bytes} (h : nl ∉ r) : startsLine pre r = false := by
  unfold startsLine
  rw [Bool.and_eq_false_iff]
  right
  rw [Bool.eq_false_iff]
  intro hc
  exact h (List.mem_of_mem_drop (List.contains_iff_mem.1 hc))

theorem scan_no_nl {s : Bytes} (h : nl ∉ s) (k : Nat) : scan pre s k = none := by
  induction s generalizing k with
  | nil => rfl
  | cons c r ih =>
    simp only [List.mem_cons, not_or] at h
    rw [scan, if_neg, ih h.2]
    simp only [Bool.and_eq_true, beq_iff_eq, not_and]
    exact fun e => absurd e.symm h.1

/-- a prefix without newline is a prefix of the first line -/
theorem prefix_line {p l t : Bytes} (hp : nl ∉ p) (h : p <+: l ++ nl :: t) : p <+: l := by
  rcases List.prefix_or_prefix_of_prefix h (List.prefix_append l _) with h' | h'
  · exact h'
  · obtain ⟨u, rfl⟩ := h'
    cases u with
    | nil => simp
    | cons c u =>
      rw [List.prefix_append_right_inj] at h
      obtain ⟨v, hv⟩ := h
      rw [List.cons_append, List.cons.injEq] at hv
      exact absurd (by rw [hv.1]; simp) hp

theorem startsLine_false_of_line {l t s : Bytes} (hpre : nl ∉ pre) (hl : ¬ pre <+: l) (hs : s <+: l ++ nl :: t) :
    startsLine pre s = false := by
  unfold startsLine
  rw [Bool.and_eq_false_iff]
  left
  rw [Bool.eq_false_iff]
  intro hc
  exact hl (prefix_line hpre ((List.isPrefixOf_iff_prefix.1 hc).trans hs))

theorem startsLine_true {name t : Bytes} : startsLine pre (pre ++ name ++ nl :: t) = true := by
  unfold startsLine
  rw [Bool.and_eq_true]
  refine ⟨by rw [List.isPrefixOf_iff_prefix, List.append_assoc]; exact List.prefix_append _ _, ?_⟩
  rw [List.append_assoc, List.drop_left]
  simp

/-- no boundary is found in a part of a record and the beginning of the next one -/
theorem scan_none {l0 : Bytes} {L : List Bytes} {name s : Bytes} (hpre : nl ∉ pre) (h0 : nl ∉ l0)
    (hL : ∀ l ∈ L, nl ∉ l ∧ ¬ pre <+: l) (hn : nl ∉ name) (hs : s <+: l0 ++ nl :: (joinLines L ++ (pre ++ name))) (k : Nat) :
    scan pre s k = none := by
  induction L generalizing l0 s k with
  | nil =>
    induction l0 generalizing s k with
    | nil =>
      cases s with
      | nil => rfl
      | cons c s =>
        simp only [List.nil_append, joinLines_nil, List.cons_prefix_cons] at hs
        have : nl ∉ s := fun hm => by
          rcases List.mem_append.1 (hs.2.subset hm) with h | h
          · exact hpre h
          · exact hn h
        rw [scan, startsLine_false_of_no_nl this, Bool.and_false, if_neg (by simp), scan_no_nl this]
    | cons c l0 ih =>
      cases s with
      | nil => rfl
      | cons d s =>
        simp only [List.mem_cons, not_or] at h0
        rw [List.cons_append, List.cons_prefix_cons] at hs
        rw [scan, if_neg, ih h0.2 hs.2]
        simp only [Bool.and_eq_true, beq_iff_eq, not_and]
        rw [hs.1]
        exact fun e => absurd e.symm h0.1
  | cons l1 L ihL =>
    induction l0 generalizing s k with
    | nil =>
      cases s with
      | nil => rfl
      | cons c s =>
        simp only [List.nil_append, joinLines_cons, List.cons_prefix_cons, List.append_assoc, List.cons_append] at hs
        have h1 := hL l1 List.mem_cons_self
        rw [scan, startsLine_false_of_line hpre h1.2 hs.2, Bool.and_false, if_neg (by simp)]
        exact ihL h1.1 (fun l hl => hL l (List.mem_cons_of_mem _ hl)) hs.2 _
    | cons c l0 ih =>
      cases s with
      | nil => rfl
      | cons d s =>
        simp only [List.mem_cons, not_or] at h0
        rw [List.cons_append, List.cons_prefix_cons] at hs
        rw [scan, if_neg, ih h0.2 hs.2]
        simp only [Bool.and_eq_true, beq_iff_eq, not_and]
        rw [hs.1]
        exact fun e => absurd e.symm h0.1

/-- the boundary after some lines is found -/
theorem scan_some {l0 : Bytes} {L : List Bytes} {t : Bytes} (hpre : nl ∉ pre) (h0 : nl ∉ l0)
    (hL : ∀ l ∈ L, nl ∉ l ∧ ¬ pre <+: l) (ht : startsLine pre t = true) (k : Nat) :
    scan pre (l0 ++ nl :: (joinLines L ++ t)) k = some (k + (l0.length + 1 + (joinLines L).length)) := by
  have hskip : ∀ (l0 u : Bytes) (k : Nat), nl ∉ l0 → scan pre (l0 ++ u) k = scan pre u (k + l0.length) := by
    intro l0 u
    induction l0 with
    | nil => intro k _; rfl
    | cons c l0 ih =>
      intro k h
      simp only [List.mem_cons, not_or] at h
      rw [List.cons_append, scan, if_neg, ih _ h.2]
      · simp [Nat.add_comm, Nat.add_left_comm]
      · simp only [Bool.and_eq_true, beq_iff_eq, not_and]
        exact fun e => absurd e.symm h.1
  induction L generalizing l0 k with
  | nil =>
    rw [hskip _ _ _ h0]
    simp [scan, ht, Nat.add_assoc]
  | cons l1 L ih =>
    have h1 := hL l1 List.mem_cons_self
    rw [hskip _ _ _ h0, scan]
    rw [if_neg, joinLines_cons, List.append_assoc, List.cons_append, ih h1.1 fun l hl => hL l (List.mem_cons_of_mem _ hl)]
    · simp; omega
    · rw [joinLines_cons, List.append_assoc, List.cons_append, startsLine_false_of_line hpre h1.2 (List.prefix_refl _)]
      simp

section next
variable {sizes : Nat → Nat} (hpre : nl ∉ pre) (hne : pre ≠ [])
include hpre hne

theorem search1_some {r : Rec} (hr : r.Ok pre) {t : Bytes} (ht : startsLine pre t = true) :
    searchFrom1 pre (r.text pre ++ t) = some (r.text pre).length := by
  obtain ⟨c, cs, rfl⟩ := List.exists_cons_of_ne_nil hne
  unfold searchFrom1 Rec.text Rec.lines
  simp only [joinLines_cons, List.cons_append, List.append_assoc, List.drop_one, List.tail_cons]
  have h0 : nl ∉ cs ++ r.name := by
    intro hm
    rcases List.mem_append.1 hm with h | h
    · exact hpre (List.mem_cons_of_mem _ h)
    · exact hr.name h
  have := scan_some (pre := c :: cs) (L := r.body) (t := t) hpre h0 hr.body ht 1
  simp only [List.append_assoc, List.cons_append] at this
  rw [this]
  simp; omega

theorem search1_none {r : Rec} (hr : r.Ok pre) {name s : Bytes} (hn : nl ∉ name) (hs : s <+: r.text pre ++ (pre ++ name)) :
    searchFrom1 pre s = none := by
  obtain ⟨c, cs, rfl⟩ := List.exists_cons_of_ne_nil hne
  cases s with
  | nil => rfl
  | cons d s =>
    unfold searchFrom1
    rw [List.drop_one, List.tail_cons]
    unfold Rec.text Rec.lines at hs
    simp only [joinLines_cons, List.cons_append, List.append_assoc, List.cons_prefix_cons] at hs
    have h0 : nl ∉ cs ++ r.name := by
      intro hm
      rcases List.mem_append.1 hm with h | h
      · exact hpre (List.mem_cons_of_mem _ h)
      · exact hr.name h
    exact scan_none (L := r.body) (name := name) hpre h0 hr.body hn (by simpa using hs.2) _

omit hpre hne in
theorem texts_startsLine {r : Rec} {rs : List Rec} : startsLine pre (texts pre (r :: rs)) = true := by
  simp only [texts, List.flatMap_cons, Rec.text, Rec.lines, joinLines_cons, List.append_assoc, List.cons_append]
  rw [← List.append_assoc]
  exact startsLine_true

/-- `_get_next_pos` finds the end of the current record, by reading as much as is needed -/
theorem getNextPos_spec {r : Rec} (hr : r.Ok pre) {rs : List Rec} (hrs : ∀ r ∈ rs, r.Ok pre) (fuel : Nat) (s : St)
    (hend : s.atEnd = false) (hs : s.buf ++ s.rest = texts pre (r :: rs)) (hf : s.rest.length < fuel) :
    ∃ s', getNextPos pre sizes fuel s = ((r.text pre).length, s') ∧ s'.buf ++ s'.rest = s.buf ++ s.rest ∧
      s'.rest.length ≤ s.rest.length ∧ (s'.atEnd = true ↔ rs = []) ∧ s'.buf.take (r.text pre).length = r.text pre ∧
      s'.buf.drop (r.text pre).length ++ s'.rest = texts pre rs := by
  induction fuel generalizing s with
  | zero => omega
  | succ fuel ih =>
    rw [getNextPos]
    cases rs with
    | nil =>
      have htext : s.buf ++ s.rest = r.text pre := by simpa [texts] using hs
      have hnone : searchFrom1 pre s.buf = none :=
        search1_none hpre hne hr (name := []) (by simp) (htext ▸ (List.prefix_append _ _).trans (List.prefix_append _ _))
      rw [hnone]
      simp only
      by_cases hrest : s.rest = []
      · have hb : s.buf = r.text pre := by simpa [hrest] using htext
        rw [if_pos (by simp [hrest])]
        refine ⟨_, by rw [hb], ?_, ?_, by simp, ?_, ?_⟩ <;> simp [hrest, hb, texts]
      · have hnew : s.rest.take (sizes s.k + 1) ≠ [] := by simp [hrest]
        rw [if_neg hnew]
        have happ : (s.buf ++ s.rest.take (sizes s.k + 1)) ++ s.rest.drop (sizes s.k + 1) = s.buf ++ s.rest := by
          rw [List.append_assoc, List.take_append_drop]
        have hlen : (s.rest.drop (sizes s.k + 1)).length < s.rest.length := by
          have := List.length_pos_iff.2 hrest
          rw [List.length_drop]; omega
        obtain ⟨s', h1, h2, h3, h4, h5, h6⟩ := ih
          { s with buf := s.buf ++ s.rest.take (sizes s.k + 1), rest := s.rest.drop (sizes s.k + 1), k := s.k + 1 } hend
          (happ.trans hs) (by show (s.rest.drop (sizes s.k + 1)).length < fuel; omega)
        exact ⟨s', h1, h2.trans happ, Nat.le_trans h3 (Nat.le_of_lt hlen), by simpa using h4, h5, h6⟩
    | cons r2 rs =>
      have hr2 := hrs r2 List.mem_cons_self
      have hbuf : s.buf <+: texts pre (r :: r2 :: rs) := ⟨_, hs⟩
      obtain ⟨more, hmore⟩ : ∃ more, texts pre (r :: r2 :: rs) = r.text pre ++ (pre ++ r2.name) ++ nl :: more := by
        refine ⟨joinLines r2.body ++ texts pre rs, ?_⟩
        simp [texts, Rec.text, Rec.lines]
      rcases List.prefix_or_prefix_of_prefix hbuf
        (show r.text pre ++ (pre ++ r2.name) ++ [nl] <+: texts pre (r :: r2 :: rs) from ⟨more, by rw [hmore]; simp⟩) with hp | hp
      · by_cases heq : s.buf = r.text pre ++ (pre ++ r2.name) ++ [nl]
        · have hsearch : searchFrom1 pre s.buf = some (r.text pre).length := by
            rw [show s.buf = r.text pre ++ (pre ++ r2.name ++ nl :: []) by rw [heq]; simp]
            exact search1_some hpre hne hr startsLine_true
          rw [hsearch]
          refine ⟨s, rfl, rfl, Nat.le_refl _, by simp [hend], ?_, ?_⟩
          · rw [heq]; simp
          · have := congrArg (List.drop (r.text pre).length) hs
            rw [List.drop_append_of_le_length (by rw [heq]; simp)] at this
            rw [this]; simp [texts]
        · have hs' : s.buf <+: r.text pre ++ (pre ++ r2.name) := by
            rcases List.prefix_concat_iff.1 hp with h | h
            · exact absurd h heq
            · exact h
          rw [search1_none hpre hne hr hr2.name hs']
          simp only
          have hrest : s.rest ≠ [] := by
            intro h0
            rw [h0, List.append_nil] at hs
            rw [hs, hmore] at hs'
            have := hs'.length_le
            simp at this; omega
          have hnew : s.rest.take (sizes s.k + 1) ≠ [] := by simp [hrest]
          rw [if_neg hnew]
          have happ : (s.buf ++ s.rest.take (sizes s.k + 1)) ++ s.rest.drop (sizes s.k + 1) = s.buf ++ s.rest := by
            rw [List.append_assoc, List.take_append_drop]
          have hlen : (s.rest.drop (sizes s.k + 1)).length < s.rest.length := by
            have := List.length_pos_iff.2 hrest
            rw [List.length_drop]; omega
          obtain ⟨s', h1, h2, h3, h4, h5, h6⟩ := ih
            { s with buf := s.buf ++ s.rest.take (sizes s.k + 1), rest := s.rest.drop (sizes s.k + 1), k := s.k + 1 } hend
            (happ.trans hs) (by show (s.rest.drop (sizes s.k + 1)).length < fuel; omega)
          exact ⟨s', h1, h2.trans happ, Nat.le_trans h3 (Nat.le_of_lt hlen), h4, h5, h6⟩
      · obtain ⟨u, hu⟩ := hp
        have hb : s.buf = r.text pre ++ (pre ++ r2.name ++ nl :: u) := by rw [← hu]; simp
        have hsearch : searchFrom1 pre s.buf = some (r.text pre).length := by
          rw [hb]; exact search1_some hpre hne hr startsLine_true
        rw [hsearch]
        refine ⟨s, rfl, rfl, Nat.le_refl _, by simp [hend], by rw [hb]; simp, ?_⟩
        have := congrArg (List.drop (r.text pre).length) hs
        rw [List.drop_append_of_le_length (by rw [hb]; simp)] at this
        rw [this]; simp [texts]

theorem iterateRecords_spec {rs : List Rec} (hrs : ∀ r ∈ rs, r.Ok pre) (fuel : Nat) (s : St) (hend : s.atEnd = false)
    (hs : s.buf ++ s.rest = texts pre rs) (hf : rs.length < fuel) : iterateRecords pre sizes fuel s = rs.map (Rec.text pre) := by
  induction fuel generalizing rs s with
  | zero => omega
  | succ fuel ih =>
    rw [iterateRecords]
    cases rs with
    | nil =>
      simp only [texts, List.flatMap_nil, List.append_eq_nil_iff] at hs
      simp [hs.2, hs.1, getNextPos, searchFrom1, scan]
    | cons r rs =>
      obtain ⟨s', h1, h2, h3, h4, h5, h6⟩ := getNextPos_spec (sizes := sizes) hpre hne (hrs r List.mem_cons_self)
        (fun r hr => hrs r (List.mem_cons_of_mem _ hr)) (s.rest.length + 1) s hend hs (Nat.lt_succ_self _)
      rw [h1]
      simp only
      have hpos : (r.text pre).length ≠ 0 := by simp [Rec.text, Rec.lines]
      by_cases hnil : rs = []
      · rw [if_pos (h4.2 hnil), if_pos hpos, h5, hnil]; rfl
      · rw [if_neg (fun h => hnil (h4.1 h)), h5,
          ih (fun r hr => hrs r (List.mem_cons_of_mem _ hr)) _ _ h6 (by simp at hf; omega)]
        · rfl
        · show s'.atEnd = false
          rw [Bool.eq_false_iff]; exact fun h => hnil (h4.1 h)

end next

theorem length_texts (rs : List Rec) : rs.length ≤ (texts pre rs).length := by
  induction rs with
  | nil => simp
  | cons r rs ih => simp only [texts, List.flatMap_cons, List.length_append, List.length_cons] at *; simp [Rec.text, Rec.lines] at *; omega

/-! ### reading from an index on -/

section skip
variable {α : Type} [LinearOrder α] {toIndex : Bytes → List α} {index : List α}

variable (pre toIndex index) in
/-- the first record which is not before `index`, on lines -/
def dropUntil : List Bytes → List Bytes
  | [] => []
  | l :: L => if pre.isPrefixOf l ∧ index ≤ toIndex (l.drop pre.length) then l :: L else dropUntil L

theorem dropUntil_append (A B : List Bytes) :
    dropUntil pre toIndex index (A ++ B) =
      if dropUntil pre toIndex index A = [] then dropUntil pre toIndex index B else dropUntil pre toIndex index A ++ B := by
  induction A with
  | nil => simp [dropUntil]
  | cons l A ih =>
    rw [List.cons_append, dropUntil, dropUntil]
    split
    · simp
    · exact ih

theorem dropUntil_nonheader {A : List Bytes} (h : ∀ l ∈ A, ¬ pre <+: l) (B : List Bytes) :
    dropUntil pre toIndex index (A ++ B) = dropUntil pre toIndex index B := by
  induction A with
  | nil => rfl
  | cons l A ih =>
    rw [List.cons_append, dropUntil, if_neg, ih fun l hl => h l (List.mem_cons_of_mem _ hl)]
    rw [List.isPrefixOf_iff_prefix]
    exact fun hh => h l List.mem_cons_self hh.1

/-- lines up to the first header -/
theorem first_header (L : List Bytes) :
    (∀ l ∈ L, ¬ pre <+: l) ∨ ∃ A name B, L = A ++ (pre ++ name) :: B ∧ ∀ l ∈ A, ¬ pre <+: l := by
  induction L with
  | nil => left; simp
  | cons l L ih =>
    by_cases h : pre <+: l
    · obtain ⟨name, rfl⟩ := h
      exact .inr ⟨[], name, L, rfl, by simp⟩
    · rcases ih with ih | ⟨A, name, B, rfl, hA⟩
      · exact .inl fun x hx => by rcases List.mem_cons.1 hx with rfl | hx; exacts [h, ih x hx]
      · exact .inr ⟨l :: A, name, B, rfl, fun x hx => by rcases List.mem_cons.1 hx with rfl | hx; exacts [h, hA x hx]⟩

theorem takeWhile_line {h t : Bytes} (hh : nl ∉ h) : (h ++ nl :: t).takeWhile (· != nl) = h := by
  induction h with
  | nil => simp
  | cons c h ih =>
    simp only [List.mem_cons, not_or] at hh
    rw [List.cons_append, List.takeWhile_cons_of_pos (by simpa using fun e => hh.1 e.symm), ih hh.2]

variable (hpre : nl ∉ pre) (hne : pre ≠ [])
include hpre hne

theorem startsLine_nl (t : Bytes) : startsLine pre (nl :: t) = false := by
  obtain ⟨c, cs, rfl⟩ := List.exists_cons_of_ne_nil hne
  exact startsLine_false_of_line (l := []) (t := t) hpre (by simp) (List.prefix_refl _)

theorem search_none {L : List Bytes} (hL : ∀ l ∈ L, nl ∉ l) (hh : ∀ l ∈ L, ¬ pre <+: l) :
    search pre (joinLines L) = none ∧ search pre (nl :: joinLines L) = none := by
  have hb : ∀ l ∈ L, nl ∉ l ∧ ¬ pre <+: l := fun l hl => ⟨hL l hl, hh l hl⟩
  constructor
  · unfold search
    cases L with
    | nil => rw [joinLines_nil, if_neg (by simp [startsLine])]; rfl
    | cons l L =>
      have h1 := hb l List.mem_cons_self
      rw [joinLines_cons, startsLine_false_of_line hpre h1.2 (List.prefix_refl _), if_neg (by simp)]
      exact scan_none (L := L) (name := []) hpre h1.1 (fun l hl => hb l (List.mem_cons_of_mem _ hl)) (by simp)
        (by rw [List.prefix_append_right_inj, List.cons_prefix_cons]; exact ⟨rfl, List.prefix_append _ _⟩) _
  · unfold search
    rw [startsLine_nl hpre hne, if_neg (by simp)]
    exact scan_none (l0 := []) (L := L) (name := []) hpre (by simp) hb (by simp)
        (by rw [List.nil_append, List.cons_prefix_cons]; exact ⟨rfl, List.prefix_append _ _⟩) _

theorem search_header {A B : List Bytes} {name : Bytes} (hA : ∀ l ∈ A, nl ∉ l ∧ ¬ pre <+: l) :
    search pre (joinLines (A ++ (pre ++ name) :: B)) = some (joinLines A).length ∧
    search pre (nl :: joinLines (A ++ (pre ++ name) :: B)) = some ((joinLines A).length + 1) := by
  have ht : startsLine pre (pre ++ name ++ nl :: joinLines B) = true := startsLine_true
  rw [joinLines_append, joinLines_cons]
  constructor
  · unfold search
    cases A with
    | nil => rw [joinLines_nil, List.nil_append, ht]; rfl
    | cons l A =>
      have h1 := hA l List.mem_cons_self
      rw [joinLines_cons, List.append_assoc, List.cons_append, startsLine_false_of_line hpre h1.2 (List.prefix_refl _), if_neg (by simp),
        scan_some (L := A) hpre h1.1 (fun l hl => hA l (List.mem_cons_of_mem _ hl)) ht]
      simp; omega
  · unfold search
    rw [startsLine_nl hpre hne, if_neg (by simp)]
    have := scan_some (l0 := []) (L := A) hpre (by simp) hA ht 0
    rw [List.nil_append] at this
    rw [this]
    simp; omega

theorem skipInner_spec {L : List Bytes} (hL : ∀ l ∈ L, nl ∉ l) (fuel : Nat) (hf : L.length < fuel) (buf : Bytes)
    (hb : buf = joinLines L ∨ buf = nl :: joinLines L) :
    skipInner pre toIndex index fuel buf =
      if dropUntil pre toIndex index L = [] then none else some (joinLines (dropUntil pre toIndex index L)) := by
  induction fuel generalizing L buf with
  | zero => omega
  | succ fuel ih =>
    rw [skipInner]
    rcases first_header (pre := pre) L with hh | ⟨A, name, B, rfl, hA⟩
    · have h0 : dropUntil pre toIndex index L = [] := by
        have := dropUntil_nonheader (toIndex := toIndex) (index := index) hh []
        simpa [dropUntil] using this
      have := search_none hpre hne hL hh
      rw [if_pos h0]
      rcases hb with rfl | rfl
      · rw [this.1]
      · rw [this.2]
    · have hA' : ∀ l ∈ A, nl ∉ l ∧ ¬ pre <+: l := fun l hl => ⟨hL l (by simp [hl]), hA l hl⟩
      have hh : nl ∉ pre ++ name := hL _ (by simp)
      obtain ⟨p, hp, hd⟩ : ∃ p, search pre buf = some p ∧ buf.drop p = joinLines ((pre ++ name) :: B) := by
        have := search_header hpre hne (B := B) (name := name) hA'
        rcases hb with rfl | rfl
        · exact ⟨_, this.1, by rw [joinLines_append]; simp⟩
        · exact ⟨_, this.2, by rw [joinLines_append]; simp⟩
      rw [hp]
      simp only [hd, joinLines_cons, takeWhile_line hh, List.drop_left]
      rw [dropUntil_nonheader hA, dropUntil]
      simp only [List.drop_left]
      have hpp : pre.isPrefixOf (pre ++ name) = true := by simp [List.isPrefixOf_iff_prefix]
      by_cases hle : index ≤ toIndex name
      · simp only [hle, hpp, and_self, if_true]
        simp
      · simp only [hle, and_false, if_false]
        apply ih
        · exact fun l hl => hL l (by simp [hl])
        · simp at hf; omega
        · right
          rw [← List.drop_drop, hd, joinLines_cons, List.drop_left]

omit hpre hne in
theorem readline_line {l : Bytes} (hl : nl ∉ l) (R : Bytes) : readline (l ++ nl :: R) = (l ++ [nl], R) := by
  induction l with
  | nil => simp [readline]
  | cons c l ih =>
    simp only [List.mem_cons, not_or] at hl
    rw [List.cons_append, readline, if_neg (by simpa using fun e => hl.1 e.symm), ih hl.2]
    rfl

omit hpre hne in
/-- a block and the rest of its last line is a number of lines -/
theorem block_lines (L : List Bytes) (hL : ∀ l ∈ L, nl ∉ l) (m : Nat) :
    ∃ A B, L = A ++ B ∧ (joinLines L).take m ++ (readline ((joinLines L).drop m)).1 = joinLines A ∧
      (readline ((joinLines L).drop m)).2 = joinLines B ∧ (A = [] → L = []) := by
  induction L generalizing m with
  | nil => exact ⟨[], [], rfl, by simp [readline], by simp [readline], fun _ => rfl⟩
  | cons l L ih =>
    have hl := hL l List.mem_cons_self
    rw [joinLines_cons]
    by_cases hm : m ≤ l.length
    · have hd : nl ∉ l.drop m := fun h => hl (List.mem_of_mem_drop h)
      rw [List.take_append_of_le_length hm, List.drop_append_of_le_length hm, readline_line hd]
      refine ⟨[l], L, rfl, ?_, rfl, by simp⟩
      simp only [joinLines_cons, joinLines_nil]
      rw [← List.append_assoc, List.take_append_drop]
    · obtain ⟨A, B, h1, h2, h3, h4⟩ := ih (fun l hl => hL l (List.mem_cons_of_mem _ hl)) (m - l.length - 1)
      have hm' : m = l.length + ((m - l.length - 1) + 1) := by omega
      have e1 : (l ++ nl :: joinLines L).take m = l ++ nl :: (joinLines L).take (m - l.length - 1) := by
        rw [hm', List.take_length_add_append, List.take_succ_cons]
        congr 3; omega
      have e2 : (l ++ nl :: joinLines L).drop m = (joinLines L).drop (m - l.length - 1) := by
        rw [hm', List.drop_length_add_append, List.drop_succ_cons]
        congr 1; omega
      rw [e1, e2]
      exact ⟨l :: A, B, by rw [h1]; rfl, by simp [h2], h3, by simp⟩

omit hpre hne in
theorem length_joinLines (A : List Bytes) : A.length ≤ (joinLines A).length := by
  induction A with
  | nil => simp
  | cons l A ih => simp; omega

theorem skipToIndex_spec {sizes : Nat → Nat} {L : List Bytes} (hL : ∀ l ∈ L, nl ∉ l) (fuel : Nat) (hf : L.length < fuel) (s : St)
    (hend : s.atEnd = false) (hs : s.rest = joinLines L) :
    ∃ s', skipToIndex pre sizes toIndex index fuel s = s' ∧
      (if dropUntil pre toIndex index L = [] then s'.atEnd = true
       else s'.atEnd = false ∧ s'.buf ++ s'.rest = joinLines (dropUntil pre toIndex index L)) := by
  induction fuel generalizing L s with
  | zero => omega
  | succ fuel ih =>
    refine ⟨_, rfl, ?_⟩
    rw [skipToIndex]
    obtain ⟨A, B, h1, h2, h3, h4⟩ := block_lines L hL (sizes s.k + 1)
    simp only [hs, h2, h3]
    subst h1
    by_cases hA : A = []
    · have := h4 hA
      rw [hA, List.nil_append] at this
      subst hA this
      simp [dropUntil]
    · have hjA : joinLines A ≠ [] := by
        cases A with
        | nil => exact absurd rfl hA
        | cons => simp
      rw [if_neg hjA, skipInner_spec hpre hne (fun l hl => hL l (by simp [hl])) _ (by
        have : A.length ≤ (joinLines A).length := by
          exact length_joinLines A
        omega) _ (.inl rfl), dropUntil_append]
      by_cases hd : dropUntil pre toIndex index A = []
      · rw [if_pos hd]
        simp only [hd, if_true]
        obtain ⟨s', e, hs'⟩ := ih (L := B) (fun l hl => hL l (by simp [hl])) (by
          have := List.length_pos_iff.2 hA
          simp at hf; omega) { s with buf := joinLines A, rest := joinLines B, k := s.k + 1 } hend rfl
        rw [e]; exact hs'
      · rw [if_neg hd]
        simp only [hd, if_false, List.append_eq_nil_iff, false_and, joinLines_append]
        exact ⟨hend, trivial⟩

omit hpre hne in
theorem dropUntil_recs {rs : List Rec} (hrs : ∀ r ∈ rs, r.Ok pre) :
    dropUntil pre toIndex index (rs.flatMap (Rec.lines pre)) =
      (rs.dropWhile (fun r => ¬ index ≤ toIndex r.name)).flatMap (Rec.lines pre) := by
  induction rs with
  | nil => rfl
  | cons r rs ih =>
    have hr := hrs r List.mem_cons_self
    rw [List.flatMap_cons, Rec.lines, List.cons_append, dropUntil, List.drop_left]
    have hpp : pre.isPrefixOf (pre ++ r.name) = true := by simp [List.isPrefixOf_iff_prefix]
    by_cases h : index ≤ toIndex r.name
    · rw [if_pos ⟨hpp, h⟩, List.dropWhile_cons_of_neg (by simpa using h)]
      rfl
    · rw [if_neg (fun hh => h hh.2), List.dropWhile_cons_of_pos (by simpa using h),
        dropUntil_nonheader fun l hl => (hr.body l hl).2]
      exact ih fun r hr => hrs r (List.mem_cons_of_mem _ hr)

omit hpre hne in
theorem texts_eq (rs : List Rec) : texts pre rs = joinLines (rs.flatMap (Rec.lines pre)) := by
  induction rs with
  | nil => rfl
  | cons r rs ih => rw [List.flatMap_cons, joinLines_append, ← ih]; rfl

variable {β : Type} {toObj : Bytes → Option β} {idx : β → List α}

theorem startingLoop_spec {sizes : Nat → Nat} {rs : List Rec} (hrs : ∀ r ∈ rs, r.Ok pre)
    (hobj : ∀ r ∈ rs, ∀ o, toObj (r.text pre) = some o → idx o = toIndex r.name)
    (hge : ∀ r ∈ rs, index ≤ toIndex r.name) (hsort : rs.Pairwise fun a b => toIndex a.name < toIndex b.name)
    (fuel : Nat) (hf : rs.length ≤ fuel) (hex : rs ≠ []) (s : St) (hend : s.atEnd = false) (hs : s.buf ++ s.rest = texts pre rs) :
    startingLoop pre sizes toObj idx index fuel s =
      (rs.filter fun r => index.isPrefixOf (toIndex r.name)).filterMap fun r => toObj (r.text pre) := by
  induction fuel generalizing rs s with
  | zero => cases rs with
    | nil => exact absurd rfl hex
    | cons => simp at hf
  | succ fuel ih =>
    cases rs with
    | nil => exact absurd rfl hex
    | cons r rs =>
      obtain ⟨s', h1, h2, h3, h4, h5, h6⟩ := getNextPos_spec (sizes := sizes) hpre hne (hrs r List.mem_cons_self)
        (fun r hr => hrs r (List.mem_cons_of_mem _ hr)) (s.rest.length + 1) s hend hs (Nat.lt_succ_self _)
      rw [startingLoop, h1]
      simp only [h5]
      have hrec : (if s'.atEnd then [] else startingLoop pre sizes toObj idx index fuel { s' with buf := s'.buf.drop (r.text pre).length }) =
          (rs.filter fun r => index.isPrefixOf (toIndex r.name)).filterMap fun r => toObj (r.text pre) := by
        by_cases hnil : rs = []
        · rw [if_pos (h4.2 hnil), hnil]; rfl
        · rw [if_neg (fun h => hnil (h4.1 h))]
          refine ih (fun r hr => hrs r (List.mem_cons_of_mem _ hr)) (fun r hr => hobj r (List.mem_cons_of_mem _ hr))
            (fun r hr => hge r (List.mem_cons_of_mem _ hr)) (List.pairwise_cons.1 hsort).2 (by simp at hf; omega) hnil _ ?_ h6
          show s'.atEnd = false
          rw [Bool.eq_false_iff]; exact fun h => hnil (h4.1 h)
      have hpfx : ∀ o, toObj (r.text pre) = some o → ((idx o).take index.length = index ↔ index.isPrefixOf (toIndex r.name) = true) := by
        intro o ho
        rw [hobj r List.mem_cons_self o ho, List.isPrefixOf_iff_prefix, List.prefix_iff_eq_take]
        exact eq_comm
      cases ho : toObj (r.text pre) with
      | none =>
        simp only
        rw [hrec, List.filter_cons]
        split
        · simp [ho]
        · rfl
      | some o =>
        simp only
        by_cases hp : index.isPrefixOf (toIndex r.name) = true
        · rw [if_neg (by rw [not_not]; exact (hpfx o ho).2 hp), hrec, List.filter_cons_of_pos (p := fun r : Rec => index.isPrefixOf (toIndex r.name)) hp]
          simp [ho]
        · rw [if_pos (fun h => hp ((hpfx o ho).1 h)), List.filter_cons_of_neg (p := fun r : Rec => index.isPrefixOf (toIndex r.name)) hp]
          symm
          rw [List.filter_eq_nil_iff.2]
          · rfl
          · intro r2 hr2 hp2
            rw [List.isPrefixOf_iff_prefix] at hp hp2
            exact hp (prefix_convex (List.prefix_refl index) hp2 (hge r List.mem_cons_self)
              (le_of_lt ((List.pairwise_cons.1 hsort).1 r2 hr2)))

theorem iterateStartingWith_spec {sizes : Nat → Nat} {rs : List Rec} (hrs : ∀ r ∈ rs, r.Ok pre)
    (hobj : ∀ r ∈ rs, ∀ o, toObj (r.text pre) = some o → idx o = toIndex r.name)
    (hsort : rs.Pairwise fun a b => toIndex a.name < toIndex b.name) :
    iterateStartingWith pre sizes toIndex toObj idx index (texts pre rs) =
      (rs.filter fun r => index.isPrefixOf (toIndex r.name)).filterMap fun r => toObj (r.text pre) := by
  have hlen : (rs.flatMap (Rec.lines pre)).length ≤ (texts pre rs).length := by
    rw [texts_eq]
    exact length_joinLines _
  have hL : ∀ l ∈ rs.flatMap (Rec.lines pre), nl ∉ l := by
    intro l hl
    obtain ⟨r, hr, hl⟩ := List.mem_flatMap.1 hl
    rcases List.mem_cons.1 hl with rfl | hl
    · intro h
      rcases List.mem_append.1 h with h | h
      · exact hpre h
      · exact (hrs r hr).name h
    · exact ((hrs r hr).body l hl).1
  obtain ⟨s', e, hs'⟩ := skipToIndex_spec (toIndex := toIndex) (index := index) (sizes := sizes) hpre hne hL ((texts pre rs).length + 1)
    (by omega) (open' (texts pre rs)) rfl (texts_eq rs)
  unfold iterateStartingWith
  simp only [e]
  rw [dropUntil_recs hrs] at hs'
  -- records before the first one not less than `index` do not start with `index`
  have hfil : rs.filter (fun r => index.isPrefixOf (toIndex r.name)) =
      (rs.dropWhile fun r => ¬ index ≤ toIndex r.name).filter fun r => index.isPrefixOf (toIndex r.name) := by
    have hsplit := List.takeWhile_append_dropWhile (p := fun r : Rec => decide (¬ index ≤ toIndex r.name)) (l := rs)
    conv => lhs; rw [← hsplit]
    rw [List.filter_append, List.filter_eq_nil_iff.2, List.nil_append]
    intro r hr hp
    have := List.all_eq_true.1 (List.all_takeWhile (p := fun r : Rec => decide (¬ index ≤ toIndex r.name)) (l := rs)) r hr
    rw [List.isPrefixOf_iff_prefix] at hp
    simp only [decide_eq_true_eq] at this
    exact this (prefix_le hp)
  have hsub := List.dropWhile_sublist (fun r : Rec => decide (¬ index ≤ toIndex r.name)) (l := rs)
  have hge : ∀ r ∈ rs.dropWhile (fun r => ¬ index ≤ toIndex r.name), index ≤ toIndex r.name := by
    have hpw := hsort.sublist hsub
    cases hd : rs.dropWhile (fun r => ¬ index ≤ toIndex r.name) with
    | nil => simp
    | cons r0 rs0 =>
      have h0 : index ≤ toIndex r0.name := by
        have := List.head?_dropWhile_not (fun r : Rec => decide (¬ index ≤ toIndex r.name)) rs
        rw [hd] at this
        simpa using this
      rw [hd] at hpw
      intro r hr
      rcases List.mem_cons.1 hr with rfl | hr
      · exact h0
      · exact h0.trans (le_of_lt ((List.pairwise_cons.1 hpw).1 r hr))
  by_cases hnil : rs.dropWhile (fun r => ¬ index ≤ toIndex r.name) = []
  · rw [hnil] at hs' hfil
    simp only [List.flatMap_nil, if_true] at hs'
    rw [if_pos hs', hfil]
    rfl
  · rw [if_neg] at hs'
    · rw [if_neg (by rw [hs'.1]; simp), hfil]
      refine startingLoop_spec hpre hne (fun r hr => hrs r (hsub.subset hr)) (fun r hr => hobj r (hsub.subset hr)) hge
        (hsort.sublist hsub) _ ?_ hnil s' hs'.1 (hs'.2.trans (texts_eq _).symm)
      have := hsub.length_le
      have := length_texts (pre := pre) rs
      omega
    · intro h
      apply hnil
      cases hd : rs.dropWhile (fun r => ¬ index ≤ toIndex r.name) with
      | nil => rfl
      | cons r0 rs0 => rw [hd] at h; simp [Rec.lines] at h

end skip
end Verif.FlatFile
