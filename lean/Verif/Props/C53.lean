import Verif.Proof.AttrsAcl
/-
C53 Extended attributes and access control lists are kept by a backup.
-/
namespace Verif.C53
open Verif Verif.Quoting Verif.FlatFile Verif.MetaRecord Verif.Collate Verif.Attrs

/-- the extended attributes read for the paths at or below `restrict` (meta_mgr.py 71-101) from a file with the given content -/
def readEas {R : Type} (idx : R → List Bytes) (sizes : Nat → Nat) (restrict : List Bytes) (content : Bytes) (rs : List R) :
    Option (List (R × Ea)) :=
  joinIter idx Ea.index (fun i => ⟨i, []⟩) (rs.filter fun r => restrict.isPrefixOf (idx r))
    (getObjects (lit "# file: ") sizes aclIndex eaOfRecord Ea.index restrict content)

/-- the access control lists read for the paths at or below `restrict` -/
def readAcls {R : Type} (int : Bytes → Option Int) (idx : R → List Bytes) (sizes : Nat → Nat) (restrict : List Bytes) (content : Bytes)
    (rs : List R) : Option (List (R × Acl)) :=
  joinIter idx Acl.index (fun i => ⟨i, [], []⟩) (rs.filter fun r => restrict.isPrefixOf (idx r))
    (getObjects (lit "# file: ") sizes aclIndex (aclOfRecord int) Acl.index restrict content)

/-- What is read back in general: every path gets its own extended attributes; the values are unchanged, but the names of attributes
with a value are read in their quoted form. For every list of paths, every buffering of the writer, every size of the reads and every
sub-path. -/
theorem ea_names {R : Type} (idx : R → List Bytes) (ea : R → Ea) (rs : List R) (hsort : rs.Pairwise fun a b => idx a < idx b)
    (hidx : ∀ r ∈ rs, (ea r).index = idx r) (hpath : ∀ r ∈ rs, PathIndex (idx r))
    (hempty : ∀ r ∈ rs, ∀ a ∈ (ea r).attrs, a.2 = [] → LineName a.1)
    (hdist : ∀ r ∈ rs, ((ea r).attrs.map fun a => if a.2 = [] then a.1 else AclQuote.quote a.1).Nodup)
    (max : Nat) (sizes : Nat → Nat) (restrict : List Bytes) :
    ∃ content, eaFile max (rs.map ea) = some content ∧
      readEas idx sizes restrict content rs = some ((rs.filter fun r => restrict.isPrefixOf (idx r)).map fun r =>
        (r, ⟨idx r, (ea r).attrs.map fun a => (if a.2 = [] then a.1 else AclQuote.quote a.1, a.2)⟩)) := by
  have hs : ((rs.map ea).filter fun e => e.attrs ≠ []).Pairwise fun a b => a.index < b.index := by
    apply List.Pairwise.filter
    rw [List.pairwise_map]
    refine hsort.imp_of_mem ?_
    intro a b ha hb hab
    rw [hidx a ha, hidx b hb]; exact hab
  obtain ⟨content, h1, h2⟩ := getObjects_written (pre := lit "# file: ") (by decide) (by decide) (toIndex := aclIndex) (toObj := eaOfRecord)
    (idx := Ea.index) (toRecord := eaToRecord) eaRec (fun e => ⟨e.index, e.attrs.map fun a => (readName a, a.2)⟩)
    (objs := (rs.map ea).filter fun e => e.attrs ≠ []) (by
      intro e he
      obtain ⟨r, hr, rfl⟩ := List.mem_map.1 (List.mem_filter.1 he).1
      have hp : PathIndex (ea r).index := by rw [hidx r hr]; exact hpath r hr
      exact ⟨eaRec_ok (hempty r hr), eaRec_text _, eaOfRecord_text hp (hempty r hr) (hdist r hr), aclIndex_quote hp, rfl⟩)
    hs max sizes restrict
  refine ⟨content, h1, ?_⟩
  unfold readEas
  have hg : (((rs.map ea).filter fun e => e.attrs ≠ []).filter fun o => restrict.isPrefixOf o.index).map
        (fun e => (⟨e.index, e.attrs.map fun a => (readName a, a.2)⟩ : Ea)) =
      (rs.filter fun r => restrict.isPrefixOf (idx r)).filterMap fun r =>
        if (ea r).attrs ≠ [] then some ⟨(ea r).index, (ea r).attrs.map fun a => (readName a, a.2)⟩ else none := by
    clear h1 h2 hs hsort hpath hempty hdist
    induction rs with
    | nil => rfl
    | cons r rs ih =>
      have ih := ih fun r hr => hidx r (by simp [hr])
      have hi := hidx r (by simp)
      simp only [List.map_cons, List.filter_cons]
      by_cases ha : (ea r).attrs = []
      · simp only [ha, ne_eq, not_true_eq_false, decide_false, Bool.false_eq_true, if_false, ih]
        by_cases hp : restrict.isPrefixOf (idx r) = true
        · simp [hp, ha]
        · simp [hp]
      · by_cases hp : restrict.isPrefixOf (idx r) = true
        · simp only [ha, ne_eq, not_false_eq_true, decide_true, if_true, List.filter_cons, hi, hp, List.map_cons, List.filterMap_cons, ih]
        · simp only [ha, ne_eq, not_false_eq_true, decide_true, if_true, List.filter_cons, hi, hp, Bool.false_eq_true, if_false, ih]
  rw [h2, hg, joinIter_some]
  · refine congrArg some (List.map_congr_left fun r hr => ?_)
    have hi := hidx r (List.mem_filter.1 hr).1
    by_cases ha : (ea r).attrs = []
    · simp [ha]
    · simp [ha, hi, readName]
  · exact hsort.filter _
  · intro r hr o ho
    have hi := hidx r (List.mem_filter.1 hr).1
    simp only [ne_eq, ite_not] at ho
    split at ho
    · cases ho
    · rw [← Option.some.inj ho]; exact hi

theorem quote_plain {n : Bytes} (h : ∀ c ∈ n, 33 ≤ c.toNat ∧ c.toNat ≤ 126 ∧ c ≠ 61 ∧ c ≠ 92) : AclQuote.quote n = n := by
  induction n with
  | nil => rfl
  | cons c n ih =>
    obtain ⟨h1, h2, h3, h4⟩ := h c (by simp)
    have : AclQuote.needsQuote c = false := by
      simp [AclQuote.needsQuote, AclQuote.isPrint, AclQuote.isSpace, h3, h4]
      omega
    rw [AclQuote.quote, if_neg (by simp [this]), ih fun c hc => h c (by simp [hc])]

theorem lineName_plain {n : Bytes} (h : PlainName n) : LineName n := by
  have hsp : ∀ c ∈ n, AclQuote.isSpace c = false := by
    intro c hc
    have := h.2 c hc
    simp [AclQuote.isSpace]
    omega
  refine ⟨h.1, ?_, ?_, fun c hc => hsp c (List.mem_of_mem_head? hc), fun c hc => hsp c (List.mem_of_mem_getLast? hc), ?_⟩
  · intro hc
    have := (h.2 _ hc).1
    revert this; decide
  · exact fun hc => (h.2 _ hc).2.2.1 rfl
  · intro hp
    have := hsp 32 (hp.subset (by decide))
    revert this; decide

/-- C53 for extended attributes with plain names: what is written for the paths of a backup is read back for these paths, unchanged,
whatever the values are (empty or not, with any bytes); paths without attributes get none. For every list of paths, every buffering of
the writer, every size of the reads, and every sub-path to which reading is restricted.
Partial: for other names the statement is false, see `ea_kept_iff`. -/
theorem ea_restored_partial {R : Type} (idx : R → List Bytes) (ea : R → Ea) (rs : List R) (hsort : rs.Pairwise fun a b => idx a < idx b)
    (hidx : ∀ r ∈ rs, (ea r).index = idx r) (hplain : ∀ r ∈ rs, PlainEa (ea r)) (max : Nat) (sizes : Nat → Nat) (restrict : List Bytes) :
    ∃ content, eaFile max (rs.map ea) = some content ∧
      readEas idx sizes restrict content rs = some ((rs.filter fun r => restrict.isPrefixOf (idx r)).map fun r => (r, ea r)) := by
  have hq : ∀ r ∈ rs, ∀ a ∈ (ea r).attrs, (if a.2 = [] then a.1 else AclQuote.quote a.1) = a.1 := by
    intro r hr a ha
    rw [quote_plain ((hplain r hr).names a ha).2, ite_self]
  obtain ⟨content, h1, h2⟩ := ea_names idx ea rs hsort hidx (fun r hr => hidx r hr ▸ (hplain r hr).index)
    (fun r hr a ha _ => lineName_plain ((hplain r hr).names a ha)) (fun r hr => by
      have := (hplain r hr).distinct
      rwa [show ((ea r).attrs.map fun a => if a.2 = [] then a.1 else AclQuote.quote a.1) = (ea r).attrs.map (·.1) from
        List.map_congr_left (hq r hr)]) max sizes restrict
  refine ⟨content, h1, h2.trans (congrArg some (List.map_congr_left fun r hr => ?_))⟩
  have hr := (List.mem_filter.1 hr).1
  have : ((ea r).attrs.map fun a => (if a.2 = [] then a.1 else AclQuote.quote a.1, a.2)) = (ea r).attrs := by
    conv => rhs; rw [← List.map_id (ea r).attrs]
    exact List.map_congr_left fun a ha => by rw [hq r hr a ha]; rfl
  rw [this, ← hidx r hr]

theorem quote_length (n : Bytes) : n.length ≤ (AclQuote.quote n).length ∧
    ((AclQuote.quote n).length = n.length → ∀ c ∈ n, AclQuote.needsQuote c = false) := by
  induction n with
  | nil => simp [AclQuote.quote]
  | cons c n ih =>
    rw [AclQuote.quote]
    by_cases hc : AclQuote.needsQuote c = true
    · rw [if_pos hc]
      simp only [List.length_cons]
      exact ⟨by omega, fun h => by omega⟩
    · rw [if_neg hc]
      simp only [List.length_cons, List.mem_cons]
      refine ⟨by omega, fun h => ?_⟩
      rintro x (rfl | hx)
      · simpa using hc
      · exact ih.2 (by omega) x hx

/-- The full statement is false of the code (finding F55): attributes with values are kept exactly if their names are plain; the
names of all others come back changed. -/
theorem ea_kept_iff (ea : Ea) (hpath : PathIndex ea.index) (hval : ∀ a ∈ ea.attrs, a.2 ≠ []) (hdist : (ea.attrs.map (·.1)).Nodup) :
    eaOfRecord (eaToRecord ea) = some ea ↔ ∀ a ∈ ea.attrs, ∀ c ∈ a.1, 33 ≤ c.toNat ∧ c.toNat ≤ 126 ∧ c ≠ 61 ∧ c ≠ 92 := by
  have hd : (ea.attrs.map readName).Nodup := by
    have : ea.attrs.map readName = (ea.attrs.map (·.1)).map AclQuote.quote := by
      rw [List.map_map]
      exact List.map_congr_left fun a ha => by simp [readName, hval a ha]
    rw [this]
    refine List.pairwise_map.2 (hdist.imp ?_)
    exact fun h hq => h (C16.quote_injective hq)
  rw [eaRec_text, eaOfRecord_text hpath (fun a ha h => absurd h (hval a ha)) hd]
  constructor
  · intro h a ha c hc
    have h := congrArg Ea.attrs (Option.some.inj h)
    simp only at h
    have hq : AclQuote.quote a.1 = a.1 := by
      have key : ∀ l : List (Bytes × Bytes), (l.map fun a => (readName a, a.2)) = l → ∀ a ∈ l, readName a = a.1 := by
        intro l
        induction l with
        | nil => simp
        | cons b l ih =>
          intro hl
          rw [List.map_cons, List.cons.injEq] at hl
          intro a ha
          rcases List.mem_cons.1 ha with rfl | ha
          · exact congrArg Prod.fst hl.1
          · exact ih hl.2 a ha
      have := key _ h a ha
      simpa [readName, hval a ha] using this
    have := (quote_length a.1).2 (by rw [hq]) c hc
    simp [AclQuote.needsQuote, AclQuote.isPrint, AclQuote.isSpace] at this
    obtain ⟨⟨⟨h1, h2⟩, h3⟩, h4⟩ := this
    exact ⟨by omega, h1.2, h4, h3⟩
  · intro h
    have : (ea.attrs.map fun a => (readName a, a.2)) = ea.attrs := by
      conv => rhs; rw [← List.map_id ea.attrs]
      refine List.map_congr_left fun a ha => ?_
      simp only [readName, hval a ha, if_false, quote_plain (h a ha)]; rfl
    rw [this]

/-- ... and an attribute without a value whose name contains `=` makes the whole record unreadable (finding F55). -/
theorem ea_record_lost : eaOfRecord (eaToRecord ⟨[lit "f"], [(lit "user.x", lit "v"), (lit "user.a=b", [])]⟩) = none := by decide +kernel

def demoEa : List Ea :=
  [⟨[], [(lit "user.a", [0, 255, 10])]⟩, ⟨[lit "d"], []⟩, ⟨[lit "d", lit "x\ny"], [(lit "user.b", []), (lit "user.c", lit "=")]⟩]

theorem demo_plain : ∀ ea ∈ demoEa, PlainEa ea := by
  intro ea h
  simp only [demoEa, List.mem_cons, List.not_mem_nil, or_false] at h
  rcases h with rfl | rfl | rfl
  all_goals
    refine ⟨?_, ?_, by decide⟩
    · unfold PathIndex; decide
    · intro a ha
      unfold PlainName
      revert a
      decide +kernel

example : ∃ content, eaFile 100 demoEa = some content ∧
    readEas id (fun k => k % 5) [lit "d"] content (demoEa.map Ea.index) = some [([lit "d"], ⟨[lit "d"], []⟩),
      ([lit "d", lit "x\ny"], ⟨[lit "d", lit "x\ny"], [(lit "user.b", []), (lit "user.c", lit "=")]⟩)] :=
  ⟨lit "# file: .\nuser.a=0sAP8K\n# file: d/x\\012y\nuser.b\nuser.c=0sPQ==\n", by decide +kernel, by decide +kernel⟩

/-! ### attributes of files -/

theorem lookup_cons' (a : Bytes × Bytes) (x : List (Bytes × Bytes)) (n : Bytes) :
    (a :: x).lookup n = if n = a.1 then some a.2 else x.lookup n := by
  rw [show a = (a.1, a.2) from rfl, List.lookup_cons]
  by_cases h : n = a.1
  · rw [if_pos h, h]; simp
  · rw [if_neg h]
    have : (n == a.1) = false := by simpa using h
    rw [this]

theorem lookup_filter (p : Bytes → Bool) (x : List (Bytes × Bytes)) (n : Bytes) :
    (x.filter fun a => !p a.1).lookup n = if p n then none else x.lookup n := by
  induction x with
  | nil => simp
  | cons a x ih =>
    rw [List.filter_cons]
    by_cases hr : p a.1 = true
    · rw [if_neg (by simp [hr]), ih, lookup_cons']
      by_cases hn : n = a.1
      · rw [hn, if_pos hr, if_pos hr]
      · rw [if_neg hn]
    · rw [if_pos (by simp [hr]), lookup_cons', lookup_cons', ih]
      by_cases hn : n = a.1
      · rw [if_pos hn, if_pos hn, if_neg (by rw [hn]; exact hr)]
      · rw [if_neg hn, if_neg hn]

theorem lookup_setAttr (x : List (Bytes × Bytes)) (m v n : Bytes) : (setAttr x m v).lookup n = if n = m then some v else x.lookup n := by
  induction x with
  | nil => rw [setAttr, lookup_cons']
  | cons a x ih =>
    rw [setAttr, lookup_cons']
    by_cases ha : a.1 = m
    · rw [if_pos ha, lookup_cons', ha]
      by_cases hn : n = m <;> simp only [hn, if_true, if_false]
    · rw [if_neg ha, lookup_cons', ih]
      by_cases hn : n = m
      · rw [if_pos hn, if_pos hn, if_neg (fun h => ha (h.symm.trans hn))]
      · rw [if_neg hn, if_neg hn]

/-- What `write_to_rp` does to a file: it has exactly the attributes recorded, except those which the system doesn't let be set or removed. -/
theorem ea_written (removable settable : Bytes → Bool) (ea : Ea) (xattrs : List (Bytes × Bytes)) (hdist : (ea.attrs.map (·.1)).Nodup) (n : Bytes) :
    (eaToFile removable settable ea xattrs).lookup n =
      match ea.attrs.lookup n with
      | some v => if settable n then some v else if removable n then none else xattrs.lookup n
      | none => if removable n then none else xattrs.lookup n := by
  unfold eaToFile
  rw [← lookup_filter removable xattrs n]
  simp only [clearFile]
  generalize (xattrs.filter fun a => !removable a.1) = x
  generalize ea.attrs = attrs at hdist
  induction attrs generalizing x with
  | nil => rfl
  | cons a attrs ih =>
    rw [List.map_cons, List.nodup_cons] at hdist
    rw [List.foldl_cons, ih _ hdist.2, lookup_cons']
    by_cases hn : n = a.1
    · have hl : attrs.lookup n = none := by
        rw [hn, List.lookup_eq_none_iff]
        intro b hb
        simp only [bne_iff_ne, ne_eq]
        exact fun h => hdist.1 (List.mem_map.2 ⟨b, hb, h.symm⟩)
      subst hn
      rw [hl]
      by_cases hs : settable a.1 = true
      · simp [lookup_setAttr, hs]
      · simp [hs]
    · rw [if_neg hn]
      by_cases hs : settable a.1 = true
      · rw [if_pos hs, lookup_setAttr, if_neg hn]
      · rw [if_neg hs]

/-- From file to file: after backup and restore a file has the attributes it had, and no others, apart from those of the system (which
are neither recorded nor, here, present on the new file). -/
theorem ea_file_to_file (index : List Bytes) (src dst : List (Bytes × Bytes)) (hdist : (src.map (·.1)).Nodup) (n : Bytes) :
    (eaToFile (fun _ => true) (fun _ => true) (eaOfFile index src) dst).lookup n =
      if (lit "system.").isPrefixOf n then none else src.lookup n := by
  rw [ea_written]
  · rw [eaOfFile, lookup_filter fun n => (lit "system.").isPrefixOf n]
    simp only [if_true]
    cases (if (lit "system.").isPrefixOf n = true then none else src.lookup n) <;> rfl
  · exact (hdist.sublist ((List.filter_sublist (l := src)).map _))

example : eaToFile (fun n => n != lit "security.selinux") (fun _ => true) (eaOfFile [] [(lit "system.posix_acl_access", [1]), (lit "user.a", [2])])
    [(lit "user.old", [3]), (lit "security.selinux", [4])] = [(lit "security.selinux", [4]), (lit "user.a", [2])] := by decide +kernel

/-! ### access control lists -/

theorem isBasic_good {int : Bytes → Option Int} {a : Acl} (h : GoodAcl int a) :
    a.isBasic = some (decide (a.entries.length ≤ 3 ∧ a.defaults = [])) := by
  unfold Acl.isBasic
  rcases h.three with ⟨h1, h2⟩ | h3
  · simp [h1, h2]
  · have hne : a.entries ≠ [] := by rintro h; rw [h] at h3; simp at h3
    rw [if_neg (fun h => hne h.1), if_pos h3]
    congr 1
    by_cases hd : a.defaults = []
    · simp [hd]; omega
    · simp [hd]

theorem aclsToWrite_good {int : Bytes → Option Int} {l : List Acl} (h : ∀ a ∈ l, GoodAcl int a) :
    aclsToWrite l = some (l.filter fun a => !decide (a.entries.length ≤ 3 ∧ a.defaults = [])) := by
  induction l with
  | nil => rfl
  | cons a l ih =>
    rw [aclsToWrite, isBasic_good (h a (by simp)), ih fun a ha => h a (by simp [ha])]
    rw [List.filter_cons]
    by_cases hb : a.entries.length ≤ 3 ∧ a.defaults = []
    · rw [if_neg (by rw [decide_eq_true hb]; decide), decide_eq_true hb]
    · rw [if_pos (by rw [decide_eq_false hb]; rfl), decide_eq_false hb]

/-- C53 for access control lists: every path gets back its own access control list: type, permissions and order of all entries, also of
the default ones, and name or, if there is none, number of the user or group. Paths whose list only has the three basic entries get none
(they are the permissions). For every list of paths, every buffering of the writer, every size of the reads and every sub-path; `int` is
any function which reads the numbers which Python prints. -/
theorem acl_restored {R : Type} (int : Bytes → Option Int) (hint : ∀ i, int (fmtInt i) = some i) (idx : R → List Bytes) (acl : R → Acl)
    (rs : List R) (hsort : rs.Pairwise fun a b => idx a < idx b) (hidx : ∀ r ∈ rs, (acl r).index = idx r)
    (hgood : ∀ r ∈ rs, GoodAcl int (acl r)) (max : Nat) (sizes : Nat → Nat) (restrict : List Bytes) :
    ∃ content, aclFile max (rs.map acl) = some content ∧
      readAcls int idx sizes restrict content rs =
        some ((rs.filter fun r => restrict.isPrefixOf (idx r)).map fun r => (r, keptAcl (acl r))) := by
  have hw := aclsToWrite_good (int := int) (l := rs.map acl) (by
    intro a ha
    obtain ⟨r, hr, rfl⟩ := List.mem_map.1 ha
    exact hgood r hr)
  have hs : ((rs.map acl).filter fun a => !decide (a.entries.length ≤ 3 ∧ a.defaults = [])).Pairwise fun a b => a.index < b.index := by
    apply List.Pairwise.filter
    rw [List.pairwise_map]
    refine hsort.imp_of_mem ?_
    intro a b ha hb hab
    rw [hidx a ha, hidx b hb]; exact hab
  obtain ⟨content, h1, h2⟩ := getObjects_written (pre := lit "# file: ") (by decide) (by decide) (toIndex := aclIndex) (toObj := aclOfRecord int)
    (idx := Acl.index) (toRecord := aclToRecord) aclRec (fun a => ⟨a.index, a.entries.map keptEntry, a.defaults.map keptEntry⟩)
    (objs := (rs.map acl).filter fun a => !decide (a.entries.length ≤ 3 ∧ a.defaults = [])) (by
      intro a ha
      obtain ⟨ha, hb⟩ := List.mem_filter.1 ha
      obtain ⟨r, hr, rfl⟩ := List.mem_map.1 ha
      have hg := hgood r hr
      have hne : (acl r).entries ≠ [] := by
        intro h
        rcases hg.three with ⟨h1, h2⟩ | h3
        · simp [h1, h2] at hb
        · rw [h] at h3; simp at h3
      exact ⟨aclRec_ok hg hint, aclRec_text hne, aclOfRecord_text hg hint, aclIndex_quote hg.index, rfl⟩)
    hs max sizes restrict
  refine ⟨content, by rw [aclFile, hw]; exact h1, ?_⟩
  unfold readAcls
  have hg : (((rs.map acl).filter fun a => !decide (a.entries.length ≤ 3 ∧ a.defaults = [])).filter fun o => restrict.isPrefixOf o.index).map
        (fun a => (⟨a.index, a.entries.map keptEntry, a.defaults.map keptEntry⟩ : Acl)) =
      (rs.filter fun r => restrict.isPrefixOf (idx r)).filterMap fun r =>
        if (acl r).entries.length ≤ 3 ∧ (acl r).defaults = [] then none
        else some ⟨(acl r).index, (acl r).entries.map keptEntry, (acl r).defaults.map keptEntry⟩ := by
    clear h1 h2 hs hsort hgood hw
    induction rs with
    | nil => rfl
    | cons r rs ih =>
      have ih := ih fun r hr => hidx r (by simp [hr])
      have hi := hidx r (by simp)
      rw [List.map_cons, List.filter_cons, List.filter_cons]
      by_cases ha : (acl r).entries.length ≤ 3 ∧ (acl r).defaults = []
      · rw [if_neg (by simp [ha]), ih]
        by_cases hp : restrict.isPrefixOf (idx r) = true
        · rw [if_pos hp, List.filterMap_cons, if_pos ha]
        · rw [if_neg hp]
      · rw [if_pos (by rw [decide_eq_false ha]; rfl), List.filter_cons, hi]
        by_cases hp : restrict.isPrefixOf (idx r) = true
        · rw [if_pos hp, if_pos hp, List.map_cons, ih, List.filterMap_cons, if_neg ha, hi]
        · rw [if_neg hp, if_neg hp, ih]
  rw [h2, hg, joinIter_some]
  · refine congrArg some (List.map_congr_left fun r hr => ?_)
    have hi := hidx r (List.mem_filter.1 hr).1
    by_cases ha : (acl r).entries.length ≤ 3 ∧ (acl r).defaults = []
    · simp [keptAcl, ha, hi]
    · simp [keptAcl, ha]
  · exact hsort.filter _
  · intro r hr o ho
    have hi := hidx r (List.mem_filter.1 hr).1
    split at ho
    · cases ho
    · rw [← Option.some.inj ho]; exact hi

theorem samePair_kept {int : Bytes → Option Int} {id : Option Int} {name : Option Bytes} (h : Qualifier int id name) :
    (match name with | some n => samePair id name none (some n) && samePair none (some n) id name | none => true) = true := by
  rcases h with ⟨n, rfl, hn⟩ | ⟨rfl, -⟩
  · cases n with
    | nil => exact absurd rfl hn.nonempty
    | cons c n => simp [samePair]
  · rfl

theorem sameEntry_kept {int : Bytes → Option Int} {e : Entry} (h : GoodEntry int e) :
    sameEntry e (keptEntry e) = true ∧ sameEntry (keptEntry e) e = true := by
  obtain ⟨w, p⟩ := e
  cases w with
  | owner => simp [sameEntry, keptEntry, keptWho]
  | owningGroup => simp [sameEntry, keptEntry, keptWho]
  | mask => simp [sameEntry, keptEntry, keptWho]
  | other => simp [sameEntry, keptEntry, keptWho]
  | user id name =>
    have := samePair_kept h.2
    cases name with
    | none => simp [sameEntry, keptEntry, keptWho, samePair]
    | some n => simpa [sameEntry, keptEntry, keptWho] using this
  | group id name =>
    have := samePair_kept h.2
    cases name with
    | none => simp [sameEntry, keptEntry, keptWho, samePair]
    | some n => simpa [sameEntry, keptEntry, keptWho] using this

theorem sameEntries_kept {int : Bytes → Option Int} {l : List Entry} (h : ∀ e ∈ l, GoodEntry int e) :
    sameEntries l (l.map keptEntry) = true ∧ sameEntries (l.map keptEntry) l = true := by
  induction l with
  | nil => simp [sameEntries]
  | cons e l ih =>
    have h1 := sameEntry_kept (h e (by simp))
    have h2 := ih fun e he => h e (by simp [he])
    simp [sameEntries, h1, h2]

/-- What is read back compares equal to the original (so that an unchanged access control list doesn't make a file look changed). -/
theorem acl_equal {int : Bytes → Option Int} {a : Acl} (h : GoodAcl int a) :
    a.eqv (keptAcl a) = some true ∧ (keptAcl a).eqv a = some true := by
  have hb := isBasic_good h
  by_cases ha : a.entries.length ≤ 3 ∧ a.defaults = []
  · have hk : keptAcl a = ⟨a.index, [], []⟩ := by simp [keptAcl, ha]
    have hbk : (⟨a.index, [], []⟩ : Acl).isBasic = some true := by simp [Acl.isBasic]
    rw [hk]
    simp [Acl.eqv, hb, hbk, ha]
  · have hk : keptAcl a = ⟨a.index, a.entries.map keptEntry, a.defaults.map keptEntry⟩ := by simp only [keptAcl, ha, if_false]
    have h3 : 3 ≤ a.entries.length := by
      rcases h.three with ⟨h1, h2⟩ | h3
      · exact absurd ⟨by simp [h1], h2⟩ ha
      · exact h3
    have hbk : (⟨a.index, a.entries.map keptEntry, a.defaults.map keptEntry⟩ : Acl).isBasic = some false := by
      unfold Acl.isBasic
      rw [if_neg, if_pos (by simpa using h3)]
      · congr 1
        simp only [List.length_map, List.map_eq_nil_iff, Bool.and_eq_false_iff, decide_eq_false_iff_not]
        by_contra hc
        simp only [not_or, not_not] at hc
        exact ha ⟨by omega, hc.2⟩
      · rintro ⟨h1, -⟩
        simp only [List.map_eq_nil_iff] at h1
        rw [h1] at h3; simp at h3
    have e1 := sameEntries_kept h.entries
    have e2 := sameEntries_kept h.defaults
    rw [hk]
    simp only [Acl.eqv, hb, hbk, ha, decide_false]
    simp [e1, e2]

/-- Restored on a system, the access control list of a file has, in their order and with their permissions, all entries with names which
the system knows, by the system's number for the name, and the entries without name, by their number; no others. -/
theorem acl_on_system (sys sys' : System) (hnames : ∀ i n, sys.uname i = some n ∨ sys.gname i = some n → n ≠ []) (l : List PEntry) :
    listToAcl sys' ((l.map (entryOfFile sys)).map keptEntry) = l.filterMap fun e =>
      match e.who with
      | .user i => (match sys.uname i with
        | some n => (sys'.uid n).map fun j => ⟨.user j, e.perms⟩
        | none => some e)
      | .group i => (match sys.gname i with
        | some n => (sys'.gid n).map fun j => ⟨.group j, e.perms⟩
        | none => some e)
      | _ => some e := by
  unfold listToAcl
  rw [List.map_map, List.filterMap_map]
  congr 1
  funext e
  obtain ⟨w, p⟩ := e
  cases w with
  | owner => rfl
  | owningGroup => rfl
  | mask => rfl
  | other => rfl
  | user i =>
    simp only [Function.comp, entryOfFile, keptEntry, keptWho, entryToFile]
    cases hu : sys.uname i with
    | none => rfl
    | some n =>
      cases n with
      | nil => exact absurd rfl (hnames i _ (.inl hu))
      | cons c n => simp [mapAcl]; rfl
  | group i =>
    simp only [Function.comp, entryOfFile, keptEntry, keptWho, entryToFile]
    cases hu : sys.gname i with
    | none => rfl
    | some n =>
      cases n with
      | nil => exact absurd rfl (hnames i _ (.inr hu))
      | cons c n => simp [mapAcl]; rfl

/-- The same entries are put on the mirror during the backup, where the list comes from the source and not from a record. -/
theorem acl_on_mirror (sys sys' : System) (hnames : ∀ i n, sys.uname i = some n ∨ sys.gname i = some n → n ≠ []) (l : List PEntry) :
    listToAcl sys' (l.map (entryOfFile sys)) = listToAcl sys' ((l.map (entryOfFile sys)).map keptEntry) := by
  unfold listToAcl
  rw [List.filterMap_map (l := l.map _)]
  refine List.filterMap_congr fun e he => ?_
  obtain ⟨x, -, rfl⟩ := List.mem_map.1 he
  obtain ⟨w, p⟩ := x
  cases w with
  | user i =>
    simp only [Function.comp, entryOfFile, keptEntry, keptWho, entryToFile]
    cases hu : sys.uname i with
    | none => rfl
    | some n =>
      cases n with
      | nil => exact absurd rfl (hnames i _ (.inl hu))
      | cons c n => rfl
  | group i =>
    simp only [Function.comp, entryOfFile, keptEntry, keptWho, entryToFile]
    cases hu : sys.gname i with
    | none => rfl
    | some n =>
      cases n with
      | nil => exact absurd rfl (hnames i _ (.inr hu))
      | cons c n => rfl
  | _ => rfl

/-- On the system of the backup itself that is the access control list the file had: C53 from file to file. -/
theorem acl_same_system (int : Bytes → Option Int) (sys : System) (hsys : sys.Consistent int) (l : List PEntry) :
    listToAcl sys ((l.map (entryOfFile sys)).map keptEntry) = l := by
  rw [acl_on_system]
  · conv => rhs; rw [← List.filterMap_some (l := l)]
    congr 1
    funext e
    obtain ⟨w, p⟩ := e
    cases w with
    | user i =>
      simp only
      cases hu : sys.uname i with
      | none => rfl
      | some n => simp [(hsys.users i n hu).1]
    | group i =>
      simp only
      cases hu : sys.gname i with
      | none => rfl
      | some n => simp [(hsys.groups i n hu).1]
    | _ => rfl
  · rintro i n (h | h)
    · exact (hsys.users i n h).2.nonempty
    · exact (hsys.groups i n h).2.nonempty

/-- Entries found on a file satisfy the hypotheses of `acl_restored`. -/
theorem good_of_file {int : Bytes → Option Int} {sys : System} (hsys : sys.Consistent int) {index : List Bytes} (hi : PathIndex index)
    {l d : List PEntry} (hl : ∀ e ∈ l ++ d, e.perms < 8) (h3 : 3 ≤ l.length) :
    GoodAcl int ⟨index, l.map (entryOfFile sys), d.map (entryOfFile sys)⟩ := by
  have key : ∀ e ∈ l ++ d, GoodEntry int (entryOfFile sys e) := by
    intro e he
    refine ⟨hl e he, ?_⟩
    obtain ⟨w, p⟩ := e
    cases w with
    | user i =>
      simp only [entryOfFile]
      cases hu : sys.uname i with
      | none => exact .inr ⟨rfl, by simp⟩
      | some n => exact .inl ⟨n, rfl, (hsys.users i n hu).2⟩
    | group i =>
      simp only [entryOfFile]
      cases hu : sys.gname i with
      | none => exact .inr ⟨rfl, by simp⟩
      | some n => exact .inl ⟨n, rfl, (hsys.groups i n hu).2⟩
    | _ => trivial
  refine ⟨hi, ?_, ?_, .inr (by simpa using h3)⟩
  · intro e he
    obtain ⟨x, hx, rfl⟩ := List.mem_map.1 he
    exact key x (by simp [hx])
  · intro e he
    obtain ⟨x, hx, rfl⟩ := List.mem_map.1 he
    exact key x (by simp [hx])

def demoSys : System where
  uname := fun i => if i = 1000 then some (lit "bob") else none
  gname := fun i => if i = 100 then some (lit "users") else none
  uid := fun n => if n = lit "bob" then some 1000 else none
  gid := fun n => if n = lit "users" then some 100 else none

theorem demo_consistent : demoSys.Consistent parseInt where
  users := by
    intro i n h
    simp only [demoSys] at h ⊢
    split at h
    · cases h; next hi => exact ⟨by simp [hi], ⟨by decide, by decide, by decide, by decide, by decide⟩⟩
    · cases h
  groups := by
    intro i n h
    simp only [demoSys] at h ⊢
    split at h
    · cases h; next hi => exact ⟨by simp [hi], ⟨by decide, by decide, by decide, by decide, by decide⟩⟩
    · cases h

def demoList : List PEntry := [⟨.owner, 6⟩, ⟨.user 1000, 7⟩, ⟨.user 1001, 4⟩, ⟨.owningGroup, 5⟩, ⟨.group 100, 0⟩, ⟨.mask, 7⟩, ⟨.other, 4⟩]

example : listToAcl demoSys ((demoList.map (entryOfFile demoSys)).map keptEntry) = demoList := acl_same_system _ _ demo_consistent _
example : GoodAcl parseInt ⟨[lit "d"], demoList.map (entryOfFile demoSys), [⟨.owner, 7⟩].map (entryOfFile demoSys)⟩ :=
  good_of_file demo_consistent (by unfold PathIndex; decide) (by decide) (by decide)
example : aclToRecord ⟨[lit "d"], demoList.map (entryOfFile demoSys), [⟨.owner, 7⟩].map (entryOfFile demoSys)⟩ =
    lit "# file: d\nuser::rw-\nuser:bob:rwx\nuser:1001:r--\ngroup::r-x\ngroup:users:---\nmask::rwx\nother::r--\ndefault:user::rwx\n" := by
  decide +kernel
-- the hypothesis about `int`
example : ∀ i, parseInt (fmtInt i) = some i := parse_fmtInt

/-- The names which `AclName` excludes are really a problem (finding F56): a user whose name is a number is read back as another user, ... -/
theorem numeric_name_lost :
    (aclOfRecord parseInt (aclToRecord ⟨[lit "f"], [⟨.owner, 6⟩, ⟨.user (some 1000) (some (lit "42")), 7⟩, ⟨.owningGroup, 4⟩, ⟨.other, 4⟩], []⟩)).map
      (fun a => a.entries[1]?) = some (some ⟨.user (some 42) none, 7⟩) := by decide +kernel

/-- ... and one with a `#` in his name makes the whole record unreadable (finding F56). -/
theorem hash_name_lost :
    aclOfRecord parseInt (aclToRecord ⟨[lit "f"], [⟨.owner, 6⟩, ⟨.user (some 1000) (some (lit "a#b")), 7⟩, ⟨.owningGroup, 4⟩, ⟨.other, 4⟩], []⟩) =
      none := by decide +kernel

/-! ### white space and comments -/

theorem dropWhile_all_append {p : UInt8 → Bool} {a b : Bytes} (h : ∀ c ∈ a, p c = true) : (a ++ b).dropWhile p = b.dropWhile p := by
  induction a with
  | nil => rfl
  | cons c a ih =>
    rw [List.cons_append, List.dropWhile_cons, if_pos (h c (by simp)), ih fun c hc => h c (by simp [hc])]

/-- the ASCII characters which Python takes for white space -/
def blanks : Bytes := [9, 10, 11, 12, 13, 28, 29, 30, 31, 32]

theorem isStrSpace_iff : ∀ c : UInt8, isStrSpace c = true ↔ c ∈ blanks := by
  have : ∀ n : Fin 256, isStrSpace (UInt8.ofNat n.1) = true ↔ UInt8.ofNat n.1 ∈ blanks := by decide +kernel
  intro c
  have h := this ⟨c.toNat, c.toNat_lt⟩
  simpa using h

theorem dropWhile_suffix {p : UInt8 → Bool} {l s : Bytes} (h : ∀ c ∈ s, p c = true) :
    ((l ++ s).dropWhile p).reverse.dropWhile p = (l.dropWhile p).reverse.dropWhile p := by
  induction l with
  | nil =>
    rw [List.nil_append, ← List.append_nil s, dropWhile_all_append h]
  | cons c l ih =>
    rw [List.cons_append, List.dropWhile_cons, List.dropWhile_cons]
    split
    · exact ih
    · rw [← List.cons_append, List.reverse_append, dropWhile_all_append (by simpa using h)]

theorem strip_blanks {p l s : Bytes} (hp : ∀ c ∈ p, c ∈ blanks) (hs : ∀ c ∈ s, c ∈ blanks) : strStrip (p ++ l ++ s) = strStrip l := by
  unfold strStrip
  rw [List.append_assoc, dropWhile_all_append fun c hc => (isStrSpace_iff c).2 (hp c hc), dropWhile_suffix fun c hc => (isStrSpace_iff c).2 (hs c hc)]

/-- White space around a line of an access control list, and a comment behind it, mean nothing. -/
theorem acl_line_blanks (int : Bytes → Option Int) (st : List Entry × List Entry) {p l s c : Bytes} (hp : ∀ x ∈ p, x ∈ blanks)
    (hs : ∀ x ∈ s, x ∈ blanks) (hl : 35 ∉ l) (hc : c = [] ∨ c.head? = some 35) :
    aclReadLine int st (p ++ l ++ s ++ c) = aclReadLine int st l := by
  have hn : ∀ x ∈ p ++ l ++ s, (x != 35) = true := by
    intro x hx
    have h35 : (35 : UInt8) ∉ blanks := by decide
    simp only [List.mem_append] at hx
    simp only [bne_iff_ne, ne_eq]
    rintro rfl
    rcases hx with (hx | hx) | hx
    · exact h35 (hp _ hx)
    · exact hl hx
    · exact h35 (hs _ hx)
  have h1 : (p ++ l ++ s ++ c).takeWhile (· != 35) = p ++ l ++ s := by
    rcases hc with rfl | hc
    · rw [List.append_nil]; exact takeWhile_all hn
    · cases c with
      | nil => simp at hc
      | cons a c =>
        simp only [List.head?_cons, Option.some.injEq] at hc
        subst hc
        clear hp hs hl
        generalize p ++ l ++ s = t at hn
        induction t with
        | nil => simp
        | cons x t ih =>
          rw [List.cons_append, List.takeWhile_cons, if_pos (hn x (by simp)), ih fun x hx => hn x (by simp [hx])]
  have h2 : l.takeWhile (· != 35) = l := takeWhile_all fun x hx => by
    simp only [bne_iff_ne, ne_eq]; rintro rfl; exact hl hx
  unfold aclReadLine
  rw [h1, h2, strip_blanks hp hs]

/-- a line with what getfacl and people add to it -/
structure Decorated (l d : Bytes) : Prop where
  parts : ∃ p s c, d = p ++ l ++ s ++ c ∧ (∀ x ∈ p, x ∈ blanks) ∧ (∀ x ∈ s, x ∈ blanks) ∧ (c = [] ∨ c.head? = some 35)
  noComment : 35 ∉ l
  noNewline : nl ∉ l ∧ nl ∉ d

/-- A record of access control lists with white space and comments at its lines is read as the one without. -/
theorem acl_blanks (int : Bytes → Option Int) (head : Bytes) (hh : nl ∉ head) {ls ds : List Bytes} (h : List.Forall₂ Decorated ls ds) :
    aclOfRecord int (joinLines (head :: ds)) = aclOfRecord int (joinLines (head :: ls)) := by
  have hl : ∀ l ∈ ls, nl ∉ l := by
    induction h with
    | nil => simp
    | cons a _ ih => intro l hl; rcases List.mem_cons.1 hl with rfl | hl; exacts [a.noNewline.1, ih l hl]
  have hd : ∀ l ∈ ds, nl ∉ l := by
    clear hl
    induction h with
    | nil => simp
    | cons a _ ih => intro l hl; rcases List.mem_cons.1 hl with rfl | hl; exacts [a.noNewline.2, ih l hl]
  have key : ∀ st, ((([] : Bytes) :: ds) ++ [[]]).foldlM (aclReadLine int) st = ((([] : Bytes) :: ls) ++ [[]]).foldlM (aclReadLine int) st := by
    clear hl hd
    intro st
    simp only [List.cons_append, List.foldlM_cons]
    have : aclReadLine int st [] = some st := by simp [aclReadLine, strStrip]
    rw [this]
    show List.foldlM _ st _ = List.foldlM _ st _
    clear this
    induction h generalizing st with
    | nil => rfl
    | cons a _ ih =>
      obtain ⟨p, s, c, rfl, h1, h2, h3⟩ := a.parts
      simp only [List.cons_append, List.foldlM_cons]
      rw [acl_line_blanks int st h1 h2 a.noComment h3]
      cases aclReadLine int st _ with
      | none => rfl
      | some st' => exact ih st'
  have side : ∀ xs : List Bytes, (∀ l ∈ xs, nl ∉ l) → aclOfRecord int (joinLines (head :: xs)) =
      if !(lit "# file: ").isPrefixOf head then none
      else ((([] :: xs) ++ [[]]).foldlM (aclReadLine int) ([], [])).map fun (st : List Entry × List Entry) => (⟨aclIndex (head.drop 8), st.1, st.2⟩ : Acl) := by
    intro xs hx
    have e : joinLines (head :: xs) = head ++ nl :: joinLines xs := by simp [joinLines]
    have hm : nl ∈ joinLines (head :: xs) := by rw [e]; simp
    have ht : (joinLines (head :: xs)).takeWhile (· != nl) = head := by rw [e]; exact takeWhile_line hh
    unfold aclOfRecord
    rw [if_neg (by simp)]
    simp only [ht]
    rw [e, List.drop_left]
    have := splitOn_lines ([] :: xs) (by simpa using hx)
    have e2 : joinLines ([] :: xs) = nl :: joinLines xs := by simp [joinLines]
    rw [e2] at this
    rw [this]
  rw [side ds hd, side ls hl, key]

example : aclOfRecord parseInt (lit "# file: f\n\tuser::rw-  # the owner\n#effective rights\n other::r--\n") =
    aclOfRecord parseInt (lit "# file: f\nuser::rw-\n\nother::r--\n") ∧ (aclOfRecord parseInt (lit "# file: f\nuser::rw-\n\nother::r--\n")).isSome := by
  refine ⟨acl_blanks parseInt (lit "# file: f") (by decide) (ds := [lit "\tuser::rw-  # the owner", lit "#effective rights", lit " other::r--"])
    (ls := [lit "user::rw-", [], lit "other::r--"]) (.cons ⟨⟨[9], [32, 32], lit "# the owner", by decide, by decide, by decide, by decide⟩, by decide, by decide⟩
      (.cons ⟨⟨[], [], lit "#effective rights", by decide, by decide, by decide, by decide⟩, by decide, by decide⟩
      (.cons ⟨⟨[32], [], [], by decide, by decide, by decide, by decide⟩, by decide, by decide⟩ .nil))), by decide +kernel⟩

/-! ### files which do not fit -/

/-- Without a file all paths have no attributes. -/
theorem no_file {K R O : Type} [LinearOrder K] (ridx : R → K) (oidx : O → K) (blank : K → O) (rs : List R)
    (hsort : rs.Pairwise fun a b => ridx a < ridx b) : joinIter ridx oidx blank rs [] = some (rs.map fun r => (r, blank (ridx r))) := by
  have := joinIter_some (oidx := oidx) (blank := blank) rs hsort (fun _ => none) (by simp)
  simpa using this

/-- A record for a path which isn't there is noticed: no path gets the attributes of another one. -/
theorem record_without_path {K R O : Type} [LinearOrder K] (ridx : R → K) (oidx : O → K) (blank : K → O) (rs : List R) (os : List O)
    (hs : rs.Pairwise fun a b => ridx a < ridx b) (ho : os.Pairwise fun a b => oidx a < oidx b) {o : O} (hm : o ∈ os)
    (hn : ∀ r ∈ rs, ridx r ≠ oidx o) : joinIter ridx oidx blank rs os = none := joinIter_missing rs os hs ho hm hn

example : joinIter id Ea.index (fun i => ⟨i, []⟩) [[lit "a"], [lit "c"]] [⟨[lit "b"], [(lit "user.x", [1])]⟩] = none :=
  record_without_path id Ea.index _ _ _ (by decide +kernel) (by decide) (List.mem_cons_self) (by decide)

end Verif.C53
