import Verif.Spec.RFCache
import Verif.Proof.Index
import Verif.Proof.RepoFS
import Verif.Props.C11
/- The cache of `_RestoreFile`s gives for each path what is on disk for it. -/
namespace Verif.Repo
open Verif.Collate Verif.JoinSpec Verif.MetaChain
set_option linter.unusedSectionVars false
variable {α A C S H Δ L : Type} [LinearOrder α]

/-! ### Directory listings -/

theorem mem_insertName (i j : List α) (l : List (List α)) : j ∈ insertName i l ↔ j = i ∨ j ∈ l := by
  induction l with
  | nil => simp [insertName]
  | cons k l ih =>
    rw [insertName]
    by_cases h1 : i < k
    · simp [h1]
    · rw [if_neg h1]
      by_cases h2 : i = k
      · subst h2; simp
      · rw [if_neg h2]
        simp only [List.mem_cons, ih]
        tauto

theorem sorted_insertName (i : List α) {l : List (List α)} (h : l.Pairwise (· < ·)) : (insertName i l).Pairwise (· < ·) := by
  induction l with
  | nil => simp [insertName]
  | cons k l ih =>
    obtain ⟨h1, h2⟩ := List.pairwise_cons.mp h
    rw [insertName]
    by_cases e1 : i < k
    · rw [if_pos e1]
      refine List.pairwise_cons.mpr ⟨?_, h⟩
      intro j hj
      rcases List.mem_cons.mp hj with rfl | hj
      · exact e1
      · exact lt_trans e1 (h1 j hj)
    · rw [if_neg e1]
      by_cases e2 : i = k
      · rw [if_pos e2]; exact h
      · rw [if_neg e2]
        refine List.pairwise_cons.mpr ⟨?_, ih h2⟩
        intro j hj
        rcases (mem_insertName i j l).mp hj with rfl | hj
        · exact lt_of_le_of_ne (not_lt.mp e1) (Ne.symm e2)
        · exact h1 j hj

theorem mem_sortNames (j : List α) (l : List (List α)) : j ∈ sortNames l ↔ j ∈ l := by
  induction l with
  | nil => simp [sortNames]
  | cons i l ih => rw [sortNames, mem_insertName, ih, List.mem_cons]

theorem sorted_sortNames (l : List (List α)) : (sortNames l).Pairwise (· < ·) := by
  induction l with
  | nil => simp [sortNames]
  | cons i l ih => exact sorted_insertName i ih

theorem mem_childrenOf (p j : List α) (l : List (List α)) : j ∈ childrenOf p l ↔ j ∈ l ∧ j ≠ [] ∧ j.dropLast = p := by
  simp [childrenOf]

variable {st : State α A C S H Δ}

theorem mem_mirrorNames (hw : FsWF st) (p j : List α) :
    j ∈ mirrorNames st p ↔ j ≠ [] ∧ j.dropLast = p ∧ (get st.mirror j).isSome = true := by
  unfold mirrorNames
  by_cases h : isDirAt st.mirror p = true
  · rw [if_pos h, mem_sortNames, mem_childrenOf, get_isSome_iff]
    constructor
    · rintro ⟨h1, h2, h3⟩
      obtain ⟨x, hx, he⟩ := List.mem_map.mp h1
      exact ⟨h2, h3, x, hx, he⟩
    · rintro ⟨h2, h3, x, hx, he⟩
      exact ⟨List.mem_map.mpr ⟨x, hx, he⟩, h2, h3⟩
  · rw [if_neg h]
    constructor
    · intro h; cases h
    · rintro ⟨h1, h2, h3⟩
      have := hw.closed j h1 h3
      rw [h2] at this; exact absurd this h

theorem mem_incNames (hw : FsWF st) (p j : List α) :
    j ∈ incNames st p ↔ j ≠ [] ∧ j.dropLast = p ∧ ((∃ f ∈ st.incs, f.idx = j) ∨ j ∈ st.incdirs) := by
  unfold incNames
  by_cases h : st.incdirs.contains p = true
  · rw [if_pos h, mem_sortNames, mem_childrenOf, List.mem_append, List.mem_map]
    exact ⟨fun ⟨h1, h2, h3⟩ => ⟨h2, h3, h1⟩, fun ⟨h2, h3, h1⟩ => ⟨h1, h2, h3⟩⟩
  · rw [if_neg h]
    constructor
    · intro h; cases h
    · rintro ⟨h1, h2, h3⟩
      rw [List.contains_iff_mem] at h
      rcases h3 with ⟨f, hf, he⟩ | h3
      · have := hw.incparent f hf
        rw [he, h2] at this; exact absurd this h
      · have := hw.incclosed j h3
        rw [h2] at this; exact absurd this h

theorem onDisk_iff (hw : FsWF st) (j : List α) : OnDisk st j ↔ j ∈ mirrorNames st j.dropLast ∨ j ∈ incNames st j.dropLast := by
  rw [mem_mirrorNames hw, mem_incNames hw, OnDisk]
  constructor
  · rintro ⟨h1, h2 | h2⟩
    · exact .inl ⟨h1, rfl, h2⟩
    · exact .inr ⟨h1, rfl, h2⟩
  · rintro (⟨h1, -, h2⟩ | ⟨h1, -, h2⟩)
    · exact ⟨h1, .inl h2⟩
    · exact ⟨h1, .inr h2⟩

/-- a directory of the cache: everything on disk, in order -/
theorem subRfs_spec (hw : FsWF st) (p : List α) :
    (subRfs st p).Pairwise (fun x y => x.idx < y.idx) ∧
    ∀ rf, rf ∈ subRfs st p ↔ OnDisk st rf.idx ∧ rf.idx.dropLast = p ∧ rf = directRf st rf.idx := by
  have hs1 : Ordered id (mirrorNames st p) := by
    unfold mirrorNames
    by_cases h : isDirAt st.mirror p = true
    · rw [if_pos h]; exact sorted_sortNames _
    · rw [if_neg h]; exact .nil
  have hs2 : Ordered id (incNames st p) := by
    unfold incNames
    by_cases h : st.incdirs.contains p = true
    · rw [if_pos h]; exact sorted_sortNames _
    · rw [if_neg h]; exact .nil
  obtain ⟨ks, hk, hm, hf⟩ := C11.collate2_outer_join id id (mirrorNames st p) (incNames st p) hs1 hs2
  have hks : ∀ k ∈ ks, k.dropLast = p ∧ OnDisk st k := by
    intro k hkm
    rcases (hm k).mp hkm with ⟨x, hx, rfl⟩ | ⟨x, hx, rfl⟩
    · have := (mem_mirrorNames hw _ _).mp hx
      exact ⟨this.2.1, this.1, .inl this.2.2⟩
    · have := (mem_incNames hw _ _).mp hx
      exact ⟨this.2.1, this.1, .inr this.2.2⟩
  have hrow : ∀ k row, IsRow id id (mirrorNames st p) (incNames st p) k row → rowRf st row = some (directRf st k) := by
    rintro k ⟨r1, r2⟩ ⟨h0, h1, h2⟩
    have hdir : k ∈ ks := by
      rw [hm]
      cases r1 with
      | some x => exact .inl ⟨x, ((h1 x).mp rfl).1, ((h1 x).mp rfl).2⟩
      | none =>
        cases r2 with
        | none => exact absurd rfl h0
        | some y => exact .inr ⟨y, ((h2 y).mp rfl).1, ((h2 y).mp rfl).2⟩
    obtain ⟨hp, hne, -⟩ := hks k hdir
    cases r1 with
    | some x =>
      obtain ⟨hx, rfl⟩ := (h1 x).mp rfl
      cases r2 with
      | some y => rfl
      | none =>
        simp only [rowRf, directRf, id_eq, Option.some.injEq, RestoreFile.mk.injEq, true_and]
        symm
        rw [List.filter_eq_nil_iff]
        intro f hf he
        have := (h2 x).mpr ⟨(mem_incNames hw p x).mpr ⟨hne, hp, .inl ⟨f, hf, by simpa using he⟩⟩, rfl⟩
        cases this
    | none =>
      cases r2 with
      | none => exact absurd rfl h0
      | some y =>
        obtain ⟨hy, rfl⟩ := (h2 y).mp rfl
        simp only [rowRf, directRf, id_eq, Option.some.injEq, RestoreFile.mk.injEq, true_and, and_true]
        symm
        by_contra hc
        have := (h1 y).mpr ⟨(mem_mirrorNames hw p y).mpr ⟨hne, hp, Option.isSome_iff_ne_none.mpr hc⟩, rfl⟩
        cases this
  have heq : subRfs st p = ks.map (directRf st) := by
    unfold subRfs
    clear hm hk hks
    generalize collate2 id id (mirrorNames st p) (incNames st p) = rows at hf ⊢
    induction hf with
    | nil => rfl
    | @cons k row ks rows hr _ ih => rw [List.filterMap_cons, hrow k row hr, List.map_cons, ih]
  rw [heq]
  refine ⟨List.pairwise_map.mpr hk, fun rf => ?_⟩
  rw [List.mem_map]
  constructor
  · rintro ⟨k, hkm, rfl⟩
    exact ⟨(hks k hkm).2, (hks k hkm).1, rfl⟩
  · rintro ⟨h1, h2, h3⟩
    refine ⟨rf.idx, (hm _).mpr ?_, h3.symm⟩
    have := (onDisk_iff hw _).mp h1
    rw [h2] at this
    rcases this with h | h
    · exact .inl ⟨_, h, rfl⟩
    · exact .inr ⟨_, h, rfl⟩

/-! ### The invariant -/

/-- `rf_list` after requests up to `i` -/
structure RFInv (st : State α A C S H Δ) (i : List α) (l : List (RestoreFile α A C S Δ)) : Prop where
  sorted : l.Pairwise (fun x y => x.idx < y.idx)
  direct : ∀ rf ∈ l, OnDisk st rf.idx ∧ rf = directRf st rf.idx
  asked : ∀ rf ∈ l, ∃ r, r ≠ [] ∧ r ≤ i ∧ r.dropLast = rf.idx.dropLast
  complete : ∀ rf ∈ l, ∀ j, OnDisk st j → j.dropLast = rf.idx.dropLast → i ≤ j → directRf st j ∈ l

theorem RFInv.nil (i : List α) : RFInv st i [] := ⟨.nil, by simp, by simp, by simp⟩

theorem RFInv.mono {i j : List α} {l} (h : RFInv st i l) (hij : i ≤ j) : RFInv st j l :=
  ⟨h.sorted, h.direct, fun rf hr => by obtain ⟨r, h1, h2, h3⟩ := h.asked rf hr; exact ⟨r, h1, le_trans h2 hij, h3⟩,
    fun rf hr k hk hd hjk => h.complete rf hr k hk hd (le_trans hij hjk)⟩

theorem RFInv.tail {i : List α} {rf : RestoreFile α A C S Δ} {l} (h : RFInv st i (rf :: l)) (hlt : rf.idx < i) : RFInv st i l := by
  refine ⟨(List.pairwise_cons.mp h.sorted).2, fun x hx => h.direct x (List.mem_cons_of_mem _ hx),
    fun x hx => h.asked x (List.mem_cons_of_mem _ hx), fun x hx j hj hd hij => ?_⟩
  have := h.complete x (List.mem_cons_of_mem _ hx) j hj hd hij
  rcases List.mem_cons.mp this with he | he
  · have : rf.idx = j := by rw [← he]; rfl
    rw [this] at hlt; exact absurd hlt (not_lt.mpr hij)
  · exact he

theorem parent_append {i : List α} (h : i ≠ []) : i.dropLast ++ [i.getLast h] = i := List.dropLast_append_getLast h

theorem lt_append_left (p : List α) {a b : List α} : p ++ a < p ++ b ↔ a < b := by
  induction p with
  | nil => rfl
  | cons x p ih => simp [ih]

/-- an entry behind the requested path, in another directory: it is behind all files in the directory of the path -/
theorem RFInv.behind {i : List α} {rf : RestoreFile α A C S Δ} {l} (h : RFInv st i (rf :: l)) (hi : i ≠ []) (hlt : i < rf.idx)
    (hp : i.dropLast ≠ rf.idx.dropLast) {j : List α} (hj : j ≠ []) (hjp : j.dropLast = i.dropLast) : j < rf.idx := by
  obtain ⟨r, hr, hri, hrp⟩ := h.asked rf (by simp)
  have hrf : rf.idx ≠ [] := (h.direct rf (by simp)).1.1
  set p := rf.idx.dropLast with hpdef
  have h1 : p <+: r := by rw [← hrp]; exact List.dropLast_prefix r
  have h2 : p <+: rf.idx := List.dropLast_prefix _
  have h3 : p <+: i := prefix_convex h1 h2 hri (le_of_lt hlt)
  obtain ⟨u, rfl⟩ := h3
  have hrfe : p ++ [rf.idx.getLast hrf] = rf.idx := parent_append hrf
  cases u with
  | nil =>
    exfalso
    simp only [List.append_nil] at hri
    have hre : p ++ [r.getLast hr] = r := by rw [← hrp]; exact parent_append hr
    rw [← hre] at hri
    have : p < p ++ [r.getLast hr] := by
      conv_lhs => rw [← List.append_nil p]
      rw [lt_append_left]; simp
    exact absurd this (not_lt.mpr hri)
  | cons x u =>
    cases u with
    | nil => exact absurd (by simp) hp
    | cons y u =>
      have hx : x < rf.idx.getLast hrf := by
        rw [← hrfe, lt_append_left, List.cons_lt_cons_iff] at hlt
        rcases hlt with h | ⟨-, h⟩
        · exact h
        · simp at h
      have : (p ++ [x]) <+: j := by
        have h5 : (p ++ x :: y :: u).dropLast = p ++ x :: (y :: u).dropLast := by
          rw [List.dropLast_append_of_ne_nil (by simp), List.dropLast_cons_of_ne_nil (by simp)]
        have h6 : (p ++ [x]) <+: j.dropLast := by
          rw [hjp, h5]; exact ⟨(y :: u).dropLast, by simp⟩
        exact h6.trans (List.dropLast_prefix j)
      obtain ⟨v, rfl⟩ := this
      rw [← hrfe, List.append_assoc, lt_append_left]
      simp [List.cons_lt_cons_iff, hx]

theorem RFInv.added (hw : FsWF st) {i : List α} {rf : RestoreFile α A C S Δ} {l} (h : RFInv st i (rf :: l)) (hi : i ≠ []) (hlt : i < rf.idx)
    (hp : i.dropLast ≠ rf.idx.dropLast) : RFInv st i (subRfs st i.dropLast ++ rf :: l) := by
  obtain ⟨hs, hm⟩ := subRfs_spec hw i.dropLast
  refine ⟨?_, ?_, ?_, ?_⟩
  · rw [List.pairwise_append]
    refine ⟨hs, h.sorted, fun x hx y hy => ?_⟩
    have hx' := (hm x).mp hx
    have h1 := h.behind hi hlt hp hx'.1.1 hx'.2.1
    rcases List.mem_cons.mp hy with rfl | hy
    · exact h1
    · exact lt_trans h1 ((List.pairwise_cons.mp h.sorted).1 y hy)
  · intro x hx
    rcases List.mem_append.mp hx with hx | hx
    · exact ⟨((hm x).mp hx).1, ((hm x).mp hx).2.2⟩
    · exact h.direct x hx
  · intro x hx
    rcases List.mem_append.mp hx with hx | hx
    · exact ⟨i, hi, le_refl _, ((hm x).mp hx).2.1.symm⟩
    · exact h.asked x hx
  · intro x hx j hj hd hij
    rw [List.mem_append]
    rcases List.mem_append.mp hx with hx | hx
    · left; rw [hm]; exact ⟨hj, by rw [← ((hm x).mp hx).2.1]; exact hd, rfl⟩
    · right; exact h.complete x hx j hj hd hij

theorem RFInv.new (hw : FsWF st) {i : List α} (hi : i ≠ []) : RFInv st i (subRfs st i.dropLast) := by
  obtain ⟨hs, hm⟩ := subRfs_spec hw i.dropLast
  exact ⟨hs, fun x hx => ⟨((hm x).mp hx).1, ((hm x).mp hx).2.2⟩, fun x hx => ⟨i, hi, le_refl _, ((hm x).mp hx).2.1.symm⟩,
    fun x hx j hj hd _ => (hm _).mpr ⟨hj, by rw [← ((hm x).mp hx).2.1]; exact hd, rfl⟩⟩

/-! ### Requests -/

/-- `_get_rf` ends, with this result -/
def Ends (st : State α A C S H Δ) (i : List α) (l : List (RestoreFile α A C S Δ)) (r : Option (RestoreFile α A C S Δ)) : Prop :=
  ∃ l' N, RFInv st i l' ∧ ∀ n, N ≤ n → getRf st i n l = some (r, l')

theorem Ends.again {i : List α} {l l' : List (RestoreFile α A C S Δ)} {r} (h : Ends st i l' r) (hp : rfPass st i l = .again l') : Ends st i l r := by
  obtain ⟨l2, N, h1, h2⟩ := h
  refine ⟨l2, N + 1, h1, fun n hn => ?_⟩
  obtain ⟨m, rfl⟩ : ∃ m, n = m + 1 := ⟨n - 1, by omega⟩
  rw [getRf, hp]; exact h2 m (by omega)

theorem Ends.missing {i : List α} {l : List (RestoreFile α A C S Δ)} (hl : RFInv st i l) (hp : rfPass st i l = .missing l) : Ends st i l none := by
  refine ⟨l, 1, hl, fun n hn => ?_⟩
  obtain ⟨m, rfl⟩ : ∃ m, n = m + 1 := ⟨n - 1, by omega⟩
  rw [getRf, hp]

theorem scan_found {i : List α} {l : List (RestoreFile α A C S Δ)} (hl : RFInv st i l) (hm : directRf st i ∈ l) :
    Ends st i l (some (directRf st i)) := by
  induction l with
  | nil => cases hm
  | cons rf l ih =>
    by_cases h1 : rf.idx = i
    · refine ⟨rf :: l, 1, hl, fun n hn => ?_⟩
      obtain ⟨m, rfl⟩ : ∃ m, n = m + 1 := ⟨n - 1, by omega⟩
      have : rf = directRf st i := by rw [← h1]; exact (hl.direct rf (by simp)).2
      have h2 : rfPass st i (rf :: l) = .found rf (rf :: l) := by simp only [rfPass]; rw [if_pos h1]
      rw [getRf, h2, ← this]
    · have hne : directRf st i ≠ rf := by intro e; rw [← e] at h1; exact h1 rfl
      have hm' : directRf st i ∈ l := (List.mem_cons.mp hm).resolve_left hne
      have hlt : rf.idx < i := (List.pairwise_cons.mp hl.sorted).1 _ hm'
      refine (ih (hl.tail hlt) hm').again ?_
      simp only [rfPass, h1, if_false, not_lt_of_gt hlt]

theorem request_found (hw : FsWF st) {i : List α} {l : List (RestoreFile α A C S Δ)} (hl : RFInv st i l) (hd : OnDisk st i) :
    Ends st i l (some (directRf st i)) := by
  have hmem : directRf st i ∈ subRfs st i.dropLast := ((subRfs_spec hw _).2 _).mpr ⟨hd, rfl, rfl⟩
  have hne : ∃ x y, subRfs st i.dropLast = x :: y := by
    cases h : subRfs st i.dropLast with
    | nil => rw [h] at hmem; cases hmem
    | cons x y => exact ⟨x, y, rfl⟩
  obtain ⟨x, y, hxy⟩ := hne
  induction l with
  | nil =>
    refine (scan_found (RFInv.new hw hd.1) hmem).again ?_
    simp only [rfPass, hd.1, if_false, hxy]
  | cons rf l ih =>
    by_cases hm : directRf st i ∈ rf :: l
    · exact scan_found hl hm
    · have h1 : rf.idx ≠ i := by
        intro e
        apply hm
        have := (hl.direct rf (by simp)).2
        rw [e] at this; rw [← this]; simp
      by_cases hlt : i < rf.idx
      · by_cases hp : i.dropLast = rf.idx.dropLast
        · exact absurd (hl.complete rf (by simp) i hd hp (le_refl _)) hm
        · refine (scan_found (hl.added hw hd.1 hlt hp) (List.mem_append_left _ hmem)).again ?_
          simp only [rfPass, h1, if_false, hlt, if_true, hp, hd.1, hxy]
      · have hlt' : rf.idx < i := lt_of_le_of_ne (not_lt.mp hlt) h1
        refine (ih (hl.tail hlt')).again ?_
        simp only [rfPass, h1, if_false, hlt]

/-- a lost file: nothing is on disk for the path -/
theorem scan_missing {i : List α} {l : List (RestoreFile α A C S Δ)} (hl : RFInv st i l) (hn : ¬ OnDisk st i) (hi : i ≠ [])
    {j : List α} (hij : i < j) (hjp : j.dropLast = i.dropLast) (hm : directRf st j ∈ l) : Ends st i l none := by
  induction l with
  | nil => cases hm
  | cons rf l ih =>
    have h1 : rf.idx ≠ i := by
      intro e; exact hn (e ▸ (hl.direct rf (by simp)).1)
    by_cases hlt : i < rf.idx
    · by_cases hp : i.dropLast = rf.idx.dropLast
      · exact .missing hl (by simp only [rfPass, h1, if_false, hlt, if_true, hp])
      · exfalso
        have hj : j ≠ [] := fun e => by rw [e] at hij; simp at hij
        have h2 := hl.behind hi hlt hp hj hjp
        rcases List.mem_cons.mp hm with he | he
        · rw [← he] at h2; exact lt_irrefl _ h2
        · have := (List.pairwise_cons.mp hl.sorted).1 _ he
          exact lt_irrefl _ (lt_trans h2 this)
    · have hlt' : rf.idx < i := lt_of_le_of_ne (not_lt.mp hlt) h1
      have hne : directRf st j ≠ rf := by
        intro e; rw [← e] at hlt'; exact lt_irrefl _ (lt_trans hlt' hij)
      refine (ih (hl.tail hlt') ((List.mem_cons.mp hm).resolve_left hne)).again ?_
      simp only [rfPass, h1, if_false, hlt]

theorem request_missing (hw : FsWF st) {i : List α} {l : List (RestoreFile α A C S Δ)} (hl : RFInv st i l) (hn : ¬ OnDisk st i) (hi : i ≠ [])
    (hs : (∀ j, OnDisk st j → j.dropLast ≠ i.dropLast) ∨ ∃ j, OnDisk st j ∧ j.dropLast = i.dropLast ∧ i < j) :
    Ends st i l none := by
  obtain ⟨-, hmem⟩ := subRfs_spec hw i.dropLast
  induction l with
  | nil =>
    rcases hs with hs | ⟨j, hj, hjp, hij⟩
    · have : subRfs st i.dropLast = [] := List.eq_nil_iff_forall_not_mem.mpr fun x hx =>
        hs x.idx ((hmem x).mp hx).1 ((hmem x).mp hx).2.1
      exact .missing hl (by simp only [rfPass, hi, if_false, this])
    · have hjm : directRf st j ∈ subRfs st i.dropLast := (hmem _).mpr ⟨hj, hjp, rfl⟩
      obtain ⟨x, y, hxy⟩ : ∃ x y, subRfs st i.dropLast = x :: y := by
        cases h : subRfs st i.dropLast with
        | nil => rw [h] at hjm; cases hjm
        | cons x y => exact ⟨x, y, rfl⟩
      refine (scan_missing (RFInv.new hw hi) hn hi hij hjp hjm).again ?_
      simp only [rfPass, hi, if_false, hxy]
  | cons rf l ih =>
    have h1 : rf.idx ≠ i := by
      intro e; exact hn (e ▸ (hl.direct rf (by simp)).1)
    by_cases hlt : i < rf.idx
    · by_cases hp : i.dropLast = rf.idx.dropLast
      · exact .missing hl (by simp only [rfPass, h1, if_false, hlt, if_true, hp])
      · rcases hs with hs | ⟨j, hj, hjp, hij⟩
        · have : subRfs st i.dropLast = [] := List.eq_nil_iff_forall_not_mem.mpr fun x hx =>
            hs x.idx ((hmem x).mp hx).1 ((hmem x).mp hx).2.1
          exact .missing hl (by simp only [rfPass, h1, if_false, hlt, if_true, hp, hi, this])
        · have hjm : directRf st j ∈ subRfs st i.dropLast := (hmem _).mpr ⟨hj, hjp, rfl⟩
          obtain ⟨x, y, hxy⟩ : ∃ x y, subRfs st i.dropLast = x :: y := by
            cases h : subRfs st i.dropLast with
            | nil => rw [h] at hjm; cases hjm
            | cons x y => exact ⟨x, y, rfl⟩
          refine (scan_missing (hl.added hw hi hlt hp) hn hi hij hjp (List.mem_append_left _ hjm)).again ?_
          simp only [rfPass, h1, if_false, hlt, if_true, hp, hi, hxy]
    · have hlt' : rf.idx < i := lt_of_le_of_ne (not_lt.mp hlt) h1
      refine (ih (hl.tail hlt')).again ?_
      simp only [rfPass, h1, if_false, hlt]

/-- a lost file which would be the last in a directory where something is left: the loop never ends -/
theorem request_diverges (hw : FsWF st) {i : List α} {l : List (RestoreFile α A C S Δ)} (hl : RFInv st i l) (hn : ¬ OnDisk st i) (hi : i ≠ [])
    (hex : ∃ j, OnDisk st j ∧ j.dropLast = i.dropLast) (hall : ∀ j, OnDisk st j → j.dropLast = i.dropLast → j < i) (n : Nat) :
    getRf st i n l = none := by
  obtain ⟨-, hmem⟩ := subRfs_spec hw i.dropLast
  obtain ⟨j, hj, hjp⟩ := hex
  have hjm : directRf st j ∈ subRfs st i.dropLast := (hmem _).mpr ⟨hj, hjp, rfl⟩
  obtain ⟨x, y, hxy⟩ : ∃ x y, subRfs st i.dropLast = x :: y := by
    cases h : subRfs st i.dropLast with
    | nil => rw [h] at hjm; cases hjm
    | cons x y => exact ⟨x, y, rfl⟩
  induction n generalizing l with
  | zero => rfl
  | succ n ih =>
    cases l with
    | nil =>
      have : rfPass st i [] = .again (subRfs st i.dropLast) := by simp only [rfPass, hi, if_false, hxy]
      rw [getRf, this]; exact ih (RFInv.new hw hi)
    | cons rf l =>
      have h1 : rf.idx ≠ i := by
        intro e; exact hn (e ▸ (hl.direct rf (by simp)).1)
      by_cases hlt : i < rf.idx
      · have hp : i.dropLast ≠ rf.idx.dropLast := fun e =>
          lt_irrefl _ (lt_trans hlt (hall _ (hl.direct rf (by simp)).1 e.symm))
        have : rfPass st i (rf :: l) = .again (subRfs st i.dropLast ++ rf :: l) := by
          simp only [rfPass, h1, if_false, hlt, if_true, hp, hi, hxy]
        rw [getRf, this]; exact ih (hl.added hw hi hlt hp)
      · have hlt' : rf.idx < i := lt_of_le_of_ne (not_lt.mp hlt) h1
        have : rfPass st i (rf :: l) = .again l := by simp only [rfPass, h1, if_false, hlt]
        rw [getRf, this]; exact ih (hl.tail hlt')

theorem OnFileSystem.wf (h : OnFileSystem st) : FsWF st := by
  refine ⟨fun i hi hs => ?_, ?_, h.incRoot, h.incParent, h.incFileParent⟩
  · obtain ⟨a, ha⟩ := h.mirrorParent i hi hs
    simp [isDirAt, ha]
  · obtain ⟨a, ha⟩ := h.mirrorRoot
    simp [isDirAt, ha]

theorem isDirAt_some {m : Files α (Node A C S)} {i : List α} (h : isDirAt m i = true) : ∃ a, get m i = some (.dir a) := by
  unfold isDirAt at h
  cases hg : get m i with
  | none => simp [hg] at h
  | some n => cases n <;> simp [hg] at h ⊢

theorem FsWF.onFs (h : FsWF st) : OnFileSystem st :=
  ⟨isDirAt_some h.root, fun i hi hs => isDirAt_some (h.closed i hi hs), h.incroot, h.incclosed, h.incparent⟩

open Classical in
/-- what `_get_rf` should return -/
noncomputable def lookupDisk (st : State α A C S H Δ) (i : List α) : Option (RestoreFile α A C S Δ) :=
  if OnDisk st i then some (directRf st i) else none

theorem request (hw : FsWF st) {i : List α} {l : List (RestoreFile α A C S Δ)} (hl : RFInv st i l) (hi : i ≠ []) (hn : ¬ LostLast st i) :
    Ends st i l (lookupDisk st i) := by
  by_cases hd : OnDisk st i
  · rw [lookupDisk, if_pos hd]; exact request_found hw hl hd
  · rw [lookupDisk, if_neg hd]
    refine request_missing hw hl hd hi ?_
    by_contra hc
    push Not at hc
    obtain ⟨⟨j, h1, h2⟩, h3⟩ := hc
    refine hn ⟨hd, ⟨j, h1, h2⟩, fun k hk hkp => ?_⟩
    exact lt_of_le_of_ne (h3 k hk hkp) fun e => hd (e ▸ hk)

theorem getRf_mono {i : List α} {n m : Nat} {l : List (RestoreFile α A C S Δ)} {r} (h : getRf st i n l = some r) (hnm : n ≤ m) :
    getRf st i m l = some r := by
  induction n generalizing m l with
  | zero => cases h
  | succ n ih =>
    obtain ⟨m, rfl⟩ : ∃ k, m = k + 1 := ⟨m - 1, by omega⟩
    rw [getRf] at h ⊢
    cases hp : rfPass st i l with
    | found rf l' => rw [hp] at h; exact h
    | missing l' => rw [hp] at h; exact h
    | again l' => rw [hp] at h; exact ih h (by omega)
    | error => rw [hp] at h; cases h

theorem request_some (hw : FsWF st) {i : List α} {l : List (RestoreFile α A C S Δ)} (hl : RFInv st i l) (hi : i ≠ []) {n : Nat} {r l'}
    (h : getRf st i n l = some (r, l')) : r = lookupDisk st i ∧ RFInv st i l' ∧ ¬ LostLast st i := by
  have hn : ¬ LostLast st i := by
    rintro ⟨h1, h2, h3⟩
    rw [request_diverges hw hl h1 hi h2 h3] at h; cases h
  obtain ⟨l2, N, h1, h2⟩ := request hw hl hi hn
  have h3 := h2 (max n N) (le_max_right _ _)
  rw [getRf_mono h (le_max_left _ _)] at h3
  cases h3
  exact ⟨rfl, h1, hn⟩

/-! ### What is read -/

/-- what is read for a path directly -/
def directData (o : Ops A C H Δ L) (F : Reading C S) (st : State α A C S H Δ) (mt t : Nat) (i : List α) : Option C :=
  getRestoreFp o F (setRelevantIncs (st.incs.filter (fun f => f.idx = i)) (get st.mirror i) t mt)

theorem getFp_lookup (o : Ops A C H Δ L) (F : Reading C S) (mt t : Nat) {i : List α} (hi : i ≠ []) :
    getFp o F mt t (lookupDisk st i) = directData o F st mt t i := by
  by_cases hd : OnDisk st i
  · rw [lookupDisk, if_pos hd]; rfl
  · rw [lookupDisk, if_neg hd]
    have h1 : get st.mirror i = none := by
      by_contra hc; exact hd ⟨hi, .inl (Option.isSome_iff_ne_none.mpr hc)⟩
    have h2 : st.incs.filter (fun f => f.idx = i) = [] := by
      rw [List.filter_eq_nil_iff]
      intro f hf he
      exact hd ⟨hi, .inr (.inl ⟨f, hf, by simpa using he⟩)⟩
    unfold directData
    rw [h1, h2]
    simp [getFp, setRelevantIncs, getRestoreFp, relIsReg]

theorem patchAll_diffs {o : Ops A C H Δ L} {x y : C} {r : List (Rel A C S Δ)} (h : patchAll o x r = some y) :
    ∀ z ∈ r, ∃ d, z = .inc (.diff d) := by
  induction r generalizing x with
  | nil => simp
  | cons z r ih =>
    cases z with
    | mirror n => simp [patchAll] at h
    | inc z =>
      cases z with
      | diff d =>
        intro w hw
        rcases List.mem_cons.mp hw with rfl | hw
        · exact ⟨d, rfl⟩
        · exact ih (by simpa [patchAll] using h) w hw
      | _ => simp [patchAll] at h

/-- where the model without errors gives some data, these are read -/
theorem getRestoreFp_eq {o : Ops A C H Δ L} (F : Reading C S) {rel : List (Rel A C S Δ)} {x : C} (h : restoreFp o rel = some x) :
    getRestoreFp o F rel = some x := by
  cases rel with
  | nil => cases h
  | cons f r =>
    simp only [restoreFp, Option.bind_eq_some_iff] at h
    obtain ⟨y, hy, hp⟩ := h
    have hd := patchAll_diffs hp
    have hf : openFirst F f = some (.inl y) ∧ relIsReg f = true := by
      rcases f with (_ | _ | _ | _) | (_ | _ | (_ | _ | _) | _) <;> simp_all [firstContent, openFirst, relIsReg, Node.isReg]
    unfold getRestoreFp
    cases hl : (f :: r).getLast? with
    | none => simp at hl
    | some last =>
      have : relIsReg last = true := by
        rcases List.mem_cons.mp (List.mem_of_getLast? hl) with rfl | hm
        · exact hf.2
        · obtain ⟨d, rfl⟩ := hd _ hm; rfl
      simp [this, hf.1, hp]

/-! ### Loops over the records -/

/-- regular files in order, none of them the base directory -/
structure GoodRecs (recs : List (Rec (List α) (MRec A S H))) : Prop where
  ordered : recs.Pairwise (fun x y => x.idx < y.idx)
  below : ∀ r ∈ recs, (∃ a s h, r.data = some (.reg a s h)) → r.idx ≠ []

theorem GoodRecs.tail {r} {recs : List (Rec (List α) (MRec A S H))} (h : GoodRecs (r :: recs)) : GoodRecs recs :=
  ⟨(List.pairwise_cons.mp h.ordered).2, fun x hx => h.below x (List.mem_cons_of_mem _ hx)⟩

/-- one file, read directly -/
def directOne (o : Ops A C H Δ L) (F : Reading C S) (st : State α A C S H Δ) (mt t : Nat)
    (r : Rec (List α) (MRec A S H)) : Option (List α × Node A C S) :=
  match r.data with
  | none => none
  | some (.dir a) => some (r.idx, .dir a)
  | some (.other a s) => some (r.idx, .other a s)
  | some (.reg a _ _) => (directData o F st mt t r.idx).map fun x => (r.idx, .reg a x)

theorem restoreLoop_ends (hw : FsWF st) (o : Ops A C H Δ L) (F : Reading C S) (mt t : Nat) (recs : List (Rec (List α) (MRec A S H)))
    (hr : GoodRecs recs) (hn : ∀ r ∈ recs, (∃ a s h, r.data = some (.reg a s h)) → ¬ LostLast st r.idx)
    (l : List (RestoreFile α A C S Δ)) (hl : ∀ r ∈ recs, RFInv st r.idx l) :
    ∃ N, ∀ n, N ≤ n → restoreLoop o F st n mt t recs l = allSome (recs.map (directOne o F st mt t)) := by
  induction recs generalizing l with
  | nil => exact ⟨0, fun n _ => rfl⟩
  | cons r recs ih =>
    have ih' := fun l => ih hr.tail (fun x hx => hn x (List.mem_cons_of_mem _ hx)) l
    cases hd : r.data with
    | none => exact ⟨0, fun n _ => by simp [restoreLoop, hd, directOne, allSome]⟩
    | some m =>
      cases m with
      | dir a =>
        obtain ⟨N, hN⟩ := ih' l (fun x hx => hl x (List.mem_cons_of_mem _ hx))
        exact ⟨N, fun n h => by simp [restoreLoop, hd, directOne, allSome, hN n h]⟩
      | other a s =>
        obtain ⟨N, hN⟩ := ih' l (fun x hx => hl x (List.mem_cons_of_mem _ hx))
        exact ⟨N, fun n h => by simp [restoreLoop, hd, directOne, allSome, hN n h]⟩
      | reg a s h =>
        have hi : r.idx ≠ [] := hr.below r (by simp) ⟨a, s, h, hd⟩
        obtain ⟨l', N1, h1, h2⟩ := request hw (hl r (by simp)) hi (hn r (by simp) ⟨a, s, h, hd⟩)
        obtain ⟨N, hN⟩ := ih' l' (fun x hx => h1.mono (le_of_lt ((List.pairwise_cons.mp hr.ordered).1 x hx)))
        refine ⟨max N N1, fun n h => ?_⟩
        rw [restoreLoop, hd]
        simp only
        rw [h2 n (le_trans (le_max_right _ _) h)]
        simp only
        rw [getFp_lookup o F mt t hi, List.map_cons, directOne, hd]
        simp only
        cases directData o F st mt t r.idx with
        | none => rfl
        | some x =>
          simp only [Option.map_some, allSome]
          rw [hN n (le_trans (le_max_left _ _) h)]

theorem restoreLoop_some (hw : FsWF st) (o : Ops A C H Δ L) (F : Reading C S) (mt t n : Nat) (recs : List (Rec (List α) (MRec A S H)))
    (hr : GoodRecs recs) (l : List (RestoreFile α A C S Δ)) (hl : ∀ r ∈ recs, RFInv st r.idx l) {res}
    (h : restoreLoop o F st n mt t recs l = some res) : allSome (recs.map (directOne o F st mt t)) = some res := by
  induction recs generalizing l res with
  | nil => exact h
  | cons r recs ih =>
    have ih' := fun l hl res h => @ih hr.tail l hl res h
    rw [restoreLoop] at h
    cases hd : r.data with
    | none => rw [hd] at h; cases h
    | some m =>
      rw [hd] at h
      cases m with
      | dir a =>
        simp only [Option.map_eq_some_iff] at h
        obtain ⟨res', h1, rfl⟩ := h
        simp [directOne, hd, allSome, ih' l (fun x hx => hl x (List.mem_cons_of_mem _ hx)) _ h1]
      | other a s =>
        simp only [Option.map_eq_some_iff] at h
        obtain ⟨res', h1, rfl⟩ := h
        simp [directOne, hd, allSome, ih' l (fun x hx => hl x (List.mem_cons_of_mem _ hx)) _ h1]
      | reg a s hh =>
        have hi : r.idx ≠ [] := hr.below r (by simp) ⟨a, s, hh, hd⟩
        simp only at h
        cases hg : getRf st r.idx n l with
        | none => rw [hg] at h; cases h
        | some p =>
          obtain ⟨rf, l'⟩ := p
          obtain ⟨rfl, hinv, -⟩ := request_some hw (hl r (by simp)) hi hg
          rw [hg] at h
          simp only at h
          rw [getFp_lookup o F mt t hi] at h
          cases hx : directData o F st mt t r.idx with
          | none => rw [hx] at h; cases h
          | some x =>
            rw [hx] at h
            simp only [Option.map_eq_some_iff] at h
            obtain ⟨res', h1, rfl⟩ := h
            simp [directOne, hd, hx, allSome,
              ih' l' (fun x hx => hinv.mono (le_of_lt ((List.pairwise_cons.mp hr.ordered).1 x hx))) _ h1]

end Verif.Repo
