import Verif.Spec.MetaHistory
import Verif.Proof.Join
/- Lemmas and invariant for C07, C08. -/
namespace Verif.MetaChain
open Verif.Collate Verif.JoinSpec

set_option linter.unusedSectionVars false
set_option linter.unusedSimpArgs false
variable {K D : Type} [LinearOrder K] [DecidableEq D]

theorem getDiffIter_spec {new old : List (Rec K D)} (hn : IsListing new) (ho : IsListing old) :
    Ordered Rec.idx (getDiffIter new old) ∧
    ∀ x, x ∈ getDiffIter new old ↔
      (x ∈ old ∧ x ∉ new) ∨ (x.data = none ∧ (∃ n ∈ new, n.idx = x.idx) ∧ ∀ o ∈ old, o.idx ≠ x.idx) := by
  obtain ⟨ks, h1, h2, h3⟩ := C11.collate2_outer_join Rec.idx Rec.idx new old hn.1 ho.1
  have hf : ∀ k row, IsRow Rec.idx Rec.idx new old k row → ∀ x : Rec K D, (match row with
    | (some n, none) => some (⟨n.idx, none⟩ : Rec K D)
    | (some n, some o) => if n.data ≠ o.data then some o else none
    | (none, some o) => some o
    | (none, none) => none) = some x → x.idx = k ∧
      ((x ∈ old ∧ x ∉ new) ∨ (x.data = none ∧ (∃ n ∈ new, n.idx = x.idx) ∧ ∀ o ∈ old, o.idx ≠ x.idx)) := by
    rintro k ⟨a, b⟩ ⟨hne, ha, hb⟩ x hx
    cases a with
    | none =>
      cases b with
      | none => exact absurd rfl hne
      | some o =>
        simp only [Option.some.injEq] at hx; subst hx
        obtain ⟨ho1, ho2⟩ := (hb o).mp rfl
        refine ⟨ho2, .inl ⟨ho1, fun hin => ?_⟩⟩
        have := (ha o).mpr ⟨hin, ho2⟩
        cases this
    | some n =>
      obtain ⟨hn1, hn2⟩ := (ha n).mp rfl
      cases b with
      | none =>
        simp only [Option.some.injEq] at hx; subst hx
        refine ⟨hn2, .inr ⟨rfl, ⟨n, hn1, rfl⟩, fun o ho he => ?_⟩⟩
        have := (hb o).mpr ⟨ho, by rw [he]; exact hn2⟩
        cases this
      | some o =>
        obtain ⟨ho1, ho2⟩ := (hb o).mp rfl
        simp only at hx
        split at hx
        · next hd =>
          simp only [Option.some.injEq] at hx; subst hx
          refine ⟨ho2, .inl ⟨ho1, fun hin => ?_⟩⟩
          have := ordered_inj hn.1 hin hn1 (by rw [ho2, hn2])
          subst this; exact hd rfl
        · cases hx
  refine ⟨filterMap_ordered h3 h1 (fun k row hR x hx => (hf k row hR x hx).1), fun x => ?_⟩
  constructor
  · intro hx
    obtain ⟨row, hrow, hx⟩ := List.mem_filterMap.mp hx
    obtain ⟨k, -, hR⟩ := forall₂_mem_right h3 row hrow
    exact (hf k row hR x hx).2
  · intro hx
    have hk : x.idx ∈ ks := by
      rw [h2]
      rcases hx with ⟨hx, -⟩ | ⟨-, ⟨n, hn, he⟩, -⟩
      · exact .inr ⟨x, hx, rfl⟩
      · exact .inl ⟨n, hn, he⟩
    obtain ⟨⟨a, b⟩, hrow, hne, ha, hb⟩ := forall₂_mem_left h3 _ hk
    refine List.mem_filterMap.mpr ⟨(a, b), hrow, ?_⟩
    rcases hx with ⟨hxo, hxn⟩ | ⟨hxd, ⟨n, hnn, hni⟩, hno⟩
    · have hb' := (hb x).mpr ⟨hxo, rfl⟩
      simp only at hb'
      subst hb'
      cases a with
      | none => rfl
      | some n =>
        obtain ⟨hn1, hn2⟩ := (ha n).mp rfl
        have : n.data ≠ x.data := by
          intro hd
          apply hxn
          obtain ⟨i, d⟩ := n
          obtain ⟨j, e⟩ := x
          simp only at hd hn2
          subst hd; subst hn2; exact hn1
        simp [this]
    · have ha' := (ha n).mpr ⟨hnn, hni⟩
      simp only at ha'
      subst ha'
      cases b with
      | some o => exact absurd ((hb o).mp rfl).2 (hno o ((hb o).mp rfl).1)
      | none =>
        simp only
        obtain ⟨j, e⟩ := x
        simp only at hxd hni
        subst hxd; subst hni; rfl

/-- Which record a stack of files (newest first) gives for an index: the oldest file decides. -/
def overlay : List (List (Rec K D)) → K → Option (Rec K D)
  | [], _ => none
  | s :: ss, k => (overlay ss k).or (s.find? (fun r => r.idx = k))

theorem find_iff {s : List (Rec K D)} (h : Ordered Rec.idx s) (k : K) (x : Rec K D) :
    s.find? (fun r => r.idx = k) = some x ↔ x ∈ s ∧ x.idx = k := by
  constructor
  · intro hx
    exact ⟨List.mem_of_find?_eq_some hx, by simpa using List.find?_some hx⟩
  · rintro ⟨hx, hk⟩
    cases hf : s.find? (fun r => r.idx = k) with
    | none => exact absurd hk (by simpa using List.find?_eq_none.mp hf x hx)
    | some y =>
      have h1 := List.mem_of_find?_eq_some hf
      have h2 : y.idx = k := by simpa using List.find?_some hf
      rw [ordered_inj h h1 hx (by rw [h2, hk])]

theorem overlay_append (ss : List (List (Rec K D))) (s : List (Rec K D)) (k : K) :
    overlay (ss ++ [s]) k = (s.find? (fun r => r.idx = k)).or (overlay ss k) := by
  induction ss with
  | nil => simp [overlay]
  | cons a ss ih => simp only [List.cons_append, overlay, ih, Option.or_assoc]

theorem overlay_idx {ss : List (List (Rec K D))} {k : K} {x : Rec K D}
    (h : overlay ss k = some x) : x.idx = k := by
  induction ss with
  | nil => simp [overlay] at h
  | cons s ss ih =>
    simp only [overlay, Option.or_eq_some_iff] at h
    rcases h with h | ⟨-, h⟩
    · exact ih h
    · simpa using List.find?_some h

theorem findSome_eq_overlay {ss : List (List (Rec K D))} (ho : ∀ s ∈ ss, Ordered Rec.idx s)
    {k : K} {row : List (Option (Rec K D))} (h : IsNRow Rec.idx ss k row) :
    row.reverse.findSome? id = overlay ss k := by
  unfold IsNRow at h
  induction h with
  | nil => rfl
  | @cons s o ss os hx _ ih =>
    rw [List.reverse_cons, List.findSome?_append, ih (fun s hs => ho s (by simp [hs])), overlay]
    congr 1
    have : s.find? (fun r => r.idx = k) = o := by
      cases o with
      | some x => exact (find_iff (ho s (by simp)) k x).mpr ((hx x).mp rfl)
      | none =>
        cases hf : s.find? (fun r => r.idx = k) with
        | none => rfl
        | some y => exact absurd ((hx y).mpr ((find_iff (ho s (by simp)) k y).mp hf)) (by simp)
    rw [this]
    cases o <;> simp

theorem iteratePatched_spec {ss : List (List (Rec K D))} (ho : ∀ s ∈ ss, Ordered Rec.idx s) :
    Ordered Rec.idx (iteratePatched ss) ∧
    ∀ x, x ∈ iteratePatched ss ↔ overlay ss x.idx = some x ∧ x.data.isSome = true := by
  obtain ⟨ks, h1, h2, h3⟩ := C12.collateIterators_join Rec.idx ss ho
  have hf : ∀ k row, IsNRow Rec.idx ss k row → ∀ x : Rec K D,
      (match row.reverse.findSome? id with
        | some r => if r.data.isSome then some r else none
        | none => none) = some x ↔ overlay ss k = some x ∧ x.data.isSome = true := by
    intro k row hR x
    rw [findSome_eq_overlay ho hR]
    cases overlay ss k with
    | none => simp
    | some r =>
      simp only
      split
      · next h =>
        constructor
        · intro e; simp only [Option.some.injEq] at e; subst e; exact ⟨rfl, h⟩
        · rintro ⟨e, -⟩; exact e
      · next h =>
        constructor
        · intro e; cases e
        · rintro ⟨e, hd⟩; simp only [Option.some.injEq] at e; subst e; exact absurd hd h
  refine ⟨filterMap_ordered h3 h1 (fun k row hR x hx => overlay_idx ((hf k row hR x).mp hx).1), ?_⟩
  intro x
  constructor
  · intro hx
    obtain ⟨row, hrow, hx⟩ := List.mem_filterMap.mp hx
    obtain ⟨k, -, hR⟩ := forall₂_mem_right h3 row hrow
    have := (hf k row hR x).mp hx
    rw [overlay_idx this.1]; exact this
  · rintro ⟨hx, hd⟩
    have hk : x.idx ∈ ks := by
      rw [h2]
      have : ∀ ss : List (List (Rec K D)), ∀ y : Rec K D, overlay ss x.idx = some y →
          ∃ s ∈ ss, ∃ z ∈ s, z.idx = x.idx := by
        intro ss y
        induction ss with
        | nil => intro h; simp [overlay] at h
        | cons s ss ih =>
          intro h
          simp only [overlay, Option.or_eq_some_iff] at h
          rcases h with h | ⟨-, h⟩
          · obtain ⟨s', hs', hh⟩ := ih h
            exact ⟨s', by simp [hs'], hh⟩
          · exact ⟨s, by simp, y, List.mem_of_find?_eq_some h, by simpa using List.find?_some h⟩
      exact this ss x hx
    obtain ⟨row, hrow, hR⟩ := forall₂_mem_left h3 _ hk
    exact List.mem_filterMap.mpr ⟨row, hrow, (hf _ row hR x).mpr ⟨hx, hd⟩⟩

/-- `ss` (newest first) encodes listing `L`: looking an index up gives exactly its record in `L`. -/
def Encodes (ss : List (List (Rec K D))) (L : List (Rec K D)) : Prop :=
  ∀ k, match overlay ss k with
    | some x => if x.data.isSome then x ∈ L else ∀ y ∈ L, y.idx ≠ k
    | none => ∀ y ∈ L, y.idx ≠ k

theorem encodes_snapshot {L : List (Rec K D)} (hL : IsListing L) : Encodes [L] L := by
  intro k
  simp only [overlay, Option.none_or]
  cases hf : L.find? (fun r => r.idx = k) with
  | none => simpa using List.find?_eq_none.mp hf
  | some x =>
    have := ((find_iff hL.1 k x).mp hf)
    simp [hL.2 x this.1, this.1]

theorem encodes_diff {ss : List (List (Rec K D))} {new old : List (Rec K D)}
    (hn : IsListing new) (ho : IsListing old) (h : Encodes ss new) :
    Encodes (ss ++ [getDiffIter new old]) old := by
  obtain ⟨h1, h2⟩ := getDiffIter_spec hn ho
  intro k
  rw [overlay_append]
  cases hf : (getDiffIter new old).find? (fun r => r.idx = k) with
  | some x =>
    obtain ⟨hx, hk⟩ := (find_iff h1 k x).mp hf
    simp only [Option.some_or]
    rcases (h2 x).mp hx with ⟨hxo, -⟩ | ⟨hd, -, hno⟩
    · simp [ho.2 x hxo, hxo]
    · simp only [hd, Option.isSome_none, Bool.false_eq_true, if_false]
      rw [← hk]; exact hno
  | none =>
    rw [Option.none_or]
    have hnone : ∀ x, x ∈ getDiffIter new old → x.idx ≠ k := by
      simpa using List.find?_eq_none.mp hf
    have hk := h k
    -- records at k are the same in new and old
    have hon : ∀ y ∈ old, y.idx = k → y ∈ new := by
      intro y hy hyk
      by_contra hyn
      exact hnone y ((h2 y).mpr (.inl ⟨hy, hyn⟩)) hyk
    have hno : ∀ n ∈ new, n.idx = k → n ∈ old := by
      intro n hnn hnk
      by_cases he : ∃ o ∈ old, o.idx = k
      · obtain ⟨o, hoo, hok⟩ := he
        rw [ordered_inj hn.1 hnn (hon o hoo hok) (by rw [hnk, hok])]; exact hoo
      · exfalso
        refine hnone ⟨k, none⟩ ((h2 ⟨k, none⟩).mpr (.inr ⟨rfl, ⟨n, hnn, hnk⟩, ?_⟩)) rfl
        intro o hoo hok; exact he ⟨o, hoo, hok⟩
    cases hov : overlay ss k with
    | none =>
      rw [hov] at hk
      intro y hy hyk
      exact hk y (hon y hy hyk) hyk
    | some x =>
      rw [hov] at hk
      simp only at hk ⊢
      split
      · next hd => rw [if_pos hd] at hk; exact hno x hk (overlay_idx hov)
      · next hd => 
        rw [if_neg hd] at hk
        intro y hy hyk
        exact hk y (hon y hy hyk) hyk

theorem iteratePatched_of_encodes {ss : List (List (Rec K D))} {L : List (Rec K D)}
    (ho : ∀ s ∈ ss, Ordered Rec.idx s) (hL : IsListing L) (h : Encodes ss L) :
    iteratePatched ss = L := by
  obtain ⟨h1, h2⟩ := iteratePatched_spec ho
  refine ordered_ext h1 hL.1 fun x => ?_
  rw [h2]
  have hk := h x.idx
  constructor
  · rintro ⟨hx, hd⟩
    rw [hx] at hk; simpa [hd] using hk
  · intro hx
    have hd := hL.2 x hx
    cases hov : overlay ss x.idx with
    | none => rw [hov] at hk; exact absurd rfl (hk x hx)
    | some y =>
      rw [hov] at hk
      simp only at hk
      split at hk
      · rw [ordered_inj hL.1 hk hx (overlay_idx hov)]; exact ⟨rfl, hd⟩
      · exact absurd rfl (hk x hx)

/-- Restricting all files restricts the encoded listing. -/
theorem overlay_filter (ss : List (List (Rec K D))) (p : K → Bool) (k : K) :
    overlay (ss.map (fun s => s.filter (fun r => p r.idx))) k = if p k then overlay ss k else none := by
  induction ss with
  | nil => simp [overlay]
  | cons s ss ih =>
    simp only [List.map_cons, overlay, ih]
    have : (s.filter (fun r => p r.idx)).find? (fun r => r.idx = k) =
        if p k then s.find? (fun r => r.idx = k) else none := by
      rw [List.find?_filter]
      by_cases hp : p k = true
      · rw [if_pos hp]
        congr 1
        funext r
        by_cases hr : r.idx = k
        · subst hr; simp [hp]
        · simp [hr]
      · rw [if_neg hp, List.find?_eq_none]
        intro r _
        by_cases hr : r.idx = k
        · subst hr; simpa using hp
        · simp [hr]
    rw [this]
    split <;> rfl

theorem encodes_filter {ss : List (List (Rec K D))} {L : List (Rec K D)} (p : K → Bool)
    (h : Encodes ss L) :
    Encodes (ss.map (fun s => s.filter (fun r => p r.idx))) (L.filter (fun r => p r.idx)) := by
  intro k
  rw [overlay_filter]
  have hk := h k
  by_cases hp : p k = true
  · rw [if_pos hp]
    cases hov : overlay ss k with
    | none => rw [hov] at hk; intro y hy; exact hk y (List.mem_of_mem_filter hy)
    | some x =>
      rw [hov] at hk
      simp only at hk ⊢
      split
      · next hd =>
        rw [if_pos hd] at hk
        exact List.mem_filter.mpr ⟨hk, by rw [overlay_idx hov]; exact hp⟩
      · next hd => rw [if_neg hd] at hk; intro y hy; exact hk y (List.mem_of_mem_filter hy)
  · rw [if_neg hp]
    intro y hy hyk
    subst hyk
    exact hp (by simpa using (List.mem_filter.mp hy).2)

theorem IsListing.filter {L : List (Rec K D)} (h : IsListing L) (p : K → Bool) :
    IsListing (L.filter (fun r => p r.idx)) :=
  ⟨h.1.filter _, fun r hr => h.2 r (List.mem_of_mem_filter hr)⟩

/-! ### The chain of files -/

/-- `Rel prev c h`: the files `c` (newest first) store the history `h` (newest first), where `prev`
is the listing of the next newer session, if any. -/
inductive Rel : Option (List (Rec K D)) → List (MFile K D) → List (Nat × List (Rec K D)) → Prop
  | nil {prev} : Rel prev [] []
  | snap {prev t L fs hs} : Rel (some L) fs hs → Rel prev (⟨t, true, L⟩ :: fs) ((t, L) :: hs)
  | diff {P t L fs hs} : Rel (some L) fs hs →
      Rel (some P) (⟨t, false, getDiffIter P L⟩ :: fs) ((t, L) :: hs)

theorem Rel.times {prev} {c : List (MFile K D)} {h} (r : Rel prev c h) :
    c.map (·.time) = h.map Prod.fst := by
  induction r with
  | nil => rfl
  | snap _ ih => simp [ih]
  | diff _ ih => simp [ih]

/-- dropping the oldest ones -/
theorem Rel.filter_time {prev} {c : List (MFile K D)} {h} (r : Rel prev c h)
    (hd : (h.map Prod.fst).Pairwise (· > ·)) (t : Nat) :
    Rel prev (c.filter (fun f => t ≤ f.time)) (h.filter (fun x => t ≤ x.1)) := by
  induction r with
  | nil => exact .nil
  | @snap prev t' L fs hs r ih =>
    obtain ⟨h1, h2⟩ := List.pairwise_cons.mp hd
    by_cases ht : t ≤ t'
    · simp only [List.filter_cons, ht, decide_true, if_true]; exact .snap (ih h2)
    · have e1 : fs.filter (fun f => decide (t ≤ f.time)) = [] := by
        rw [List.filter_eq_nil_iff]
        intro f hf
        have : f.time ∈ hs.map Prod.fst := r.times ▸ List.mem_map.mpr ⟨f, hf, rfl⟩
        have := h1 _ this
        simp; omega
      have e2 : hs.filter (fun x => decide (t ≤ x.1)) = [] := by
        rw [List.filter_eq_nil_iff]
        intro x hx
        have := h1 _ (List.mem_map.mpr ⟨x, hx, rfl⟩)
        simp; omega
      simp [List.filter_cons, ht, e1, e2]; exact .nil
  | @diff P t' L fs hs r ih =>
    obtain ⟨h1, h2⟩ := List.pairwise_cons.mp hd
    by_cases ht : t ≤ t'
    · simp only [List.filter_cons, ht, decide_true, if_true]; exact .diff (ih h2)
    · have e1 : fs.filter (fun f => decide (t ≤ f.time)) = [] := by
        rw [List.filter_eq_nil_iff]
        intro f hf
        have : f.time ∈ hs.map Prod.fst := r.times ▸ List.mem_map.mpr ⟨f, hf, rfl⟩
        have := h1 _ this
        simp; omega
      have e2 : hs.filter (fun x => decide (t ≤ x.1)) = [] := by
        rw [List.filter_eq_nil_iff]
        intro x hx
        have := h1 _ (List.mem_map.mpr ⟨x, hx, rfl⟩)
        simp; omega
      simp [List.filter_cons, ht, e1, e2]; exact .nil

/-- Reading back along the chain. -/
theorem Rel.read {prev} {c : List (MFile K D)} {h} (r : Rel prev c h)
    (hprev : ∀ P, prev = some P → IsListing P) (hl : ∀ x ∈ h, IsListing x.2)
    {t L} (hlast : h.getLast? = some (t, L)) :
    (∃ ss, backToSnapshot c = some ss ∧ ss ≠ [] ∧ Encodes (ss.map (·.recs)) L ∧
      (∀ f ∈ ss, Ordered Rec.idx f.recs) ∧ (∀ f, ss = [f] → f.recs = L)) ∨
    (backToSnapshot c = none ∧ (∀ f ∈ c, Ordered Rec.idx f.recs) ∧ ∃ P, prev = some P ∧
      ∀ ss0, Encodes ss0 P → Encodes (ss0 ++ c.map (·.recs)) L) := by
  induction r with
  | nil => simp at hlast
  | @snap prev t' L' fs hs r ih =>
    have hL' : IsListing L' := hl (t', L') (by simp)
    left
    cases hs with
    | nil =>
      cases r
      simp at hlast
      obtain ⟨rfl, rfl⟩ := hlast
      exact ⟨[⟨t', true, L'⟩], rfl, by simp, encodes_snapshot hL', by intro f hf; simp at hf; subst hf; exact hL'.1,
        by intro f hf; simp at hf; subst hf; rfl⟩
    | cons x hs =>
      have ih := ih (by rintro P ⟨⟩; exact hL') (fun x hx => hl x (by simp [hx])) (by simpa using hlast)
      rcases ih with ⟨ss, h1, h2, h3, h4, h5⟩ | ⟨h1, h2, P, ⟨⟩, h3⟩
      · exact ⟨ss, by simp [backToSnapshot, h1], h2, h3, h4, h5⟩
      · refine ⟨⟨t', true, L'⟩ :: fs, by simp [backToSnapshot, h1], by simp, ?_, ?_, ?_⟩
        · exact h3 [L'] (encodes_snapshot hL')
        · intro f hf
          rcases List.mem_cons.mp hf with rfl | hf
          · exact hL'.1
          · exact h2 f hf
        · intro f hf
          simp at hf
          obtain ⟨rfl, rfl⟩ := hf
          cases r
  | @diff P t' L' fs hs r ih =>
    have hL' : IsListing L' := hl (t', L') (by simp)
    have hP : IsListing P := hprev P rfl
    cases hs with
    | nil =>
      cases r
      simp at hlast
      obtain ⟨rfl, rfl⟩ := hlast
      right
      refine ⟨rfl, ?_, P, rfl, fun ss0 h0 => encodes_diff hP hL' h0⟩
      intro f hf
      simp at hf; subst hf
      exact (getDiffIter_spec hP hL').1
    | cons x hs =>
      have ih := ih (by rintro P ⟨⟩; exact hL') (fun x hx => hl x (by simp [hx])) (by simpa using hlast)
      rcases ih with ⟨ss, h1, h2, h3, h4, h5⟩ | ⟨h1, h2, P', ⟨⟩, h3⟩
      · left; exact ⟨ss, by simp [backToSnapshot, h1], h2, h3, h4, h5⟩
      · right
        refine ⟨by simp [backToSnapshot, h1], ?_, P, rfl, ?_⟩
        · intro f hf
          rcases List.mem_cons.mp hf with rfl | hf
          · exact (getDiffIter_spec hP hL').1
          · exact h2 f hf
        · intro ss0 h0
          have := h3 (ss0 ++ [getDiffIter P L']) (encodes_diff hP hL' h0)
          simpa using this

/-- no run of more than eight diffs -/
def Short (c : List (MFile K D)) : Prop := ∀ s, s <:+ c → countDiffs s ≤ 8

theorem countDiffs_append_le (a b : List (MFile K D)) : countDiffs a ≤ countDiffs (a ++ b) := by
  induction a with
  | nil => simp [countDiffs]
  | cons f a ih => simp only [List.cons_append, countDiffs]; split <;> omega

theorem Short.prefix {a b : List (MFile K D)} (h : Short (a ++ b)) : Short a := by
  rintro s ⟨p, rfl⟩
  exact le_trans (countDiffs_append_le s b) (h (s ++ b) ⟨p, by simp⟩)

theorem Short.suffix {a b : List (MFile K D)} (h : Short b) (hs : a <:+ b) : Short a :=
  fun s h' => h s (h'.trans hs)

theorem Short.cons {f : MFile K D} {c : List (MFile K D)} (h : Short c)
    (hf : countDiffs (f :: c) ≤ 8) : Short (f :: c) := by
  intro s hs
  rcases List.suffix_cons_iff.mp hs with rfl | hs
  · exact hf
  · exact h s hs

/-- A chain with distinct, descending times: restricting by time is taking a prefix. -/
theorem filter_is_prefix (c : List (MFile K D)) (hd : (c.map (·.time)).Pairwise (· > ·)) (t : Nat) :
    ∃ b, c = c.filter (fun f => t ≤ f.time) ++ b := by
  induction c with
  | nil => exact ⟨[], rfl⟩
  | cons f c ih =>
    obtain ⟨h1, h2⟩ := List.pairwise_cons.mp hd
    by_cases ht : t ≤ f.time
    · obtain ⟨b, hb⟩ := ih h2
      exact ⟨b, by simp [List.filter_cons, ht, ← hb]⟩
    · refine ⟨f :: c, ?_⟩
      have : (f :: c).filter (fun f => decide (t ≤ f.time)) = [] := by
        rw [List.filter_eq_nil_iff]
        intro g hg
        rcases List.mem_cons.mp hg with rfl | hg
        · simpa using ht
        · have := h1 _ (List.mem_map.mpr ⟨g, hg, rfl⟩)
          simp at this ⊢; omega
      rw [this]; rfl

theorem backToSnapshot_short {c ss : List (MFile K D)} (h : backToSnapshot c = some ss) :
    ss <:+ c ∧ ∃ f ds, ss = f :: ds ∧ f.snap = true ∧ ∀ d ∈ ds, d.snap = false := by
  have none_all : ∀ c : List (MFile K D), backToSnapshot c = none → ∀ d ∈ c, d.snap = false := by
    intro c
    induction c with
    | nil => simp
    | cons f c ih =>
      intro h
      simp only [backToSnapshot] at h
      split at h
      · cases h
      · next hn =>
        split at h
        · cases h
        · next hf =>
          intro d hd
          rcases List.mem_cons.mp hd with rfl | hd
          · simpa using hf
          · exact ih hn d hd
  induction c with
  | nil => simp [backToSnapshot] at h
  | cons f c ih =>
    simp only [backToSnapshot] at h
    split at h
    · next r hr =>
      cases h
      obtain ⟨h1, h2⟩ := ih hr
      exact ⟨h1.trans (List.suffix_cons f c), h2⟩
    · next hn =>
      split at h
      · next hf => cases h; exact ⟨List.suffix_refl _, f, c, rfl, hf, none_all c hn⟩
      · cases h

theorem countDiffs_all {ds : List (MFile K D)} (h : ∀ d ∈ ds, d.snap = false) :
    countDiffs ds = ds.length := by
  induction ds with
  | nil => rfl
  | cons d ds ih => simp [countDiffs, h d (by simp), ih (fun d hd => h d (by simp [hd]))]

/-- The invariant of the data directory. -/
structure Inv (dir : Dir K D) (h : List (Nat × List (Rec K D))) : Prop where
  chain : ∃ c, dir.Perm c ∧ Rel none c h ∧ Short c
  desc : (h.map Prod.fst).Pairwise (· > ·)
  listings : ∀ x ∈ h, IsListing x.2

theorem sortedInclist_eq {dir c : Dir K D} (hp : dir.Perm c)
    (hd : (c.map (·.time)).Pairwise (· > ·)) (t : Nat) :
    sortedInclist dir t = some (c.filter (fun f => t ≤ f.time)) := by
  have hnd : (dir.map (·.time)).Nodup := by
    have : (c.map (·.time)).Nodup := hd.imp (fun h => Nat.ne_of_gt h)
    exact ((hp.map _).nodup_iff).mpr this
  have hs : Sort.sortBy (fun a b => decide (b.time ≤ a.time)) dir = c := by
    have hperm : (Sort.sortBy (fun a b => decide (b.time ≤ a.time)) dir).Perm c :=
      (Sort.sortBy_perm _ _).trans hp
    have hsort : (Sort.sortBy (fun a b => decide (b.time ≤ a.time)) dir).Pairwise
        (fun a b => decide (b.time ≤ a.time)) :=
      Sort.pairwise_sortBy (by intro a b c h1 h2; simp at *; omega)
        (by intro a b; simp; omega) dir
    have hc : c.Pairwise (fun a b => decide (b.time ≤ a.time) = true) := by
      rw [List.pairwise_map] at hd
      exact hd.imp (fun h => by simp; omega)
    refine List.Perm.eq_of_pairwise ?_ hsort hc hperm
    intro a b ha hb h1 h2
    simp at h1 h2
    have hb' : b ∈ c := hb
    have ha' : a ∈ c := hperm.subset ha
    have hte : a.time = b.time := by omega
    clear hnd hperm hsort hc ha hb h1 h2 hp
    induction c with
    | nil => cases ha'
    | cons f c ih =>
      obtain ⟨h1, h2⟩ := List.pairwise_cons.mp hd
      rcases List.mem_cons.mp ha' with e1 | e1 <;> rcases List.mem_cons.mp hb' with e2 | e2
      · rw [e1, e2]
      · subst e1; have := h1 _ (List.mem_map.mpr ⟨b, e2, rfl⟩); simp only at this; omega
      · subst e2; have := h1 _ (List.mem_map.mpr ⟨a, e1, rfl⟩); simp only at this; omega
      · exact ih h2 e2 e1
  unfold sortedInclist
  rw [if_pos hnd, hs]

theorem Inv.session {dir : Dir K D} {h} (inv : Inv dir h) {t : Nat} {L : List (Rec K D)}
    (ht : ∀ x ∈ h, x.1 < t) (hL : IsListing L) :
    ∃ dir', MetaChain.session dir t L = some dir' ∧ Inv dir' ((t, L) :: h) := by
  obtain ⟨⟨c, hp, hr, hsh⟩, hdesc, hlist⟩ := inv
  have hdesc' : (((t, L) :: h).map Prod.fst).Pairwise (· > ·) := by
    rw [List.map_cons, List.pairwise_cons]
    refine ⟨?_, hdesc⟩
    intro x hx
    obtain ⟨y, hy, rfl⟩ := List.mem_map.mp hx
    exact ht y hy
  have hlist' : ∀ x ∈ (t, L) :: h, IsListing x.2 := by
    intro x hx
    rcases List.mem_cons.mp hx with rfl | hx
    · exact hL
    · exact hlist x hx
  have hctimes : ((((⟨t, true, L⟩ : MFile K D) :: c)).map (·.time)).Pairwise (· > ·) := by
    rw [List.map_cons, hr.times]; exact hdesc'
  have hsorted := sortedInclist_eq (dir := (⟨t, true, L⟩ : MFile K D) :: dir)
    (hp.cons (⟨t, true, L⟩ : MFile K D)) hctimes 0
  have hfil : ∀ l : List (MFile K D), l.filter (fun f => decide (0 ≤ f.time)) = l := by
    intro l; simp
  rw [hfil] at hsorted
  unfold MetaChain.session convertToDiff checkNeedsDiff
  rw [hsorted]
  cases c with
  | nil =>
    cases hr
    refine ⟨_, rfl, ⟨[⟨t, true, L⟩], hp.cons _, .snap .nil, ?_⟩, hdesc', hlist'⟩
    exact Short.cons hsh (by simp [countDiffs])
  | cons old rest =>
    cases hr with
    | @snap _ t0 L0 _ hs hr =>
      by_cases hmax : maxDiffChain ≤ 1 + countDiffs rest
      · refine ⟨_, by simp only [Bool.and_self, if_true, hmax], ⟨_, hp.cons _, .snap (.snap hr), ?_⟩,
          hdesc', hlist'⟩
        exact Short.cons hsh (by simp [countDiffs])
      · simp only [Bool.and_self, if_true, hmax, if_false]
        refine ⟨_, rfl, ⟨⟨t, true, L⟩ ::
          ⟨t0, false, getDiffIter L L0⟩ :: rest, ?_, .snap (.diff hr), ?_⟩, hdesc', hlist'⟩
        · refine List.Perm.trans ?_ (List.Perm.swap _ _ _)
          refine List.Perm.cons _ ?_
          have := (hp.cons (⟨t, true, L⟩ : MFile K D)).filter
            (fun f => !(f.time == t0 && f.snap))
          refine this.trans ?_
          have ht0 : t0 < t := ht (t0, L0) (by simp)
          have hne : ¬ t = t0 := by omega
          have hrest : rest.filter (fun f => !(f.time == t0 && f.snap)) = rest := by
            rw [List.filter_eq_self]
            intro f hf
            have h1 := (List.pairwise_cons.mp (List.pairwise_cons.mp hctimes).2).1 f.time
              (List.mem_map.mpr ⟨f, hf, rfl⟩)
            have : ¬ f.time = t0 := by simp at h1; omega
            simp [this]
          simp only [List.filter_cons, beq_self_eq_true, Bool.and_self, Bool.not_true,
            Bool.false_eq_true, if_false, hrest, beq_iff_eq, Bool.and_true]
          have : (t == t0) = false := by simpa using hne
          simp [this]
        · refine Short.cons (Short.cons (hsh.suffix (List.suffix_cons _ _)) ?_) (by simp [countDiffs])
          simp only [countDiffs, Bool.false_eq_true, if_false]
          unfold maxDiffChain at hmax
          omega

theorem Inv.relist {dir dir' : Dir K D} {h} (inv : Inv dir h) (hp : dir.Perm dir') : Inv dir' h := by
  obtain ⟨⟨c, hc, hr, hs⟩, h1, h2⟩ := inv
  exact ⟨⟨c, hp.symm.trans hc, hr, hs⟩, h1, h2⟩

theorem Inv.remove {dir : Dir K D} {h} (inv : Inv dir h) (t : Nat) :
    Inv (dir.filter (fun f => t ≤ f.time)) (h.filter (fun x => t ≤ x.1)) := by
  obtain ⟨⟨c, hc, hr, hs⟩, h1, h2⟩ := inv
  refine ⟨⟨c.filter (fun f => t ≤ f.time), hc.filter _, hr.filter_time h1 t, ?_⟩, ?_, ?_⟩
  · obtain ⟨b, hb⟩ := filter_is_prefix c (by rw [hr.times]; exact h1) t
    rw [hb] at hs; exact hs.prefix
  · rw [List.pairwise_map] at h1 ⊢; exact h1.filter _
  · exact fun x hx => h2 x (List.mem_of_mem_filter hx)

theorem getDiffIter_keep {new old : List (Rec K D)} (hn : IsListing new) (ho : IsListing old) (p : K → Bool) :
    (getDiffIter new old).filter (fun r => p r.idx) =
      getDiffIter (new.filter (fun r => p r.idx)) (old.filter (fun r => p r.idx)) := by
  obtain ⟨h1, h2⟩ := getDiffIter_spec hn ho
  obtain ⟨h3, h4⟩ := getDiffIter_spec (hn.filter p) (ho.filter p)
  refine ordered_ext (h1.filter _) h3 fun x => ?_
  rw [List.mem_filter, h2, h4]
  simp only [List.mem_filter]
  constructor
  · rintro ⟨⟨h5, h6⟩ | ⟨h5, ⟨n, h6, h7⟩, h8⟩, hp⟩
    · exact .inl ⟨⟨h5, hp⟩, fun h => h6 h.1⟩
    · exact .inr ⟨h5, ⟨n, ⟨h6, by rw [h7]; exact hp⟩, h7⟩, fun o ho' => h8 o ho'.1⟩
  · rintro (⟨⟨h5, hp⟩, h6⟩ | ⟨h5, ⟨n, ⟨h6, hp⟩, h7⟩, h8⟩)
    · exact ⟨.inl ⟨h5, fun h => h6 ⟨h, hp⟩⟩, hp⟩
    · rw [h7] at hp
      exact ⟨.inr ⟨h5, ⟨n, h6, h7⟩, fun o ho' he => h8 o ⟨ho', by rw [he]; exact hp⟩ he⟩, hp⟩

theorem Rel.keep {prev} {c : List (MFile K D)} {h} (r : Rel prev c h)
    (hprev : ∀ P, prev = some P → IsListing P) (hl : ∀ x ∈ h, IsListing x.2) (p : K → Bool) :
    Rel (prev.map (fun l => l.filter (fun r => p r.idx)))
      (c.map (fun f => { f with recs := f.recs.filter (fun r => p r.idx) }))
      (h.map (fun h => (h.1, h.2.filter (fun r => p r.idx)))) := by
  induction r with
  | nil => exact .nil
  | @snap prev t L fs hs r ih =>
    have hL : IsListing L := hl (t, L) (by simp)
    exact .snap (ih (by rintro P ⟨⟩; exact hL) (fun x hx => hl x (by simp [hx])))
  | @diff P t L fs hs r ih =>
    have hL : IsListing L := hl (t, L) (by simp)
    simp only [List.map_cons, Option.map_some]
    rw [getDiffIter_keep (hprev P rfl) hL]
    exact .diff (ih (by rintro P ⟨⟩; exact hL) (fun x hx => hl x (by simp [hx])))

theorem Short.keep {c : List (MFile K D)} (h : Short c) (p : K → Bool) :
    Short (c.map (fun f => { f with recs := f.recs.filter (fun r => p r.idx) })) := by
  have hcd : ∀ l : List (MFile K D), countDiffs (l.map (fun f => { f with recs := f.recs.filter (fun r => p r.idx) })) =
      countDiffs l := by
    intro l
    induction l with
    | nil => rfl
    | cons f l ih => simp [countDiffs, ih]
  intro s hs
  obtain ⟨t, ht⟩ := hs
  obtain ⟨l₁, l₂, rfl, -, rfl⟩ := List.map_eq_append_iff.mp ht.symm
  rw [hcd]
  exact h l₂ (List.suffix_append _ _)

theorem Inv.keep {dir : Dir K D} {h} (inv : Inv dir h) (p : K → Bool) :
    Inv (dir.map (fun f => { f with recs := f.recs.filter (fun r => p r.idx) }))
      (h.map (fun h => (h.1, h.2.filter (fun r => p r.idx)))) := by
  obtain ⟨⟨c, hc, hr, hs⟩, h1, h2⟩ := inv
  refine ⟨⟨_, hc.map _, hr.keep (by simp) h2 p, hs.keep p⟩, ?_, ?_⟩
  · rw [List.map_map]; exact h1
  · intro x hx
    obtain ⟨y, hy, rfl⟩ := List.mem_map.mp hx
    exact (h2 y hy).filter p

theorem History.inv {dir : Dir K D} {h} (hh : History dir h) : Inv dir h := by
  induction hh with
  | empty => exact ⟨⟨[], .nil, .nil, by intro s hs; simp at hs; subst hs; simp [countDiffs]⟩, .nil, by simp⟩
  | session _ ht hL he ih =>
    obtain ⟨dir', h1, h2⟩ := ih.session ht hL
    rw [he] at h1; cases h1; exact h2
  | relist _ hp ih => exact ih.relist hp
  | remove t _ ih => exact ih.remove t
  | keep p _ ih => exact ih.keep p

theorem Inv.relevant {dir : Dir K D} {h} (inv : Inv dir h) {t : Nat} {L : List (Rec K D)}
    (hm : (t, L) ∈ h) :
    ∃ ss, relevantIncs dir t = some ss ∧ ss ≠ [] ∧ Encodes (ss.map (·.recs)) L ∧
      (∀ f ∈ ss, Ordered Rec.idx f.recs) ∧ (∀ f, ss = [f] → f.recs = L) ∧ ss.length ≤ 9 := by
  obtain ⟨⟨c, hc, hr, hs⟩, hd, hl⟩ := inv
  have hcd : (c.map (·.time)).Pairwise (· > ·) := by rw [hr.times]; exact hd
  have hr' := hr.filter_time hd t
  -- the last of the filtered history is (t, L)
  have hlast : (h.filter (fun x => decide (t ≤ x.1))).getLast? = some (t, L) := by
    clear * - hd hm
    induction h with
    | nil => cases hm
    | cons x h ih =>
      obtain ⟨h1, h2⟩ := List.pairwise_cons.mp hd
      rcases List.mem_cons.mp hm with rfl | hm
      · have : h.filter (fun x => decide (t ≤ x.1)) = [] := by
          rw [List.filter_eq_nil_iff]
          intro y hy
          have := h1 _ (List.mem_map.mpr ⟨y, hy, rfl⟩)
          simp at this ⊢; omega
        simp [List.filter_cons, this]
      · have ih := ih hm h2
        have hxt : t ≤ x.1 := by
          have := h1 _ (List.mem_map.mpr ⟨(t, L), hm, rfl⟩); simp at this; omega
        simp only [List.filter_cons, hxt, decide_true, if_true]
        rw [List.getLast?_cons, ih]; rfl
  rcases hr'.read (by simp) (fun x hx => hl x (List.mem_of_mem_filter hx)) hlast with
    ⟨ss, h1, h2, h3, h4, h5⟩ | ⟨-, -, P, h, -⟩
  · refine ⟨ss, ?_, h2, h3, h4, h5, ?_⟩
    · unfold relevantIncs
      rw [sortedInclist_eq hc hcd t]
      simp only
      have hlt : ((c.filter (fun f => decide (t ≤ f.time))).getLast?).map (·.time) = some t := by
        rw [← List.getLast?_map, hr'.times, List.getLast?_map, hlast]; rfl
      cases hg : (c.filter (fun f => decide (t ≤ f.time))).getLast? with
      | none => rw [hg] at hlt; simp at hlt
      | some last =>
        rw [hg] at hlt
        simp only [Option.map_some, Option.some.injEq] at hlt
        simp [hlt, h1]
    · obtain ⟨hsuf, f, ds, rfl, -, hds⟩ := backToSnapshot_short h1
      obtain ⟨b, hb⟩ := filter_is_prefix c hcd t
      have hsh : Short (c.filter (fun f => decide (t ≤ f.time))) := by
        rw [hb] at hs; exact hs.prefix
      have := hsh ds ((List.suffix_cons f ds).trans hsuf)
      rw [countDiffs_all hds] at this
      simp; omega
  · cases h

/-- reading a listing back -/
theorem Inv.read {dir : Dir K D} {h} (inv : Inv dir h) {t : Nat} {L : List (Rec K D)}
    (hm : (t, L) ∈ h) (restrict : K → Bool) :
    metaAtTime dir t restrict = some (L.filter (fun r => restrict r.idx)) := by
  obtain ⟨ss, h1, h2, h3, h4, h5, -⟩ := inv.relevant hm
  have hL := inv.listings _ hm
  unfold metaAtTime
  rw [h1]
  simp only
  match ss, h2 with
  | [f], _ => simp [h5 f rfl]
  | f :: g :: fs, _ =>
    have ho : ∀ s ∈ (f :: g :: fs).map (fun f => f.recs.filter (fun r => restrict r.idx)),
        JoinSpec.Ordered Rec.idx s := by
      intro s hs
      obtain ⟨x, hx, rfl⟩ := List.mem_map.mp hs
      exact (h4 x hx).filter _
    have he := encodes_filter restrict h3
    rw [List.map_map] at he
    have := iteratePatched_of_encodes ho (hL.filter restrict) he
    simp only [List.map_cons] at this ⊢
    rw [this]

end Verif.MetaChain
