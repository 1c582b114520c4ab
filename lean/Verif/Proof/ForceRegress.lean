import Verif.Proof.RegressAll
import Verif.Proof.RepoRestore
import Verif.Proof.RemoveFile
/- A forced regress leaves the state of an interrupted backup of the newest session. -/
namespace Verif.Repo
open Verif.Collate Verif.FillIn Verif.TreeReducer Verif.MetaChain Verif.JoinSpec
set_option linter.unusedSectionVars false
variable {α A C S H Δ L : Type} [LinearOrder α] [DecidableEq A] [DecidableEq S] [DecidableEq H] [DecidableEq L]
variable {o : Ops A C H Δ L} {rsv : α → Prop} {st : State α A C S H Δ} {hist : Hist α A C S}
variable {P : Prot α A C S H Δ}

theorem LooseNode.symm {m n : Option (Node A C S)} (h : LooseNode o m n) : LooseNode o n m := by
  cases m with
  | none => cases n with
    | none => trivial
    | some n => cases n <;> exact h.elim
  | some m =>
    cases n with
    | none => cases m <;> exact h.elim
    | some n => cases m <;> cases n <;> first | exact h.elim | trivial | exact ⟨h.1.symm, h.2.symm⟩

/-- the increment of the given time comes first -/
theorem incs_split {l : List (IncFile α A C S Δ)} {t : Nat} (hp : l.Pairwise (fun f g => g.time < f.time))
    (ht : ∀ f ∈ l, f.time ≤ t) (i : List α) (hi : ∀ f ∈ l, f.idx = i) :
    l = (match incAt l t with | none => [] | some y => [⟨i, t, y⟩]) ++ l.filter (fun f => f.time < t) := by
  cases l with
  | nil => rfl
  | cons f l =>
    obtain ⟨h1, h2⟩ := List.pairwise_cons.mp hp
    have hf := ht f (by simp)
    have hall : l.filter (fun f => f.time < t) = l := by
      rw [List.filter_eq_self]
      intro g hg
      have := h1 g hg
      simp; omega
    by_cases h : f.time = t
    · have : incAt (f :: l) t = some f.inc := by simp [incAt, h]
      rw [this, List.filter_cons, if_neg (by simp; omega), hall]
      have hidx := hi f (by simp)
      clear this
      subst h; subst hidx
      rfl
    · have hn : l.find? (fun f => f.time = t) = none := by
        rw [List.find?_eq_none]
        intro g hg hgt
        have := h1 g hg
        simp at hgt; omega
      have : incAt (f :: l) t = none := by simp [incAt, h, hn]
      rw [this, List.filter_cons, if_pos (by simp; omega), hall]; rfl

theorem incAt_filter (l : List (IncFile α A C S Δ)) {t u : Nat} (h : u < t) : incAt (l.filter (fun f => f.time < t)) u = incAt l u := by
  simp only [incAt, List.find?_filter]
  congr 2
  funext f
  by_cases hf : f.time = u
  · subst hf; simp [h]
  · simp [hf]

/-- contents are found along the chain -/
theorem chain_content : ∀ (rest : Hist α A C S) {y : Nat × Files α (Node A C S)} {incs : List α → List (IncFile α A C S Δ)},
    Chain o incs (y :: rest) → (∀ i, (incs i).Pairwise (fun f g => g.time < f.time)) →
    ((y :: rest).map Prod.fst).Pairwise (· > ·) → (∀ i, ∀ f ∈ incs i, f.idx = i ∧ f.time ∈ rest.map Prod.fst) →
    ∀ x ∈ rest, ∀ i a c, get x.2 i = some (.reg a c) →
      resolve o ((newerIncs (incs i) x.1).map (·.inc)) (get y.2 i) = some c
  | [], _, _, _, _, _, _ => by simp
  | z :: rest, y, incs, hch, hso, hti, hin => by
    intro x hx i a c hc
    have hz := (List.pairwise_cons.mp hti).2
    have hzr := (List.pairwise_cons.mp hz).1
    have hle : ∀ f ∈ incs i, f.time ≤ z.1 := by
      intro f hf
      have := (hin i f hf).2
      rw [List.map_cons, List.mem_cons] at this
      rcases this with h | h
      · omega
      · exact le_of_lt (hzr _ h)
    have hsplit := incs_split (hso i) hle i (fun f hf => (hin i f hf).1)
    obtain ⟨-, h1, h2, h3⟩ := hch.1 i
    let P1 : Prot α A C S H Δ := ⟨z.1, get z.2, fun _ => none, fun i => (incs i).filter (fun f => f.time < z.1)⟩
    have hinc : incs i = incFile P1 i (incAt (incs i) z.1) ++ P1.incs0 i := by
      cases h : incAt (incs i) z.1 <;> rw [h] at hsplit <;> exact hsplit
    have hlt : ∀ g ∈ P1.incs0 i, g.time < P1.t0 := by
      intro g hg; simpa using (List.mem_filter.mp hg).2
    have hlast : ∀ a c, get z.2 i = some (.reg a c) → resolve o (incAt (incs i) z.1).toList (get y.2 i) = some c := by
      intro a c h
      rw [resolve1_eq]; exact (h3 a c h).2
    have hxz : x.1 ≤ P1.t0 := by
      rcases List.mem_cons.mp hx with rfl | hx
      · exact le_refl _
      · exact le_of_lt (hzr x.1 (List.mem_map.mpr ⟨x, hx, rfl⟩))
    rw [hinc, newerIncs_incFile hlt hxz]
    rcases List.mem_cons.mp hx with rfl | hx
    · rw [newerIncs_nil hlt]
      simpa using hlast a c hc
    · refine resolve_append hlast _ ?_
      have hch' : Chain o P1.incs0 (z :: rest) := hch.2.congr fun w hw j => by
        have : w.1 < z.1 := hzr w.1 (List.mem_map.mpr ⟨w, hw, rfl⟩)
        exact incAt_filter (incs j) this
      refine chain_content rest hch' (fun j => (hso j).sublist List.filter_sublist) hz ?_ x hx i a c hc
      intro j f hf
      obtain ⟨hf1, hf2⟩ := List.mem_filter.mp hf
      obtain ⟨e1, e2⟩ := hin j f hf1
      refine ⟨e1, ?_⟩
      rw [List.map_cons, List.mem_cons] at e2
      rcases e2 with h | h
      · simp at hf2; omega
      · exact h

theorem insertTime_spec (t : Nat) : ∀ l : List Nat, l.Pairwise (· < ·) →
    (insertTime t l).Pairwise (· < ·) ∧ ∀ k, k ∈ insertTime t l ↔ k = t ∨ k ∈ l
  | [], _ => by simp [insertTime]
  | u :: r, h => by
    obtain ⟨h1, h2⟩ := List.pairwise_cons.mp h
    obtain ⟨e1, e2⟩ := insertTime_spec t r h2
    rw [insertTime]
    by_cases h3 : t < u
    · rw [if_pos h3]
      refine ⟨List.pairwise_cons.mpr ⟨?_, h⟩, by simp⟩
      intro x hx
      rcases List.mem_cons.mp hx with rfl | hx
      · exact h3
      · exact lt_trans h3 (h1 x hx)
    · rw [if_neg h3]
      by_cases h4 : t = u
      · rw [if_pos h4]; subst h4
        exact ⟨h, by simp⟩
      · rw [if_neg h4]
        refine ⟨List.pairwise_cons.mpr ⟨?_, e1⟩, ?_⟩
        · intro x hx
          rcases (e2 x).mp hx with rfl | hx
          · omega
          · exact h1 x hx
        · intro k
          rw [List.mem_cons, e2, List.mem_cons]
          tauto

theorem insertTimes_spec (l : List Nat) : (l.foldr insertTime []).Pairwise (· < ·) ∧ ∀ k, k ∈ l.foldr insertTime [] ↔ k ∈ l := by
  induction l with
  | nil => simp
  | cons t l ih =>
    obtain ⟨h1, h2⟩ := insertTime_spec t _ ih.1
    exact ⟨h1, fun k => by rw [List.foldr_cons, h2, ih.2, List.mem_cons]⟩

theorem sortedTimes_eq {T0 rest L0 mrest} (hs : Static o rsv P T0 rest L0 mrest) (hc : Clean o P T0 L0 mrest st) :
    (sortedTimes st P.t0).reverse = ((P.t0, T0) :: rest).map Prod.fst := by
  obtain ⟨hlt, hmem⟩ := insertTimes_spec (incrementTimes st P.t0)
  have := C12.sorted_unique hlt (l' := (((P.t0, T0) :: rest).map Prod.fst).reverse) (by
      rw [List.pairwise_reverse]; exact hs.times) (by
      intro k
      rw [List.mem_reverse, ← incrementTimes_mem hs hc]
      exact hmem k)
  rw [sortedTimes, this, List.reverse_reverse]

/-- the newest session as a failed one -/
theorem stage_force {metas : Dir (List α) (MRec A S H)} {t0 L0 t1 L1 mrest} (h : MetaChain.Inv metas ((t0, L0) :: (t1, L1) :: mrest)) :
    Stage t0 ((t1, L1) :: mrest) metas := by
  have hinv := h
  obtain ⟨⟨c, hp, hr, hsh⟩, hd, hl⟩ := h
  have hd' := (List.pairwise_cons.mp hd).2
  have hl' : ∀ x ∈ (t1, L1) :: mrest, IsListing x.2 := fun x hx => hl x (by simp only [List.mem_cons] at hx ⊢; exact .inr hx)
  cases hr with
  | snap hr' =>
    rename_i fs
    cases hr' with
    | snap hr'' =>
      rename_i gs
      exact .inl ⟨[⟨t0, true, L0⟩], _, hp, ⟨⟨_, .refl _, .snap hr'', hsh.suffix (List.suffix_cons _ _)⟩, hd', hl'⟩, by simp⟩
    | diff hr'' =>
      rename_i gs
      refine .inr ⟨t1, L1, mrest, L0, gs, rfl, hinv, hp.trans (.swap _ _ _), ⟨⟨_, .refl _, .snap hr'', ?_⟩, hd', hl'⟩⟩
      exact Short.cons (hsh.suffix ((List.suffix_cons _ _).trans (List.suffix_cons _ _))) (by simp [countDiffs])

/-- the session before `P`, seen as the last complete one -/
def Prot.prev (P : Prot α A C S H Δ) (t1 : Nat) (T1 : Files α (Node A C S)) (L1 : List (Rec (List α) (MRec A S H))) : Prot α A C S H Δ :=
  ⟨t1, get T1, fun i => hashOf (recAt L1 i), fun i => (P.incs0 i).filter (fun f => f.time < t1)⟩

/-- after the second marker is written: as if the newest session had failed -/
theorem force_wi {T0 t1 T1 rest L0 L1 mrest} (hs : Static o rsv P T0 ((t1, T1) :: rest) L0 ((t1, L1) :: mrest))
    (hc : Clean o P T0 L0 ((t1, L1) :: mrest) st) :
    forceRegress st = some { st with marks := [P.t0, t1] } ∧ Static o rsv (P.prev t1 T1 L1) T1 rest L1 mrest ∧ t1 < P.t0 ∧
      WI o (P.prev t1 T1 L1) [P.t0, t1] P.t0 ((t1, L1) :: mrest) { st with marks := [P.t0, t1] } := by
  have ht := sortedTimes_eq hs hc
  have h01 : t1 < P.t0 := (List.pairwise_cons.mp hs.times).1 t1 (by simp)
  have hz := (List.pairwise_cons.mp hs.times).2
  have hzr := (List.pairwise_cons.mp hz).1
  have hd := hs.desc
  cases hd with
  | cons hd0 hd1 =>
  cases hd1 with
  | cons hd1 hd2 =>
  refine ⟨?_, ?_, h01, ?_⟩
  · simp only [forceRegress, hc.marks, ht, List.map_cons, if_true, List.singleton_append]
  · have hincs : ∀ i, ∀ f ∈ (P.incs0 i).filter (fun f => f.time < t1), f.idx = i ∧ f.time < t1 ∧ f.time ∈ rest.map Prod.fst := by
      intro i f hf
      obtain ⟨hf1, hf2⟩ := List.mem_filter.mp hf
      obtain ⟨e1, -, e3⟩ := hs.incs i f hf1
      simp only [decide_eq_true_eq] at hf2
      refine ⟨e1, hf2, ?_⟩
      rw [List.map_cons, List.mem_cons] at e3
      rcases e3 with h | h
      · simp only at h; omega
      · exact h
    have hsort : ∀ i, ((P.incs0 i).filter (fun f => f.time < t1)).Pairwise (fun f g => g.time < f.time) :=
      fun i => (hs.sorted i).sublist List.filter_sublist
    have hch : Chain o (fun i => (P.incs0 i).filter (fun f => f.time < t1)) ((t1, T1) :: rest) :=
      hs.chain.2.congr fun w hw j => incAt_filter _ (hzr w.1 (List.mem_map.mpr ⟨w, hw, rfl⟩))
    refine ⟨fun _ => rfl, fun _ => rfl, fun x hx => hs.trees x (List.mem_cons_of_mem _ hx), .cons hd1 hd2, hz, hincs, ?_, hsort, hch⟩
    exact chain_content rest hch hsort hz (fun i f hf => ⟨(hincs i f hf).1, (hincs i f hf).2.2⟩)
  · refine ⟨⟨hc.wf.closed, hc.wf.root, hc.wf.incroot, hc.wf.incclosed, hc.wf.incparent⟩, ?_, stage_force hc.metas, rfl⟩
    intro i
    have hle : ∀ f ∈ P.incs0 i, f.time ≤ t1 := by
      intro f hf
      have := (hs.incs i f hf).2.2
      rw [List.map_cons, List.mem_cons] at this
      rcases this with h | h
      · simp only at h; omega
      · exact le_of_lt (hzr _ h)
    have hsplit := incs_split (hs.sorted i) hle i (fun f hf => (hs.incs i f hf).1)
    refine ⟨incAt (P.incs0 i) t1, ?_, ?_⟩
    · show incsAt st i = _
      rw [hc.incs]
      cases h : incAt (P.incs0 i) t1 <;> rw [h] at hsplit <;> exact hsplit
    · obtain ⟨h0, h1, h2, h3⟩ := linked_loose (hc.mirror i).symm (hs.chain.1 i)
      exact ⟨h1, h2, fun a c ha => ⟨(h3 a c ha).1, .inr (.inr (h3 a c ha).2)⟩⟩

theorem Static.mrest_cons {T0 t1 T1 rest L0 mrest} (hs : Static o rsv P T0 ((t1, T1) :: rest) L0 mrest) :
    ∃ L1 mrest1, mrest = (t1, L1) :: mrest1 := by
  have hd := hs.desc
  cases hd with
  | cons hd0 hd1 =>
  cases hd1 with
  | @cons _ y1 _ mrest1 hd1 hd2 =>
  obtain ⟨t1', L1⟩ := y1
  obtain ⟨he, -⟩ := hd1
  simp only at he
  subst he
  exact ⟨L1, mrest1, rfl⟩

/-- what a forced regress starts with: as if the newest session had failed; refused if there is only one backup -/
theorem force_rep (h : Rep o rsv st hist) :
    match hist with
    | _ :: y :: rest => ∃ st1, forceRegress st = some st1 ∧ CI o rsv st1 (y :: rest) ∧ st1.mirror = st.mirror
    | _ => forceRegress st = none := by
  rcases h with ⟨rfl, a, rfl⟩ | ⟨P, T0, rest, L0, mrest, rfl, hs, hc⟩
  · rfl
  · cases rest with
    | nil => simp only [forceRegress, hc.marks, sortedTimes_eq hs hc, List.map_cons, List.map_nil]
    | cons y rest =>
      obtain ⟨t1, T1⟩ := y
      obtain ⟨L1, mrest1, rfl⟩ := hs.mrest_cons
      obtain ⟨h1, h2, h3, h4⟩ := force_wi hs hc
      exact ⟨_, h1, ⟨P.prev t1 T1 L1, T1, rest, L1, mrest1, P.t0, rfl, h2, h3, h4⟩, rfl⟩

end Verif.Repo
