import Verif.Proof.RegressWalk
/- A whole regress: it runs to the end, gives back the repository of the last backup, and can be interrupted
at every moment. -/
namespace Verif.Repo
open Verif.Collate Verif.FillIn Verif.TreeReducer Verif.MetaChain Verif.JoinSpec Verif.NestingSpec
set_option linter.unusedSectionVars false
variable {α A C S H Δ L : Type} [LinearOrder α] [DecidableEq A] [DecidableEq S] [DecidableEq H] [DecidableEq L]
variable {o : Ops A C H Δ L} {rsv : α → Prop} {P : Prot α A C S H Δ} {st st' : State α A C S H Δ}
  {T0 : Files α (Node A C S)} {c : RCtx α A C S H Δ} {K : List Nat} {stamp : A}
  {mh : MHist α A S H} {M : Dir (List α) (MRec A S H)}

/-! ### The paths -/

theorem insertKey_mem (i : List α) (l : List (List α)) (j : List α) : j ∈ insertKey i l ↔ j = i ∨ j ∈ l := by
  induction l with
  | nil => simp [insertKey]
  | cons k l ih =>
    unfold insertKey
    split
    · simp
    · split
      · next h => subst h; simp
      · simp only [List.mem_cons, ih]; tauto

theorem insertKey_sorted (i : List α) {l : List (List α)} (h : l.Pairwise (· < ·)) :
    (insertKey i l).Pairwise (· < ·) := by
  induction l with
  | nil => simp [insertKey]
  | cons k l ih =>
    obtain ⟨h1, h2⟩ := List.pairwise_cons.mp h
    unfold insertKey
    split
    · next hi =>
      refine List.pairwise_cons.mpr ⟨?_, h⟩
      intro j hj
      rcases List.mem_cons.mp hj with rfl | hj
      · exact hi
      · exact lt_trans hi (h1 j hj)
    · split
      · exact h
      · next hi hne =>
        refine List.pairwise_cons.mpr ⟨?_, ih h2⟩
        intro j hj
        rcases (insertKey_mem i l j).mp hj with rfl | hj
        · exact lt_of_le_of_ne (not_lt.mp hi) (Ne.symm hne)
        · exact h1 j hj

theorem rawKeys_sorted (st : State α A C S H Δ) : (rawKeys st).Pairwise (· < ·) := by
  unfold rawKeys
  generalize (st.mirror.map Prod.fst ++ st.incs.map (·.idx) ++ st.incdirs) = l
  induction l with
  | nil => simp
  | cons x l ih => exact insertKey_sorted x ih

theorem rawKeys_mem (st : State α A C S H Δ) (i : List α) :
    i ∈ rawKeys st ↔ (get st.mirror i).isSome = true ∨ incsAt st i ≠ [] ∨ i ∈ st.incdirs := by
  have h : ∀ l : List (List α), i ∈ l.foldr insertKey [] ↔ i ∈ l := by
    intro l
    induction l with
    | nil => simp
    | cons x l ih => rw [List.foldr_cons, insertKey_mem, ih, List.mem_cons]
  unfold rawKeys
  rw [h, List.mem_append, List.mem_append, get_isSome_iff, List.mem_map, List.mem_map]
  have : (∃ a ∈ st.incs, a.idx = i) ↔ incsAt st i ≠ [] := by
    rw [incsAt, ne_eq, List.filter_eq_nil_iff]
    push Not
    simp
  rw [this, or_assoc]

theorem rawKeys_closed (hw : FsWF st) {i : List α} (h : i ∈ rawKeys st) : i.dropLast ∈ rawKeys st := by
  by_cases hi : i = []
  · subst hi; exact h
  rw [rawKeys_mem] at h ⊢
  rcases h with h | h | h
  · left
    have := hw.closed i hi h
    obtain ⟨a, ha⟩ := (isDirAt_iff _ _).mp this
    rw [ha]; rfl
  · right; right
    obtain ⟨f, hf⟩ := List.exists_mem_of_ne_nil _ h
    simp only [incsAt, List.mem_filter, decide_eq_true_eq] at hf
    rw [← hf.2]; exact hw.incparent f hf.1
  · right; right; exact hw.incclosed i h

theorem regressRows_eq (st : State α A C S H Δ) {recs : List (Rec (List α) (MRec A S H))} (hl : IsListing recs) :
    regressRows st recs = (rawKeys st).map (fun k => (k, recAt recs k)) := by
  obtain ⟨ks, h1, h2, h3⟩ := C11.collate2_outer_join id Rec.idx (rawKeys st) recs
    (by simpa [Ordered] using rawKeys_sorted st) hl.1
  have hraw : rawKeys st = ks.filter (fun k => k ∈ rawKeys st) := by
    refine C12.sorted_unique (rawKeys_sorted st) (h1.filter _) ?_
    intro k
    simp only [List.mem_filter, decide_eq_true_eq]
    constructor
    · intro hk; exact ⟨(h2 k).mpr (.inl ⟨k, hk, rfl⟩), hk⟩
    · exact fun h => h.2
  have key : ∀ (ks : List (List α)) rows, List.Forall₂ (IsRow id Rec.idx (rawKeys st) recs) ks rows →
      (rows.filterMap fun (x : Option (List α) × Option (Rec (List α) (MRec A S H))) => match x with
        | (some k, y) => some (k, y.bind (·.data))
        | (none, _) => none) = (ks.filter (fun k => k ∈ rawKeys st)).map (fun k => (k, recAt recs k)) := by
    intro ks rows h
    induction h with
    | nil => rfl
    | @cons k p ks rows hr _ ih =>
      obtain ⟨-, g2, g3⟩ := hr
      obtain ⟨x, y⟩ := p
      simp only at g2 g3
      have hy : y.bind (·.data) = recAt recs k := by
        apply Option.ext
        intro m
        rw [recAt, find_mem hl]
        cases y with
        | none =>
          simp only [Option.bind_none, reduceCtorEq, false_iff]
          intro hm
          have := (g3 ⟨k, some m⟩).mpr ⟨hm, rfl⟩; cases this
        | some y =>
          obtain ⟨e1, e2⟩ := (g3 y).mp rfl
          simp only [Option.bind_some]
          constructor
          · intro e
            obtain ⟨yi, yd⟩ := y
            simp only at e2 e; subst e2 e; exact e1
          · intro hm
            have := (g3 ⟨k, some m⟩).mpr ⟨hm, rfl⟩
            cases this; rfl
      cases x with
      | none =>
        have hk : k ∉ rawKeys st := by
          intro hk; have := (g2 k).mpr ⟨hk, rfl⟩; cases this
        rw [List.filter_cons, if_neg (by simpa using hk)]
        simpa using ih
      | some x =>
        obtain ⟨e1, e2⟩ := (g2 x).mp rfl
        simp only [id] at e2
        subst e2
        rw [List.filter_cons, if_pos (by simpa using e1)]
        simp only [List.filterMap_cons, List.map_cons, hy]
        rw [← ih]
  have hkey := key ks _ h3
  rw [← hraw] at hkey
  exact hkey

/-! ### All events -/

theorem rorp_eq (i : List α) : c.rorp i = recAt c.recs i := rfl

theorem RegOK.absent (hc : RegOK o rsv c P T0) {i : List α} (hm : c.mirror i = none) (hi : incsAt c.st i = []) :
    get T0 i = none ∧ P.incs0 i = [] := by
  obtain ⟨x, hx, h1, h2, h3⟩ := hc.ri i
  rw [hi] at hx
  have hx' := (List.append_eq_nil_iff.mp hx.symm)
  have hxn : x = none := by
    cases x with
    | none => rfl
    | some y => simp [incFile] at hx'
  subst hxn
  refine ⟨?_, hx'.2⟩
  cases hT : get T0 i with
  | none => rfl
  | some n =>
    rw [← hc.old] at hT
    exfalso
    cases n with
    | dir a => rcases h1 a hT with h | h
               · rw [hm] at h; cases h
               · cases h
    | other a s =>
      rcases h2 a s hT with ⟨a', h, -⟩ | h
      · rw [hm] at h; cases h
      · cases h
    | reg a y =>
      rcases (h3 a y hT).2 with ⟨a', h, -⟩ | ⟨-, a', h⟩ | h
      · rw [hm] at h; cases h
      · rw [hm] at h; cases h
      · rw [hm] at h; cases h

theorem regBody_safe (hc : RegOK o rsv c P T0) (hl : IsListing c.recs) (hB : BI o P M K c.st) :
    ∃ evs, run ((regressRows c.st c.recs).map (fun x => (x.1, c.canFast x.1 x.2))) = some evs ∧
      Safe stamp (BI o P M K) (evs.flatMap (c.eventSteps o)) c.st (fun st' => ∀ i, Done o P T0 st' i) := by
  have hroot : isDirNode (c.mirror []) = true := by
    have := hc.wf.root
    rwa [← isDirNode_get] at this
  have hslowroot : c.canFast [] (recAt c.recs []) = false := by simp [RCtx.canFast, hroot]
  have hrootmem : ([] : List α) ∈ rawKeys c.st := by
    rw [rawKeys_mem]; right; right; exact hc.wf.incroot
  have hsorted := rawKeys_sorted c.st
  obtain ⟨rest, hraw⟩ : ∃ rest, rawKeys c.st = [] :: rest := by
    cases hk : rawKeys c.st with
    | nil => rw [hk] at hrootmem; cases hrootmem
    | cons k rest =>
      rw [hk] at hrootmem hsorted
      rcases List.mem_cons.mp hrootmem with h | h
      · exact ⟨rest, by rw [← h]⟩
      · exact absurd ((List.pairwise_cons.mp hsorted).1 _ h) (not_lt.mpr (prefix_le List.nil_prefix))
  let xs := rest.map (fun k => (k, c.canFast k (recAt c.recs k)))
  have hxs : xs.map Prod.fst = rest := by simp [xs, Function.comp_def]
  have hrows : (regressRows c.st c.recs).map (fun x => (x.1, c.canFast x.1 x.2)) = ([], false) :: xs := by
    rw [regressRows_eq c.st hl, hraw, List.map_map, List.map_cons]
    simp only [Function.comp_def, hslowroot, xs]
  rw [hraw] at hsorted
  obtain ⟨inner, h1, h2, h3⟩ := C13.reducer_nested [] xs (by rw [hxs]; exact hsorted) (fun _ _ => List.nil_prefix)
  rw [hxs] at h3
  have hflags := runFrom_flags (([], false) :: xs) init h1
  have hflag : ∀ i b, (i, b) ∈ (([], false) :: xs) → c.canFast i (c.rorp i) = b := by
    intro i b hib
    rcases List.mem_cons.mp hib with hib | hib
    · cases hib; exact hslowroot
    · obtain ⟨y, hy, hye⟩ := List.mem_map.mp hib
      cases hye; rfl
  have hfi : ∀ i ∈ fasts inner, isDirNode (c.mirror i) = false ∧ isDirRec (c.rorp i) = false := by
    intro i hi
    have := hflag i true (hflags.1 i (by simp [fasts, fasts_append, hi]))
    simpa [RCtx.canFast] using this
  have hsi : ∀ i ∈ starts inner, isDirNode (c.mirror i) = true ∨ isDirRec (c.rorp i) = true := by
    intro i hi
    have := hflag i false (hflags.2 i (by simp [starts, starts_append, hi]))
    simp only [RCtx.canFast, Bool.and_eq_false_iff, Bool.not_eq_false'] at this
    exact this
  have hmem : ∀ i, i ∈ rawKeys c.st → i ≠ [] → i ∈ processed inner := by
    intro i hi hne
    rw [hraw] at hi
    rw [h3]
    exact (List.mem_cons.mp hi).resolve_left hne
  have hmem' : ∀ i ∈ processed inner, i ∈ rawKeys c.st := by
    intro i hi; rw [hraw, ← h3]; simp [hi]
  have hbel := nested_below h2
  have hW : RWalk c [] inner := by
    refine ⟨hfi, hsi, ?_, ?_, by rw [h3]; exact (List.pairwise_cons.mp hsorted).2⟩
    · intro i hi hact
      have hine : i ≠ [] := below_ne_nil (hbel i hi)
      by_cases hp : i.dropLast = []
      · exact .inl hp
      · right
        have hpr := hmem _ (rawKeys_closed hc.wf (hmem' i hi)) hp
        rcases processed_cases hpr with h | h
        · exfalso
          obtain ⟨f1, f2⟩ := hfi _ h
          rcases hact with hact | hact
          · have := hc.wf.closed i hine hact
            rw [← isDirNode_get] at this
            have this : isDirNode (c.mirror i.dropLast) = true := this
            rw [f1] at this; cases this
          · have hT : (get T0 i).isSome = true := by
              have hd := hc.desc i
              cases hr : c.rorp i with
              | none => rw [hr] at hact; cases hact
              | some m =>
                rw [hr] at hd
                cases hg : get T0 i with
                | none => rw [hg] at hd; cases m <;> exact hd.elim
                | some _ => rfl
            have := hc.tree.closed i hine hT
            rw [← isDirRec_of_desc (hc.desc _), f2] at this; cases this
        · exact h
    · intro i hi j hb hm
      refine hmem j ?_ (below_ne_nil hb)
      rw [rawKeys_mem]; exact .inl hm
  refine ⟨_, by rw [hrows]; exact h1, ?_⟩
  have htmp : TmpFree c c.st := hc.tmp
  have hfresh : ∀ i, Fresh c c.st i := fun i => ⟨.refl _, rfl⟩
  have hsplit : (Event.start [] :: (inner ++ [.finish []])).flatMap (c.eventSteps o) =
      c.startSteps [] ++ (inner.flatMap (c.eventSteps o) ++ c.finishSteps o []) := by
    simp [List.flatMap_cons, List.flatMap_append, RCtx.eventSteps]
  rw [hsplit]
  have hni : ([] : List α) ∉ processed inner := fun h => (hbel _ h).2 rfl
  refine (regStart_safe hc hB (hfresh []) htmp (.inl hroot) (fun h => absurd rfl h)).append ?_
  intro st₁ hB₁ k₁
  refine (regWalk_safe hc h2 hB₁ hW k₁.dir k₁.tmp ?_).append ?_
  · intro k hk j hkj
    refine (hfresh j).same k₁.frm ?_
    rintro rfl
    exact below_ne_nil (hbel k hk) (List.prefix_nil.mp hkj)
  rintro st₂ hB₂ ⟨g1, g2, g3⟩
  refine (regFinish_safe hc hB₂ g3 (g1.isDirAt hni k₁.dir) ((g1.incs [] hni).trans k₁.incs) (.inl hroot)
    (fun h => absurd rfl h) ?_).weaken ?_
  · intro h
    have := isDirRec_of_desc (hc.desc [])
    rw [h, hc.tree.root_dir] at this; cases this
  · intro st₃ hB₃ k₃ i
    by_cases hi : i = []
    · subst hi; exact k₃.done
    · by_cases hp : i ∈ processed inner
      · exact (g2 i hp).same k₃.frm hi
      · have hnr : i ∉ rawKeys c.st := fun h => hp (hmem i h hi)
        rw [rawKeys_mem] at hnr
        push Not at hnr
        obtain ⟨r1, r2, -⟩ := hnr
        have hm : c.mirror i = none := by rw [RCtx.mirror]; simpa using r1
        obtain ⟨e1, e2⟩ := hc.absent hm r2
        have hf := (((hfresh i).same k₁.frm hi).same g1 hp).same k₃.frm hi
        have hf1 := hf.mirror
        rw [hm] at hf1
        refine ⟨?_, by rw [hf.incs, r2, e2]⟩
        rw [hf1.eq rfl, e1]; trivial

/-! ### The metadata files -/

/-- files which may be deleted -/
def Deletable (bad t0 : Nat) (f : MFile (List α) (MRec A S H)) : Prop :=
  f.time = bad ∨ (f.snap = false ∧ f.time = t0)

theorem dels_safe {t0 bad : Nat} {L0 mrest} (hI : MetaChain.Inv M ((t0, L0) :: mrest)) (hbad : t0 < bad)
    (ds : List (Nat × Bool)) (hds : ∀ d ∈ ds, d.1 = bad ∨ (d.2 = false ∧ d.1 = t0)) :
    ∀ {st : State α A C S H Δ} {X}, WI o P K bad ((t0, L0) :: mrest) st → st.metas.Perm (X ++ M) →
      (∀ f ∈ X, Deletable bad t0 f) →
      Safe stamp (WI o P K bad ((t0, L0) :: mrest)) (ds.map (fun d => .delMeta d.1 d.2)) st (fun st' =>
        st'.mirror = st.mirror ∧ st'.incs = st.incs ∧ st'.incdirs = st.incdirs ∧
        st'.metas.Perm (X.filter (fun f => (f.time, f.snap) ∉ ds) ++ M)) := by
  obtain ⟨fs, hp, -, hlt⟩ := inv_newest hI
  have hM : ∀ f ∈ M, ∀ d : Nat × Bool, (d.1 = bad ∨ (d.2 = false ∧ d.1 = t0)) → ¬ (f.time = d.1 ∧ f.snap = d.2) := by
    rintro f hf d hd ⟨e1, e2⟩
    rcases List.mem_cons.mp (hp.mem_iff.mp hf) with rfl | hf
    · simp only at e1 e2
      rcases hd with h | ⟨h, -⟩
      · omega
      · rw [h] at e2; cases e2
    · have := hlt f hf
      rcases hd with h | ⟨-, h⟩ <;> omega
  induction ds with
  | nil =>
    intro st X hw hpx _
    exact ⟨hw, rfl, rfl, rfl, by simpa using hpx⟩
  | cons d ds ih =>
    intro st X hw hpx hX
    have hperm : (st.metas.filter (fun g => ¬ (g.time = d.1 ∧ g.snap = d.2))).Perm
        (X.filter (fun g => ¬ (g.time = d.1 ∧ g.snap = d.2)) ++ M) := by
      have := hpx.filter (fun g => decide (¬ (g.time = d.1 ∧ g.snap = d.2)))
      rw [List.filter_append, (List.filter_eq_self (l := M)).mpr] at this
      · exact this
      · intro f hf; exact decide_eq_true (hM f hf d (hds d (by simp)))
    have hX' : ∀ f ∈ X.filter (fun g => ¬ (g.time = d.1 ∧ g.snap = d.2)), Deletable bad t0 f :=
      fun f hf => hX f (List.mem_of_mem_filter hf)
    rw [List.map_cons]
    refine .cons hw (st' := { st with metas := st.metas.filter (fun g => ¬ (g.time = d.1 ∧ g.snap = d.2)) }) rfl ?_
    refine (ih (fun d hd => hds d (by simp [hd])) (hw.metas (.inl ⟨_, M, hperm, hI, ?_⟩)) hperm hX').weaken ?_
    · intro f hf
      rcases hX' f hf with h | ⟨h1, h2⟩
      · exact .inl h
      · exact .inr ⟨h1, _, rfl, h2⟩
    · rintro st' - ⟨h1, h2, h3, h4⟩
      refine ⟨h1, h2, h3, h4.trans (List.Perm.of_eq ?_)⟩
      rw [List.filter_filter]
      congr 1
      apply List.filter_congr
      intro f _
      simp only [List.mem_cons, not_or, Prod.ext_iff]
      rw [← Bool.decide_and]
      congr 1
      rw [and_comm]

theorem stage_rbdir {t0 bad : Nat} {L0 mrest} (hbad : t0 < bad)
    (hw : WI o P K bad ((t0, L0) :: mrest) st) :
    ∃ ms, rbdirSteps (C := C) (Δ := Δ) st.metas bad t0 = some ms ∧
      Safe stamp (WI o P K bad ((t0, L0) :: mrest)) ms st (fun st' =>
        st'.mirror = st.mirror ∧ st'.incs = st.incs ∧ st'.incdirs = st.incdirs ∧
        MetaChain.Inv st'.metas ((t0, L0) :: mrest)) := by
  let dl : List (Nat × Bool) := (st.metas.filter (fun f => f.time = bad)).map (fun f => (bad, f.snap)) ++
    (st.metas.filter (fun f => f.time = t0 ∧ f.snap = false)).map (fun _ => (t0, false))
  have hdl : ((st.metas.filter (fun f => f.time = bad)).map (fun f => .delMeta bad f.snap) ++
      (st.metas.filter (fun f => f.time = t0 ∧ f.snap = false)).map (fun _ => .delMeta t0 false) :
        List (Step α A C S H Δ)) = dl.map (fun d => .delMeta d.1 d.2) := by
    simp [dl, List.map_append, List.map_map, Function.comp_def]
  have hds : ∀ d ∈ dl, d.1 = bad ∨ (d.2 = false ∧ d.1 = t0) := by
    intro d hd
    rcases List.mem_append.mp hd with hd | hd
    · obtain ⟨f, -, rfl⟩ := List.mem_map.mp hd; exact .inl rfl
    · obtain ⟨f, -, rfl⟩ := List.mem_map.mp hd; exact .inr ⟨rfl, rfl⟩
  have hcov : ∀ f ∈ st.metas, Deletable bad t0 f → (f.time, f.snap) ∈ dl := by
    intro f hf hd
    rcases hd with h | ⟨h1, h2⟩
    · refine List.mem_append.mpr (.inl (List.mem_map.mpr ⟨f, ?_, by rw [h]⟩))
      simp [hf, h]
    · refine List.mem_append.mpr (.inr (List.mem_map.mpr ⟨f, ?_, by rw [h1, h2]⟩))
      simp [hf, h1, h2]
  have fin : ∀ {st₁ : State α A C S H Δ} {X M}, MetaChain.Inv M ((t0, L0) :: mrest) →
      WI o P K bad ((t0, L0) :: mrest) st₁ → st₁.metas.Perm (X ++ M) → (∀ f ∈ X, Deletable bad t0 f) →
      (∀ f ∈ X, f ∈ st.metas) →
      Safe stamp (WI o P K bad ((t0, L0) :: mrest)) (dl.map (fun d => .delMeta d.1 d.2)) st₁ (fun st' =>
        st'.mirror = st₁.mirror ∧ st'.incs = st₁.incs ∧ st'.incdirs = st₁.incdirs ∧
        MetaChain.Inv st'.metas ((t0, L0) :: mrest)) := by
    intro st₁ X M hI hw₁ hpx hX hXm
    refine (dels_safe hI hbad dl hds hw₁ hpx hX).weaken ?_
    rintro st' - ⟨h1, h2, h3, h4⟩
    refine ⟨h1, h2, h3, hI.relist (List.Perm.symm ?_)⟩
    have : X.filter (fun f => (f.time, f.snap) ∉ dl) = [] := by
      rw [List.filter_eq_nil_iff]
      intro f hf
      simpa using hcov f (hXm f hf) (hX f hf)
    rwa [this, List.nil_append] at h4
  unfold rbdirSteps
  simp only
  rw [hdl]
  rcases hw.stage with ⟨X, M, hp, hI, hX⟩ | ⟨t0', L0', mrest', Lb, fs, he, hI, hp, hI'⟩
  · obtain ⟨fs, hpM, -, -⟩ := inv_newest hI
    have hsn : st.metas.filter (fun f => f.time = t0 ∧ f.snap = true) ≠ [] := by
      have : (⟨t0, true, L0⟩ : MFile (List α) (MRec A S H)) ∈
          st.metas.filter (fun f => f.time = t0 ∧ f.snap = true) := by
        rw [List.mem_filter]
        refine ⟨hp.mem_iff.mpr (List.mem_append.mpr (.inr (hpM.mem_iff.mpr (by simp)))), by simp⟩
      exact List.ne_nil_of_mem this
    rw [if_neg (fun h => hsn h.2)]
    refine ⟨_, rfl, fin hI hw hp ?_ ?_⟩
    · intro f hf
      rcases hX f hf with h | ⟨h1, x, h2, h3⟩
      · exact .inl h
      · simp at h2; subst h2; exact .inr ⟨h1, h3⟩
    · intro f hf; exact hp.mem_iff.mpr (by simp [hf])
  · cases he
    have hlt : ∀ f ∈ fs, f.time < t0 := by
      obtain ⟨⟨c, hpc, hr, -⟩, hd, -⟩ := hI'
      have h1 : (((⟨t0, true, L0⟩ :: fs : Dir (List α) (MRec A S H))).map (·.time)).Perm (c.map (·.time)) := hpc.map _
      rw [hr.times] at h1
      have hnd : (((t0, L0) :: mrest).map Prod.fst).Nodup := hd.imp (fun h => ne_of_gt h)
      have hnd' := h1.nodup_iff.mpr hnd
      intro f hf
      have hm : f.time ∈ ((t0, L0) :: mrest).map Prod.fst := h1.mem_iff.mp (List.mem_map.mpr ⟨f, by simp [hf], rfl⟩)
      rw [List.map_cons] at hm hd hnd'
      rcases List.mem_cons.mp hm with h | h
      · exact absurd (List.mem_map.mpr ⟨f, hf, h⟩) (List.nodup_cons.mp hnd').1
      · exact (List.pairwise_cons.mp hd).1 _ h
    have hsn : st.metas.filter (fun f => f.time = t0 ∧ f.snap = true) = [] := by
      rw [List.filter_eq_nil_iff]
      intro f hf
      rcases List.mem_cons.mp (hp.mem_iff.mp hf) with rfl | hf
      · simp
      · rcases List.mem_cons.mp hf with rfl | hf
        · simp; omega
        · have := hlt f hf; simp; omega
    have hdf : st.metas.filter (fun f => f.time = t0 ∧ f.snap = false) ≠ [] := by
      refine List.ne_nil_of_mem (a := ⟨t0, false, getDiffIter Lb L0⟩) ?_
      rw [List.mem_filter]
      exact ⟨hp.mem_iff.mpr (by simp), by simp⟩
    rw [if_pos ⟨hdf, hsn⟩, hI.read (t := t0) (L := L0) (by simp)]
    refine ⟨_, rfl, ?_⟩
    simp only [List.filter_true]
    have hfresh : ∀ g ∈ st.metas, ¬ (g.time = t0 ∧ g.snap = true) := by
      intro g hg
      simpa using (List.filter_eq_nil_iff.mp hsn) g hg
    refine .cons hw (putMeta_fresh hfresh) ?_
    have hp' : (⟨t0, true, L0⟩ :: st.metas : Dir (List α) (MRec A S H)).Perm
        ([⟨t0, false, getDiffIter Lb L0⟩, ⟨bad, true, Lb⟩] ++ ⟨t0, true, L0⟩ :: fs) := by
      refine (hp.cons _).trans ?_
      exact (List.perm_middle (l₁ := ([⟨t0, false, getDiffIter Lb L0⟩, ⟨bad, true, Lb⟩] : Dir (List α) (MRec A S H)))).symm
    have hX : ∀ f ∈ ([⟨t0, false, getDiffIter Lb L0⟩, ⟨bad, true, Lb⟩] : Dir (List α) (MRec A S H)), Deletable bad t0 f := by
      intro f hf
      simp at hf
      rcases hf with rfl | rfl
      · exact .inr ⟨rfl, rfl⟩
      · exact .inl rfl
    refine fin hI' (hw.metas (.inl ⟨_, _, hp', hI', ?_⟩)) hp' hX ?_
    · intro f hf
      rcases hX f hf with h | ⟨h1, h2⟩
      · exact .inl h
      · exact .inr ⟨h1, _, rfl, h2⟩
    · intro f hf
      simp at hf
      rcases hf with rfl | rfl <;> exact hp.mem_iff.mpr (by simp)

/-! ### The whole regress -/

theorem regress_wi {rest : Hist α A C S} {r : RSess α A C} (hs : Static o rsv P T0 rest L0 mrest) (hbad : P.t0 < bad)
    (hw : WI o P [bad, P.t0] bad ((P.t0, L0) :: mrest) st) (hv : ValidRegress o rsv ((P.t0, T0) :: rest) st r) :
    ∃ steps st', regressSteps o st r = some steps ∧ exec r.stamp steps st = some st' ∧ Clean o P T0 L0 mrest st' ∧
      ∀ n, n < steps.length → ∃ st'', exec r.stamp (steps.take n) st = some st'' ∧
        WI o P [bad, P.t0] bad ((P.t0, L0) :: mrest) st'' := by
  obtain ⟨ms, hms, hsafe⟩ := stage_rbdir (stamp := r.stamp) hbad hw
  obtain ⟨st₁, he₁, ⟨m1, m2, m3, m4⟩, hw₁⟩ := hsafe.exec
  have hread : metaAtTime st₁.metas P.t0 (fun _ => true) = some L0 := by
    rw [m4.read (t := P.t0) (L := L0) (by simp)]; simp
  let c : RCtx α A C S H Δ := ⟨st₁, r, bad, P.t0, L0⟩
  have hc : RegOK o rsv c P T0 := by
    constructor
    · exact hw₁.wf
    · exact hw₁.ri
    · rfl
    · exact hbad
    · exact hs.old
    · exact hs.tree0
    · exact hs.desc0.desc
    · exact hs.hash
    · intro i f hf; exact ⟨(hs.incs i f hf).1, (hs.incs i f hf).2.1⟩
    · exact hv.tmp
    · intro i hi
      show get st₁.mirror i = none
      rw [m1]
      by_contra hcon
      obtain ⟨x, hx, rfl⟩ := (get_isSome_iff _ _).mp (by simpa [Option.isSome_iff_ne_none] using hcon)
      exact hv.unused x hx hi
    · exact hv.stamp
    · exact hv.junk
  have hB : BI o P st₁.metas [bad, P.t0] st₁ := ⟨hw₁.wf, hw₁.ri, rfl, hw₁.marks⟩
  obtain ⟨evs, hrun, hbody⟩ := regBody_safe (stamp := r.stamp) (c := c) hc hs.desc0.listing hB
  have hany : ((rawKeys st₁).any fun i => decide (1 < (c.newer i).length)) = false := by
    rw [List.any_eq_false]
    intro i _
    obtain ⟨x, hx, -⟩ := hc.ri i
    have : (c.newer i).length ≤ 1 := by
      unfold RCtx.newer
      rw [show c.st.incs.filter (fun f => decide (f.idx = i)) = incsAt c.st i from rfl, hx, hc.good]
      have h0 : newerIncs (P.incs0 i) P.t0 = [] := newerIncs_nil (fun f hf => (hc.incs0 i f hf).2)
      cases x with
      | none => simp [incFile, h0]
      | some y =>
        rw [incFile, List.singleton_append, newerIncs_cons (fun f hf => (hc.incs0 i f hf).2) (le_refl _), h0]
        simp
    simp; omega
  have htimes : regressTimes st = some (bad, P.t0) := by
    unfold regressTimes
    rw [hw.marks]
    simp only
    rw [if_neg (by omega)]
  have hsteps : regressSteps o st r = some (ms ++ (evs.flatMap (c.eventSteps o) ++ [.unmark bad])) := by
    unfold regressSteps
    rw [htimes]; simp only
    rw [hms]; simp only
    rw [he₁]; simp only
    rw [hread]; simp only
    rw [if_neg (by simpa using hany)]
    rw [show run ((regressRows st₁ L0).map fun x => (x.1, RCtx.canFast ⟨st₁, r, bad, P.t0, L0⟩ x.1 x.2)) = some evs from hrun]
  have hstage : Stage bad ((P.t0, L0) :: mrest) st₁.metas := .inl ⟨[], st₁.metas, .refl _, m4, by simp⟩
  have hbody' : Safe r.stamp (WI o P [bad, P.t0] bad ((P.t0, L0) :: mrest)) (evs.flatMap (c.eventSteps o)) st₁
      (fun st' => (∀ i, Done o P T0 st' i) ∧ BI o P st₁.metas [bad, P.t0] st') :=
    (hbody.weaken (fun st' hB' hb => And.intro hb hB')).imp (fun s h => h.wi hstage)
  have hall : Safe r.stamp (WI o P [bad, P.t0] bad ((P.t0, L0) :: mrest)) (ms ++ evs.flatMap (c.eventSteps o)) st
      (fun st' => (∀ i, Done o P T0 st' i) ∧ BI o P st₁.metas [bad, P.t0] st') := by
    have hs1 : Safe r.stamp (WI o P [bad, P.t0] bad ((P.t0, L0) :: mrest)) ms st (fun st' => st' = st₁) := by
      have key : ∀ (ss : List (Step α A C S H Δ)) (s : State α A C S H Δ) {I Q}, Safe r.stamp I ss s Q →
          exec r.stamp ss s = some st₁ → Safe r.stamp I ss s (fun st' => st' = st₁) := by
        intro ss
        induction ss with
        | nil => intro s I Q h he; simp [exec] at he; exact ⟨h.1, he⟩
        | cons a ss ih =>
          intro s I Q h he
          obtain ⟨h1, s', h2, h3⟩ := h
          rw [exec, h2, Option.bind_some] at he
          exact ⟨h1, s', h2, ih s' h3 he⟩
      exact key ms st hsafe he₁
    refine hs1.append ?_
    rintro s - rfl
    exact hbody'
  obtain ⟨st₂, he₂, ⟨hd₂, hB₂⟩, hw₂⟩ := hall.exec
  refine ⟨_, { st₂ with marks := [P.t0] }, hsteps, ?_, ?_, ?_⟩
  · rw [← List.append_assoc, exec_append, he₂, Option.bind_some, exec, apply, hB₂.marks]
    simp only [Option.bind_some, exec]
    congr 2
    rw [List.filter_cons, if_neg (by simp), List.filter_cons, if_pos (by simp; omega)]
    rfl
  · exact ⟨⟨hB₂.wf.closed, hB₂.wf.root, hB₂.wf.incroot, hB₂.wf.incclosed, hB₂.wf.incparent⟩,
      fun i => (hd₂ i).mirror, fun i => (hd₂ i).incs, by rw [hB₂.metas]; exact m4, rfl⟩
  · intro n hn
    rw [← List.append_assoc] at hn ⊢
    rw [List.length_append, List.length_singleton] at hn
    obtain ⟨st'', h1, h2⟩ := hall.take n
    refine ⟨st'', ?_, h2⟩
    rw [List.take_append_of_le_length (by omega)]; exact h1

theorem regress_ci {hist : Hist α A C S} {r : RSess α A C} (hci : CI o rsv st hist) (hv : ValidRegress o rsv hist st r) :
    ∃ steps st', regressSteps o st r = some steps ∧ exec r.stamp steps st = some st' ∧ Rep o rsv st' hist ∧
      ∀ n, n < steps.length → ∃ st'', exec r.stamp (steps.take n) st = some st'' ∧ CI o rsv st'' hist := by
  obtain ⟨P, T0, rest, L0, mrest, bad, rfl, hs, hbad, hw⟩ := hci
  obtain ⟨steps, st', h1, h2, h3, h4⟩ := regress_wi hs hbad hw hv
  refine ⟨steps, st', h1, h2, .inr ⟨P, T0, rest, L0, mrest, rfl, hs, h3⟩, ?_⟩
  intro n hn
  obtain ⟨st'', h5, h6⟩ := h4 n hn
  exact ⟨st'', h5, P, T0, rest, L0, mrest, bad, rfl, hs, hbad, h6⟩

end Verif.Repo
