import Verif.Proof.RepoSess
/- Restoring from a repository with a given history; removing old backups. -/
namespace Verif.Repo
open Verif.Collate Verif.FillIn Verif.TreeReducer Verif.MetaChain Verif.JoinSpec
set_option linter.unusedSectionVars false
variable {α A C S H Δ L : Type} [LinearOrder α] [DecidableEq A] [DecidableEq S] [DecidableEq H] [DecidableEq L]
variable {o : Ops A C H Δ L} {rsv : α → Prop} {P : Prot α A C S H Δ} {st : State α A C S H Δ}
  {T0 : Files α (Node A C S)} {rest : Hist α A C S} {L0 : List (Rec (List α) (MRec A S H))} {mrest : MHist α A S H}

theorem allSome_map {β γ : Type} {f : β → Option γ} {g : β → γ} {l : List β} (h : ∀ x ∈ l, f x = some (g x)) :
    allSome (l.map f) = some (l.map g) := by
  induction l with
  | nil => rfl
  | cons x l ih =>
    rw [List.map_cons, h x (by simp), allSome, ih (fun y hy => h y (by simp [hy]))]
    rfl

/-- a tree is determined by its listing and its contents -/
theorem Describes.tree {T : Files α (Node A C S)} {l} (h : Describes o T l) (hT : IsTree rsv T) :
    ∃ g : Rec (List α) (MRec A S H) → List α × Node A C S, T = l.map g ∧
      ∀ r ∈ l, (g r).1 = r.idx ∧ get T r.idx = some (g r).2 := by
  obtain ⟨a, ha⟩ := hT.root
  have hin : ∀ r ∈ l, ∃ n, get T r.idx = some n := by
    intro r hr
    obtain ⟨m, hm⟩ := Option.isSome_iff_exists.mp (h.listing.2 r hr)
    have h1 : recAt l r.idx = some m := (find_mem h.listing r.idx m).mpr (by rw [← hm]; exact hr)
    have := h.desc r.idx
    rw [h1] at this
    cases hg : get T r.idx with
    | none => rw [hg] at this; cases m <;> exact this.elim
    | some n => exact ⟨n, rfl⟩
  let g : Rec (List α) (MRec A S H) → List α × Node A C S := fun r => (r.idx, (get T r.idx).getD (.dir a))
  have hg : ∀ r ∈ l, (g r).1 = r.idx ∧ get T r.idx = some (g r).2 := by
    intro r hr
    obtain ⟨n, hn⟩ := hin r hr
    exact ⟨rfl, by simp [g, hn]⟩
  refine ⟨g, ?_, hg⟩
  refine ordered_ext (idx := Prod.fst) hT.ordered ?_ ?_
  · show List.Pairwise _ _
    rw [List.pairwise_map]
    exact h.listing.1
  · intro x
    constructor
    · intro hx
      have hx' := (hT.get_iff x.1 x.2).mpr hx
      have hd := h.desc x.1
      rw [hx'] at hd
      cases hr : recAt l x.1 with
      | none => rw [hr] at hd; revert hd; cases x.2 <;> exact False.elim
      | some m =>
        have := (find_mem h.listing x.1 m).mp hr
        refine List.mem_map.mpr ⟨_, this, ?_⟩
        simp [g, hx']
    · intro hx
      obtain ⟨r, hr, rfl⟩ := List.mem_map.mp hx
      exact (hT.get_iff _ _).mp (hg r hr).2

/-- restoring a given backup -/
theorem restore_at (hs : Static o rsv P T0 rest L0 mrest) (hc : Clean o P T0 L0 mrest st) {t : Nat} {T}
    (hm : (t, T) ∈ (P.t0, T0) :: rest) (sub : List α) :
    ∃ recs, metaAtTime st.metas t (fun i => sub.isPrefixOf i) = some recs ∧
      allSome (recs.map (restoreOne o st P.t0 t)) = some (T.filter (fun x => sub.isPrefixOf x.1)) := by
  obtain ⟨⟨t', l⟩, hl, he, hdes⟩ := forall₂_mem_left hs.desc _ hm
  simp only at he hdes; subst he
  have hT := hs.trees _ hm
  refine ⟨_, hc.metas.read hl _, ?_⟩
  obtain ⟨g, hg1, hg2⟩ := hdes.tree hT
  have hloc : ∀ r ∈ l, restoreOne o st P.t0 t r = some (g r) := by
    intro r hr
    obtain ⟨m, hm'⟩ := Option.isSome_iff_exists.mp (hdes.listing.2 r hr)
    have hrec : recAt l r.idx = some m := (find_mem hdes.listing r.idx m).mpr (by rw [← hm']; exact hr)
    have hd := hdes.desc r.idx
    obtain ⟨hg3, hg4⟩ := hg2 r hr
    rw [hrec, hg4] at hd
    have hge : g r = (r.idx, (g r).2) := by rw [← hg3]
    rw [hge]
    unfold restoreOne
    rw [hm']
    generalize (g r).2 = n at hd hg4
    cases m with
    | dir a => cases n <;> first | exact hd.elim | (cases hd; rfl)
    | other a s => cases n <;> first | exact hd.elim | (obtain ⟨rfl, rfl⟩ := hd; rfl)
    | reg a sz h =>
      cases n with
      | reg a' x =>
        obtain ⟨rfl, h2, h3⟩ := hd
        simp only
        have hlt : ∀ f ∈ incsAt st r.idx, f.time < P.t0 := by
          intro f hf; rw [hc.incs] at hf; exact (hs.incs _ f hf).2.1
        have : restoreContent o st P.t0 t r.idx = some x := by
          unfold restoreContent
          rw [show st.incs.filter (fun f => decide (f.idx = r.idx)) = incsAt st r.idx from rfl, restoreFp_eq hlt]
          refine resolve_congr (m := get T0 r.idx) (hc.mirror r.idx).content _ ?_
          rcases List.mem_cons.mp hm with hm | hm
          · cases hm
            rw [newerIncs_nil hlt]
            rw [hg4]; rfl
          · rw [hc.incs]
            exact hs.content _ hm _ _ _ hg4
        rw [this]; rfl
      | _ => exact hd.elim
  rw [allSome_map (g := g)]
  · rw [hg1]
    rw [List.filter_map]
    congr 2
    apply List.filter_congr
    intro r hr
    rw [Function.comp, (hg2 r hr).1]
  · intro r hr; exact hloc r (List.mem_of_mem_filter hr)

theorem setRestoreTime_eq {hist : Hist α A C S} {ts : List Nat} (hmem : ∀ x, x ∈ ts ↔ x ∈ hist.map Prod.fst)
    (hd : (hist.map Prod.fst).Pairwise (· > ·)) (t : Nat) :
    setRestoreTime ts t = (chosen hist t).map Prod.fst := by
  unfold setRestoreTime chosen
  cases hf : hist.find? (fun x => decide (x.1 ≤ t)) with
  | some x =>
    have : (ts.filter (· ≤ t)).max? = some x.1 := by
      rw [List.max?_eq_some_iff]
      obtain ⟨h1, as, bs, h2, h3⟩ := List.find?_eq_some_iff_append.mp hf
      constructor
      · rw [List.mem_filter]
        exact ⟨(hmem _).mpr (by rw [h2]; simp), h1⟩
      · intro b hb
        obtain ⟨hb1, hb2⟩ := List.mem_filter.mp hb
        have hb1 := (hmem b).mp hb1
        rw [h2, List.map_append, List.map_cons] at hb1 hd
        rcases List.mem_append.mp hb1 with hb1 | hb1
        · obtain ⟨y, hy, rfl⟩ := List.mem_map.mp hb1
          have := h3 y hy
          simp at this hb2; omega
        · rcases List.mem_cons.mp hb1 with rfl | hb1
          · exact le_refl _
          · have := (List.pairwise_cons.mp (List.pairwise_append.mp hd).2.1).1 b hb1
            omega
    rw [this]; rfl
  | none =>
    have hnone := List.find?_eq_none.mp hf
    have : (ts.filter (· ≤ t)).max? = none := by
      rw [List.max?_eq_none_iff, List.filter_eq_nil_iff]
      intro b hb
      obtain ⟨y, hy, rfl⟩ := List.mem_map.mp ((hmem b).mp hb)
      exact hnone y hy
    rw [this]
    simp only
    cases hl : hist.getLast? with
    | none =>
      rw [List.getLast?_eq_none_iff] at hl
      subst hl
      have : ts = [] := by
        apply List.eq_nil_iff_forall_not_mem.mpr
        intro x hx; simpa using (hmem x).mp hx
      rw [this]; rfl
    | some x =>
      obtain ⟨ys, hys⟩ := List.getLast?_eq_some_iff.mp hl
      simp only [Option.map_some]
      rw [List.min?_eq_some_iff]
      refine ⟨(hmem _).mpr (by rw [hys]; simp), ?_⟩
      intro b hb
      have hb := (hmem b).mp hb
      rw [hys, List.map_append] at hb hd
      rcases List.mem_append.mp hb with hb | hb
      · have := (List.pairwise_append.mp hd).2.2 b hb x.1 (by simp)
        omega
      · simp at hb; rw [hb]

theorem incrementTimes_mem (hs : Static o rsv P T0 rest L0 mrest) (hc : Clean o P T0 L0 mrest st) (x : Nat) :
    x ∈ incrementTimes st P.t0 ↔ x ∈ ((P.t0, T0) :: rest).map Prod.fst := by
  unfold incrementTimes
  constructor
  · intro hx
    rw [List.mem_append, List.mem_cons] at hx
    rcases hx with (rfl | hx) | hx
    · simp
    · obtain ⟨f, hf, rfl⟩ := List.mem_map.mp hx
      have : f ∈ incsAt st [] := hf
      rw [hc.incs] at this
      have := (hs.incs _ f this).2.2
      simp only [List.map_cons, List.mem_cons]; exact .inr this
    · obtain ⟨f, hf, rfl⟩ := List.mem_map.mp hx
      rw [← hs.mtimes]
      exact inv_times hc.metas f hf
  · intro hx
    rw [List.mem_append]
    right
    rw [← hs.mtimes] at hx
    obtain ⟨⟨c, hp, hr, -⟩, -, -⟩ := hc.metas
    rw [← hr.times] at hx
    exact ((hp.map _).mem_iff).mpr hx

theorem chosen_mem {hist : Hist α A C S} {t x} (h : chosen hist t = some x) : x ∈ hist := by
  unfold chosen at h
  split at h
  · next y hy => cases h; exact List.mem_of_find?_eq_some hy
  · exact List.mem_of_getLast? h

theorem chosen_isSome {hist : Hist α A C S} (h : hist ≠ []) (t : Nat) : ∃ x, chosen hist t = some x := by
  unfold chosen
  split
  · exact ⟨_, rfl⟩
  · exact Option.isSome_iff_exists.mp (by simpa using h)

theorem chosen_exact {hist : Hist α A C S} (hd : (hist.map Prod.fst).Pairwise (· > ·)) {t T}
    (h : (t, T) ∈ hist) : chosen hist t = some (t, T) := by
  have : hist.find? (fun x => decide (x.1 ≤ t)) = some (t, T) := by
    rw [List.find?_eq_some_iff_append]
    obtain ⟨as, bs, rfl⟩ := List.append_of_mem h
    refine ⟨by simp, as, bs, rfl, ?_⟩
    intro a ha
    rw [List.map_append] at hd
    have := (List.pairwise_append.mp hd).2.2 a.1 (List.mem_map.mpr ⟨a, ha, rfl⟩) t (by simp)
    simp; omega
  unfold chosen; rw [this]

theorem restore_clean (hs : Static o rsv P T0 rest L0 mrest) (hc : Clean o P T0 L0 mrest st) (t : Nat)
    (sub : List α) : ∃ x, chosen ((P.t0, T0) :: rest) t = some x ∧
      restore o st t sub = some (x.2.filter (fun y => sub.isPrefixOf y.1)) := by
  obtain ⟨x, hx⟩ := chosen_isSome (hist := (P.t0, T0) :: rest) (by simp) t
  refine ⟨x, hx, ?_⟩
  obtain ⟨recs, h1, h2⟩ := restore_at hs hc (t := x.1) (T := x.2) (chosen_mem hx) sub
  unfold restore
  have hmt : mirrorTime st = some (some P.t0) := by simp [mirrorTime, hc.marks]
  rw [hmt]
  simp only
  rw [setRestoreTime_eq (incrementTimes_mem hs hc) hs.times, hx]
  simp only [Option.map_some]
  rw [h1]
  simpa using h2

/-! ### Removal -/

theorem forall₂_filter {β γ : Type} {R : β → γ → Prop} {p : β → Bool} {q : γ → Bool} {l : List β} {l' : List γ}
    (h : List.Forall₂ R l l') (hpq : ∀ x y, R x y → p x = q y) :
    List.Forall₂ R (l.filter p) (l'.filter q) := by
  induction h with
  | nil => exact .nil
  | @cons x y l l' hxy _ ih =>
    rw [List.filter_cons, List.filter_cons, ← hpq x y hxy]
    split
    · exact .cons hxy ih
    · exact ih

theorem removal_bound {older : Nat} {force : Bool} {t : Nat} (h : removalTime st older force = .before t) :
    t ≤ older ∧ ∃ f ∈ st.incs, f.idx = [] ∧ t = f.time + 1 := by
  unfold removalTime at h
  split at h
  · cases h
  · next m hm =>
    split at h
    · cases h
    · cases h
      have := (List.max?_eq_some_iff.mp hm).1
      unfold removalTimes at this
      obtain ⟨h1, h2⟩ := List.mem_filter.mp this
      obtain ⟨f, hf, rfl⟩ := List.mem_map.mp h1
      obtain ⟨h3, h4⟩ := List.mem_filter.mp hf
      exact ⟨by simp at h2; omega, f, h3, by simpa using h4, rfl⟩

theorem incsAt_removeBefore (t : Nat) (i : List α) :
    incsAt (removeBefore st t) i = (incsAt st i).filter (fun f => decide (t ≤ f.time)) := by
  simp only [incsAt, removeBefore, List.filter_filter]
  apply List.filter_congr
  intro f _
  exact Bool.and_comm _ _

theorem fsWF_removeBefore (h : FsWF st) (t : Nat) : FsWF (removeBefore st t) := by
  refine ⟨h.closed, h.root, ?_, ?_, ?_⟩
  · simp only [removeBefore, List.mem_filter]
    exact ⟨h.incroot, by simp⟩
  · intro i hi
    simp only [removeBefore, List.mem_filter] at hi ⊢
    refine ⟨h.incclosed i hi.1, ?_⟩
    simp only [decide_eq_true_eq] at hi ⊢
    rcases hi.2 with rfl | ⟨f, hf, h1, h2⟩
    · left; rfl
    · right; exact ⟨f, hf, h1, (List.dropLast_prefix i).trans h2⟩
  · intro f hf
    simp only [removeBefore, List.mem_filter] at hf ⊢
    refine ⟨h.incparent f hf.1, ?_⟩
    simp only [decide_eq_true_eq] at hf ⊢
    by_cases he : f.idx = []
    · left; rw [he]; rfl
    · right; exact ⟨f, List.mem_filter.mpr ⟨hf.1, by simpa using hf.2⟩, he, List.prefix_refl _⟩

/-- removal keeps what is not older -/
theorem remove_clean (hs : Static o rsv P T0 rest L0 mrest) (hc : Clean o P T0 L0 mrest st) {t : Nat}
    (ht : t ≤ P.t0) :
    ∃ P' : Prot α A C S H Δ, P'.t0 = P.t0 ∧
      Static o rsv P' T0 (rest.filter (fun x => t ≤ x.1)) L0 (mrest.filter (fun x => t ≤ x.1)) ∧
      Clean o P' T0 L0 (mrest.filter (fun x => t ≤ x.1)) (removeBefore st t) := by
  refine ⟨⟨P.t0, P.old, P.hash, fun i => (P.incs0 i).filter (fun f => t ≤ f.time)⟩, rfl, ?_, ?_⟩
  · constructor
    · exact hs.old
    · exact hs.hash
    · intro x hx
      rcases List.mem_cons.mp hx with rfl | hx
      · exact hs.tree0
      · exact hs.trees x (by simp [List.mem_of_mem_filter hx])
    · obtain ⟨h1, h2⟩ := List.forall₂_cons.mp hs.desc
      exact .cons h1 (forall₂_filter h2 (fun x y h => by rw [h.1]))
    · refine List.Pairwise.sublist ?_ hs.times
      exact (List.Sublist.cons_cons _ List.filter_sublist).map _
    · intro i f hf
      obtain ⟨h1, h2⟩ := List.mem_filter.mp hf
      obtain ⟨h3, h4, h5⟩ := hs.incs i f h1
      refine ⟨h3, h4, ?_⟩
      obtain ⟨x, hx, he⟩ := List.mem_map.mp h5
      exact List.mem_map.mpr ⟨x, List.mem_filter.mpr ⟨hx, by rw [he]; exact h2⟩, he⟩
    · intro x hx i a c hg
      obtain ⟨h1, h2⟩ := List.mem_filter.mp hx
      rw [newerIncs_filter (by simpa using h2)]
      exact hs.content x h1 i a c hg
    · intro i; exact (hs.sorted i).sublist List.filter_sublist
    · have hk : ∀ i t', t ≤ t' → incAt ((P.incs0 i).filter (fun f => t ≤ f.time)) t' = incAt (P.incs0 i) t' := by
        intro i t' ht'
        simp only [incAt, List.find?_filter]
        congr 2
        funext f
        by_cases hf : f.time = t'
        · subst hf; simp [ht']
        · simp [hf]
      have gen : ∀ (rest : Hist α A C S) (y : Nat × Files α (Node A C S)), ((y :: rest).map Prod.fst).Pairwise (· > ·) → Chain o P.incs0 (y :: rest) →
          Chain o (fun i => (P.incs0 i).filter (fun f => t ≤ f.time)) (y :: rest.filter (fun x => t ≤ x.1)) := by
        intro rest
        induction rest with
        | nil => intro y _ _; trivial
        | cons x rest ih =>
          intro y hp hch
          by_cases hx : t ≤ x.1
          · rw [List.filter_cons, if_pos (by simpa using hx)]
            refine ⟨fun i => ?_, ih x (List.pairwise_cons.mp hp).2 hch.2⟩
            rw [hk i x.1 hx]; exact hch.1 i
          · have : (x :: rest).filter (fun x => t ≤ x.1) = [] := by
              rw [List.filter_eq_nil_iff]
              intro z hz
              have hzx : z.1 ≤ x.1 := by
                rcases List.mem_cons.mp hz with rfl | hz
                · exact le_refl _
                · exact le_of_lt ((List.pairwise_cons.mp (List.pairwise_cons.mp hp).2).1 z.1 (List.mem_map.mpr ⟨z, hz, rfl⟩))
              simp; omega
            rw [this]; trivial
      exact gen rest (P.t0, T0) hs.times hs.chain
  · constructor
    · exact fsWF_removeBefore hc.wf t
    · exact hc.mirror
    · intro i; rw [incsAt_removeBefore, hc.incs]
    · have := hc.metas.remove t
      rw [List.filter_cons, if_pos (by simpa using ht)] at this
      exact this
    · simp [removeBefore, hc.marks, ht]

end Verif.Repo
