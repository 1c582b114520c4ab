import Verif.Proof.RepoRestore
/- Removal of a file from all backups (C52). -/
namespace Verif.Repo
open Verif.Collate Verif.FillIn Verif.TreeReducer Verif.MetaChain Verif.JoinSpec
set_option linter.unusedSectionVars false
variable {α A C S H Δ L : Type} [LinearOrder α] [DecidableEq A] [DecidableEq S] [DecidableEq H] [DecidableEq L]
variable {o : Ops A C H Δ L} {rsv : α → Prop} {st : State α A C S H Δ} {P : Prot α A C S H Δ} {T0 : Files α (Node A C S)}
  {rest : Hist α A C S} {L0 : List (Rec (List α) (MRec A S H))} {mrest : MHist α A S H}

theorem get_without (p i : List α) (T : Files α (Node A C S)) : get (without p T) i = if p <+: i then none else get T i := by
  unfold without
  have := get_filter T (fun k => !(p.isPrefixOf k)) i
  rw [this]
  by_cases h : p <+: i <;> simp [h, List.isPrefixOf_iff_prefix]

theorem IsTree.without {T : Files α (Node A C S)} (h : IsTree rsv T) {p : List α} (hp : p ≠ []) : IsTree rsv (without p T) := by
  unfold Repo.without
  refine ⟨h.ordered.filter _, ?_, ?_, fun x hx => h.names x (List.mem_of_mem_filter hx)⟩
  · obtain ⟨a, ha⟩ := h.root
    refine ⟨a, List.mem_filter.mpr ⟨ha, ?_⟩⟩
    cases p with
    | nil => exact absurd rfl hp
    | cons x p => rfl
  · intro x hx hne
    obtain ⟨h1, h2⟩ := List.mem_filter.mp hx
    obtain ⟨a, ha⟩ := h.parent x h1 hne
    refine ⟨a, List.mem_filter.mpr ⟨ha, ?_⟩⟩
    simp only [Bool.not_eq_true', Bool.eq_false_iff, ne_eq, List.isPrefixOf_iff_prefix] at h2 ⊢
    exact fun h => h2 (h.trans (List.dropLast_prefix _))

theorem recAt_without (p i : List α) (l : List (Rec (List α) (MRec A S H))) :
    recAt (l.filter fun r => !(p.isPrefixOf r.idx)) i = if p <+: i then none else recAt l i := by
  unfold recAt
  rw [List.find?_filter]
  by_cases h : p <+: i
  · rw [if_pos h, List.find?_eq_none.mpr]
    · rfl
    · intro r _
      by_cases hr : r.idx = i
      · subst hr; simp [h, List.isPrefixOf_iff_prefix]
      · simp [hr]
  · rw [if_neg h]
    congr 2
    funext r
    by_cases hr : r.idx = i
    · subst hr
      have h2 : p.isPrefixOf r.idx = false := by rw [Bool.eq_false_iff, ne_eq, List.isPrefixOf_iff_prefix]; exact h
      simp [h2]
    · simp [hr]

theorem Describes.without {T : Files α (Node A C S)} {l : List (Rec (List α) (MRec A S H))} (h : Describes o T l) (p : List α) :
    Describes o (without p T) (l.filter fun r => !(p.isPrefixOf r.idx)) := by
  refine ⟨h.listing.filter (fun i => !(p.isPrefixOf i)), fun i => ?_⟩
  rw [get_without, recAt_without]
  by_cases hp : p <+: i
  · simp [hp, Desc]
  · simp only [hp, if_false]; exact h.desc i

/-- the metadata files -/
theorem removeRecs_metas (st : State α A C S H Δ) (p : List α) :
    (removeRecs st p).metas = st.metas.map (dropRecs p) := by
  simp only [removeRecs]
  apply List.map_congr_left
  intro f _
  by_cases h : dropsRecs p f = true
  · simp [h]
  · simp only [h, Bool.false_eq_true, if_false]
    simp only [dropsRecs, List.any_eq_true, not_exists, not_and, Bool.not_eq_true] at h
    simp only [dropRecs]
    rw [List.filter_eq_self.mpr]
    intro r hr; simp [h r hr]

/-- the increments directories below a path are there only if the path's own is -/
theorem incdir_below (h : FsWF st) {p d : List α} (hd : d ∈ st.incdirs) (hp : p <+: d) : p ∈ st.incdirs := by
  obtain ⟨t, rfl⟩ := hp
  induction t using List.reverseRecOn with
  | nil => simpa using hd
  | append_singleton t x ih =>
    apply ih
    have := h.incclosed _ hd
    rwa [← List.append_assoc, List.dropLast_concat] at this

theorem removeIncs_incs (h : FsWF st) (p : List α) :
    (removeIncs st p).incs = st.incs.filter (fun f => !(p.isPrefixOf f.idx)) := by
  unfold removeIncs
  by_cases hp : p ∈ st.incdirs
  · simp only [hp, if_true]
    rw [List.filter_filter]
    apply List.filter_congr
    intro f _
    by_cases hf : p <+: f.idx
    · simp [List.isPrefixOf_iff_prefix.mpr hf]
    · have : f.idx ≠ p := by rintro rfl; exact hf List.prefix_rfl
      simp [this]
  · simp only [hp, if_false]
    apply List.filter_congr
    intro f hf
    by_cases hfp : f.idx = p
    · subst hfp; simp [List.isPrefixOf_iff_prefix]
    · have : ¬ p <+: f.idx := by
        intro hpre
        apply hp
        refine incdir_below h (h.incparent f hf) ?_
        obtain ⟨t, ht⟩ := hpre
        rcases List.eq_nil_or_concat t with rfl | ⟨t', x, rfl⟩
        · exact absurd (by simpa using ht.symm) hfp
        · rw [← ht, List.concat_eq_append, ← List.append_assoc, List.dropLast_concat]; exact List.prefix_append _ _
      have h2 : p.isPrefixOf f.idx = false := by
        rw [Bool.eq_false_iff, ne_eq, List.isPrefixOf_iff_prefix]; exact this
      simp [hfp, h2]

theorem removeIncs_dirs (h : FsWF st) (p : List α) :
    (removeIncs st p).incdirs = st.incdirs.filter (fun d => !(p.isPrefixOf d)) := by
  unfold removeIncs
  by_cases hp : p ∈ st.incdirs
  · simp only [hp, if_true]
  · simp only [hp, if_false]
    rw [List.filter_eq_self.mpr]
    intro d hd
    simp only [Bool.not_eq_true', Bool.eq_false_iff, ne_eq, List.isPrefixOf_iff_prefix]
    exact fun hpre => hp (incdir_below h hd hpre)

theorem removeMirror_get (stamp : A) (hcl : Closed st.mirror) (p j : List α) :
    get (removeMirror stamp st p).mirror j = if p <+: j then none else
      if j = p.dropLast ∧ (get st.mirror p).isSome ∧ isDirAt st.mirror p.dropLast = true then some (.dir stamp) else get st.mirror j := by
  unfold removeMirror
  by_cases h : (get st.mirror p).isSome = true
  · simp only [h, if_true]
    rw [get_delTree, get_touch]
    simp
  · simp only [h, Bool.false_eq_true, if_false, false_and, and_false]
    by_cases hp : p <+: j
    · rw [if_pos hp]
      by_cases hj : j = p
      · subst hj; simpa using h
      · refine hcl.none_below ?_ j hp hj
        simp only [isDirAt]
        have : get st.mirror p = none := by simpa using h
        rw [this]
    · rw [if_neg hp]

theorem removeFile_mirror (stamp : A) (p : List α) :
    (removeFile stamp st p).mirror = (removeMirror stamp st p).mirror := by
  unfold removeFile removeIncs removeRecs removeMirror
  by_cases h1 : p ∈ st.incdirs <;> by_cases h2 : (get st.mirror p).isSome = true <;> simp [h1, h2]

theorem removeFile_incs (stamp : A) (h : FsWF st) (p : List α) :
    (removeFile stamp st p).incs = st.incs.filter (fun f => !(p.isPrefixOf f.idx)) := by
  have h' : FsWF (removeRecs st p) := ⟨h.closed, h.root, h.incroot, h.incclosed, h.incparent⟩
  have := removeIncs_incs h' p
  have h2 : ∀ s : State α A C S H Δ, (removeMirror stamp s p).incs = s.incs := by
    intro s; unfold removeMirror; split <;> rfl
  unfold removeFile
  rw [h2, this]; rfl

theorem removeFile_incdirs (stamp : A) (h : FsWF st) (p : List α) :
    (removeFile stamp st p).incdirs = st.incdirs.filter (fun d => !(p.isPrefixOf d)) := by
  have h' : FsWF (removeRecs st p) := ⟨h.closed, h.root, h.incroot, h.incclosed, h.incparent⟩
  have := removeIncs_dirs h' p
  have h2 : ∀ s : State α A C S H Δ, (removeMirror stamp s p).incdirs = s.incdirs := by
    intro s; unfold removeMirror; split <;> rfl
  unfold removeFile
  rw [h2, this]; rfl

theorem removeFile_metas (stamp : A) (p : List α) :
    (removeFile stamp st p).metas = st.metas.map (dropRecs p) := by
  rw [← removeRecs_metas]
  have h2 : ∀ s : State α A C S H Δ, (removeMirror stamp s p).metas = s.metas := by
    intro s; unfold removeMirror; split <;> rfl
  have h3 : ∀ s : State α A C S H Δ, (removeIncs s p).metas = s.metas := by
    intro s; unfold removeIncs; simp only; split <;> rfl
  unfold removeFile
  rw [h2, h3]

theorem removeFile_marks (stamp : A) (p : List α) : (removeFile stamp st p).marks = st.marks := by
  have h2 : ∀ s : State α A C S H Δ, (removeMirror stamp s p).marks = s.marks := by
    intro s; unfold removeMirror; split <;> rfl
  have h3 : ∀ s : State α A C S H Δ, (removeIncs s p).marks = s.marks := by
    intro s; unfold removeIncs; simp only; split <;> rfl
  unfold removeFile
  rw [h2, h3]; rfl

theorem isPrefixOf_false {p i : List α} : p.isPrefixOf i = false ↔ ¬ p <+: i := by
  rw [Bool.eq_false_iff, ne_eq, List.isPrefixOf_iff_prefix]

theorem fsWF_removeFile (stamp : A) (h : FsWF st) {p : List α} (hp : p ≠ []) : FsWF (removeFile stamp st p) := by
  have hnil : ¬ p <+: ([] : List α) := by simpa using hp
  have hdir : ∀ j, isDirAt (removeFile stamp st p).mirror j = if p <+: j then false else isDirAt st.mirror j := by
    intro j
    by_cases hj : p <+: j
    · simp only [isDirAt, removeFile_mirror, removeMirror_get stamp h.closed, hj, if_true]
    · simp only [hj, if_false]
      by_cases he : j = p.dropLast ∧ (get st.mirror p).isSome ∧ isDirAt st.mirror p.dropLast = true
      · rw [Bool.eq_iff_iff]
        refine ⟨fun _ => he.1 ▸ he.2.2, fun _ => ?_⟩
        rw [isDirAt_iff]
        exact ⟨stamp, by rw [removeFile_mirror, removeMirror_get stamp h.closed, if_neg hj, if_pos he]⟩
      · apply isDirAt_of_get
        rw [removeFile_mirror, removeMirror_get stamp h.closed, if_neg hj, if_neg he]
  refine ⟨?_, ?_, ?_, ?_, ?_⟩
  · intro i hi hs
    have hni : ¬ p <+: i := by
      intro hpi
      rw [removeFile_mirror, removeMirror_get stamp h.closed, if_pos hpi] at hs
      simp at hs
    rw [hdir, if_neg fun hd => hni (hd.trans (List.dropLast_prefix _))]
    refine h.closed i hi ?_
    rw [removeFile_mirror, removeMirror_get stamp h.closed, if_neg hni] at hs
    split at hs
    · next he => obtain ⟨rfl, -, hd⟩ := he; obtain ⟨a, ha⟩ := (isDirAt_iff _ _).mp hd; simp [ha]
    · exact hs
  · rw [hdir, if_neg hnil]; exact h.root
  · rw [removeFile_incdirs stamp h, List.mem_filter]
    exact ⟨h.incroot, by simpa using isPrefixOf_false.mpr hnil⟩
  · intro i hi
    rw [removeFile_incdirs stamp h, List.mem_filter] at hi ⊢
    refine ⟨h.incclosed i hi.1, ?_⟩
    have := hi.2
    simp only [Bool.not_eq_true', isPrefixOf_false] at this ⊢
    exact fun hd => this (hd.trans (List.dropLast_prefix _))
  · intro f hf
    rw [removeFile_incs stamp h, List.mem_filter] at hf
    rw [removeFile_incdirs stamp h, List.mem_filter]
    refine ⟨h.incparent f hf.1, ?_⟩
    have := hf.2
    simp only [Bool.not_eq_true', isPrefixOf_false] at this ⊢
    exact fun hd => this (hd.trans (List.dropLast_prefix _))

theorem incsAt_removeFile (stamp : A) (h : FsWF st) (p i : List α) :
    incsAt (removeFile stamp st p) i = if p <+: i then [] else incsAt st i := by
  unfold incsAt
  rw [removeFile_incs stamp h, List.filter_filter]
  by_cases hp : p <+: i
  · rw [if_pos hp, List.filter_eq_nil_iff]
    intro f _ hf
    simp only [Bool.and_eq_true, decide_eq_true_eq, Bool.not_eq_true', isPrefixOf_false] at hf
    exact hf.2 (hf.1 ▸ hp)
  · rw [if_neg hp]
    apply List.filter_congr
    intro f _
    by_cases hf : f.idx = i
    · subst hf; simp [isPrefixOf_false.mpr hp]
    · simp [hf]

theorem removeFile_clean (stamp : A) (hs : Static o rsv P T0 rest L0 mrest) (hc : Clean o P T0 L0 mrest st) {p : List α} (hp : p ≠ []) :
    ∃ P' : Prot α A C S H Δ, P'.t0 = P.t0 ∧
      Static o rsv P' (without p T0) (rest.map fun x => (x.1, without p x.2)) (L0.filter fun r => !(p.isPrefixOf r.idx))
        (mrest.map fun x => (x.1, x.2.filter fun r => !(p.isPrefixOf r.idx))) ∧
      Clean o P' (without p T0) (L0.filter fun r => !(p.isPrefixOf r.idx))
        (mrest.map fun x => (x.1, x.2.filter fun r => !(p.isPrefixOf r.idx))) (removeFile stamp st p) := by
  refine ⟨⟨P.t0, fun i => if p <+: i then none else P.old i, fun i => if p <+: i then none else P.hash i,
    fun i => if p <+: i then [] else P.incs0 i⟩, rfl, ?_, ?_⟩
  · constructor
    · intro i; simp only [get_without, hs.old i]
    · intro i
      simp only [recAt_without]
      by_cases h : p <+: i
      · simp [h, hashOf]
      · simp only [h, if_false]; exact hs.hash i
    · intro x hx
      rcases List.mem_cons.mp hx with rfl | hx
      · exact hs.tree0.without hp
      · obtain ⟨y, hy, rfl⟩ := List.mem_map.mp hx
        exact (hs.trees y (by simp [hy])).without hp
    · obtain ⟨h1, h2⟩ := List.forall₂_cons.mp hs.desc
      refine .cons ⟨rfl, h1.2.without p⟩ ?_
      rw [List.forall₂_map_left_iff, List.forall₂_map_right_iff]
      exact h2.imp fun x y h => ⟨h.1, h.2.without p⟩
    · have := hs.times
      simpa [List.map_map, Function.comp_def] using this
    · intro i f hf
      by_cases h : p <+: i
      · simp [h] at hf
      · simp only [h, if_false] at hf
        obtain ⟨h1, h2, h3⟩ := hs.incs i f hf
        refine ⟨h1, h2, ?_⟩
        rw [List.map_map]; exact h3
    · intro x hx i a c hg
      obtain ⟨y, hy, rfl⟩ := List.mem_map.mp hx
      simp only [get_without] at hg ⊢
      by_cases h : p <+: i
      · simp [h] at hg
      · simp only [h, if_false] at hg ⊢
        exact hs.content y hy i a c hg
    · intro i
      by_cases h : p <+: i
      · simp [h]
      · simp only [h, if_false]; exact hs.sorted i
    · have gen : ∀ (hist : Hist α A C S), Chain o P.incs0 hist →
          Chain o (fun i => if p <+: i then [] else P.incs0 i) (hist.map fun x => (x.1, without p x.2)) := by
        intro hist
        induction hist with
        | nil => intro _; trivial
        | cons y hist ih =>
          intro hch
          cases hist with
          | nil => trivial
          | cons x hist =>
            refine ⟨fun i => ?_, ih hch.2⟩
            simp only [get_without]
            by_cases h : p <+: i
            · simp [h, Linked, incAt]
            · simp only [h, if_false]; exact hch.1 i
      exact gen ((P.t0, T0) :: rest) hs.chain
  · constructor
    · exact fsWF_removeFile stamp hc.wf hp
    · intro i
      rw [removeFile_mirror, removeMirror_get stamp hc.wf.closed, get_without]
      by_cases h : p <+: i
      · simp [h, LooseNode]
      · simp only [h, if_false]
        split
        · next he =>
          have := hc.mirror i
          obtain ⟨a, ha⟩ := (isDirAt_iff _ _).mp he.2.2
          rw [he.1, ha] at this
          rw [he.1]
          cases hg : get T0 p.dropLast with
          | none => rw [hg] at this; exact this.elim
          | some n => cases n <;> (rw [hg] at this; trivial)
        · exact hc.mirror i
    · intro i
      rw [incsAt_removeFile stamp hc.wf]
      by_cases h : p <+: i
      · simp [h]
      · simp only [h, if_false]; exact hc.incs i
    · rw [removeFile_metas]
      exact hc.metas.keep (fun i => !(p.isPrefixOf i))
    · rw [removeFile_marks]; exact hc.marks

end Verif.Repo
