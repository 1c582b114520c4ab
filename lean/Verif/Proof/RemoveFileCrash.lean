import Verif.Proof.RepoReach
import Verif.Spec.RemoveFile
/- Interrupted removal of a file from all backups (C52). -/
namespace Verif.Repo
open Verif.Collate Verif.FillIn Verif.TreeReducer Verif.MetaChain Verif.JoinSpec
set_option linter.unusedSectionVars false
variable {α A C S H Δ L : Type} [LinearOrder α] [DecidableEq A] [DecidableEq S] [DecidableEq H] [DecidableEq L]
variable {o : Ops A C H Δ L} {rsv : α → Prop} {st st' : State α A C S H Δ} {P : Prot α A C S H Δ} {T0 : Files α (Node A C S)}
  {rest : Hist α A C S} {L0 : List (Rec (List α) (MRec A S H))} {mrest : MHist α A S H} {hist : Hist α A C S}

theorem insertBy_map {β γ : Type} (g : β → γ) (le : β → β → Bool) (le' : γ → γ → Bool) (h : ∀ x y, le' (g x) (g y) = le x y) (x : β) (l : List β) :
    Sort.insertBy le' (g x) (l.map g) = (Sort.insertBy le x l).map g := by
  induction l with
  | nil => rfl
  | cons y l ih =>
    simp only [List.map_cons, Sort.insertBy, h]
    by_cases hx : le x y = true
    · simp [hx]
    · simp [hx, ih]

theorem sortBy_map {β γ : Type} (g : β → γ) (le : β → β → Bool) (le' : γ → γ → Bool) (h : ∀ x y, le' (g x) (g y) = le x y) (l : List β) :
    Sort.sortBy le' (l.map g) = (Sort.sortBy le l).map g := by
  induction l with
  | nil => rfl
  | cons x l ih => simp only [List.map_cons, Sort.sortBy, ih, insertBy_map g le le' h]

theorem backToSnapshot_map {K D : Type} (g : MFile K D → MFile K D) (hg : ∀ f, (g f).snap = f.snap) (l : List (MFile K D)) :
    backToSnapshot (l.map g) = (backToSnapshot l).map (List.map g) := by
  induction l with
  | nil => rfl
  | cons f l ih =>
    simp only [List.map_cons, backToSnapshot, ih, hg]
    cases backToSnapshot l with
    | some r => rfl
    | none => by_cases hf : f.snap = true <;> simp [hf]

/-- what is read for some paths depends on the records of those paths only -/
theorem metaAtTime_map {K D : Type} [LinearOrder K] [DecidableEq D] (g : MFile K D → MFile K D) (h1 : ∀ f, (g f).time = f.time)
    (h2 : ∀ f, (g f).snap = f.snap) (restrict : K → Bool)
    (h3 : ∀ f, (g f).recs.filter (fun r => restrict r.idx) = f.recs.filter fun r => restrict r.idx) (dir : Dir K D) (t : Nat) :
    metaAtTime (dir.map g) t restrict = metaAtTime dir t restrict := by
  have e1 : sortedInclist (dir.map g) t = (sortedInclist dir t).map (List.map g) := by
    unfold sortedInclist
    have : (dir.map g).map (·.time) = dir.map (·.time) := by rw [List.map_map]; apply List.map_congr_left; intro f _; exact h1 f
    rw [this]
    by_cases hn : (dir.map (·.time)).Nodup
    · simp only [hn, if_true, Option.map_some]
      rw [sortBy_map g (fun a b => decide (b.time ≤ a.time)) _ (by intro x y; simp only [h1]), List.filter_map]
      congr 2
      apply List.filter_congr
      intro f _
      simp [h1]
    · simp [hn]
  have e2 : relevantIncs (dir.map g) t = (relevantIncs dir t).map (List.map g) := by
    unfold relevantIncs
    rw [e1]
    cases sortedInclist dir t with
    | none => rfl
    | some l =>
      simp only [Option.map_some, List.getLast?_map]
      cases l.getLast? with
      | none => rfl
      | some f =>
        simp only [Option.map_some, h1]
        by_cases hf : f.time = t
        · simp only [hf, if_true]; exact backToSnapshot_map g h2 l
        · simp [hf]
  unfold metaAtTime
  rw [e2]
  cases relevantIncs dir t with
  | none => rfl
  | some fs =>
    simp only [Option.map_some]
    have : (fs.map g).map (fun f => f.recs.filter (fun r => restrict r.idx)) = fs.map fun f => f.recs.filter fun r => restrict r.idx := by
      rw [List.map_map]; apply List.map_congr_left; intro f _; exact h3 f
    rw [this]

theorem firstContent_same {a b : Option (Node A C S)} (h : SameOrDirs a b) :
    firstContent (Rel.mirror a : Rel A C S Δ) = firstContent (Rel.mirror b : Rel A C S Δ) := by
  rcases h with rfl | ⟨h1, h2⟩
  · rfl
  · cases a with
    | none => simp [isDirNode] at h1
    | some x =>
      cases b with
      | none => simp [isDirNode] at h2
      | some y => cases x <;> cases y <;> simp_all [isDirNode, Node.isDir, firstContent]

theorem restoreFp_same {a b : Option (Node A C S)} (h : SameOrDirs a b) (incs : List (IncFile α A C S Δ)) (t mt : Nat) :
    restoreFp o (setRelevantIncs incs a t mt) = restoreFp o (setRelevantIncs incs b t mt) := by
  have hf := firstContent_same (Δ := Δ) h
  simp only [setRelevantIncs]
  by_cases h1 : incs.isEmpty ∨ mt ≤ t
  · simp only [h1, if_true, restoreFp, hf]
  · simp only [h1, if_false]
    by_cases h2 : endsInDiff (takeRelevant ((newerIncs incs t).map (·.inc))) = true
    · simp only [h2, if_true, List.reverse_append, List.reverse_singleton, List.singleton_append, restoreFp, hf]
    · simp only [h2, Bool.false_eq_true, if_false]

/-- two repositories restore the same if they agree on what is read -/
theorem restore_other (hs : Static o rsv P T0 rest L0 mrest) (hc : Clean o P T0 L0 mrest st) (sub : List α)
    (hmarks : st'.marks = st.marks)
    (htimes : incrementTimes st' P.t0 = incrementTimes st P.t0)
    (hmeta : ∀ t, metaAtTime st'.metas t (fun i => sub.isPrefixOf i) = metaAtTime st.metas t (fun i => sub.isPrefixOf i))
    (hincs : ∀ x ∈ (P.t0, L0) :: mrest, ∀ r ∈ x.2, sub <+: r.idx → incsAt st' r.idx = incsAt st r.idx)
    (hmir : ∀ x ∈ (P.t0, L0) :: mrest, ∀ r ∈ x.2, sub <+: r.idx → SameOrDirs (get st'.mirror r.idx) (get st.mirror r.idx)) (t : Nat) :
    restore o st' t sub = restore o st t sub := by
  have hmt : mirrorTime st = some (some P.t0) := by simp [mirrorTime, hc.marks]
  have hmt' : mirrorTime st' = some (some P.t0) := by simp [mirrorTime, hmarks, hc.marks]
  unfold restore
  rw [hmt, hmt']
  simp only
  rw [htimes]
  cases hrt : setRestoreTime (incrementTimes st P.t0) t with
  | none => rfl
  | some rt =>
    simp only
    rw [hmeta]
    cases hm : metaAtTime st.metas rt (fun i => sub.isPrefixOf i) with
    | none => rfl
    | some recs =>
      simp only
      congr 1
      apply List.map_congr_left
      intro r hr
      have hrt' : rt ∈ ((P.t0, L0) :: mrest).map Prod.fst := by
        rw [setRestoreTime_eq (incrementTimes_mem hs hc) hs.times] at hrt
        cases hch : chosen ((P.t0, T0) :: rest) t with
        | none => rw [hch] at hrt; cases hrt
        | some x =>
          rw [hch] at hrt; cases hrt
          have := chosen_mem hch
          rw [hs.mtimes]
          exact List.mem_map.mpr ⟨_, this, rfl⟩
      obtain ⟨x, hx, rfl⟩ := List.mem_map.1 hrt'
      rw [hc.metas.read (t := x.1) (L := x.2) hx] at hm
      cases hm
      obtain ⟨h1, h2⟩ := List.mem_filter.1 hr
      rw [List.isPrefixOf_iff_prefix] at h2
      unfold restoreOne
      cases hd : r.data with
      | none => rfl
      | some m =>
        cases m with
        | dir a => rfl
        | other a s => rfl
        | reg a c d =>
          simp only
          unfold restoreContent
          have e1 := hincs x hx r h1 h2
          unfold incsAt at e1
          rw [e1, restoreFp_same (hmir x hx r h1 h2)]

theorem SameOrDirs.refl (a : Option (Node A C S)) : SameOrDirs a a := .inl rfl

theorem SameOrDirs.symm {a b : Option (Node A C S)} (h : SameOrDirs a b) : SameOrDirs b a := by
  rcases h with h | h
  · exact .inl h.symm
  · exact .inr ⟨h.2, h.1⟩

theorem SameOrDirs.trans {a b c : Option (Node A C S)} (h : SameOrDirs a b) (h' : SameOrDirs b c) : SameOrDirs a c := by
  rcases h with rfl | h
  · exact h'
  · rcases h' with rfl | h'
    · exact .inr h
    · exact .inr ⟨h.1, h'.2⟩

theorem isDirNode_iff (m : Files α (Node A C S)) (i : List α) : isDirNode (get m i) = isDirAt m i := by
  unfold isDirAt
  cases get m i with
  | none => rfl
  | some n => cases n <;> rfl

theorem PartlyWithout.wf {p : List α} (hp : p ≠ []) (h : PartlyWithout p st st') (hw : FsWF st) : FsWF st' := by
  have hnil : ¬ p <+: ([] : List α) := by simpa using hp
  obtain ⟨qd, hqd, hd⟩ := h.incdirs
  refine ⟨?_, ?_, ?_, h.parents.1, h.parents.2.1⟩
  · intro i hi hs
    rw [← isDirNode_iff]; exact h.parents.2.2 i hi hs
  · rcases (h.mirror []).1 hnil with e | e
    · rw [← isDirNode_iff, e, isDirNode_iff]; exact hw.root
    · rw [← isDirNode_iff]; exact e.1
  · rw [hd, List.mem_filter]; exact ⟨hw.incroot, hqd [] hnil⟩

theorem PartlyWithout.metas' {p : List α} (h : PartlyWithout p st st') (stamp stamp' : A) :
    (removeFile stamp st' p).metas = (removeFile stamp' st p).metas := by
  obtain ⟨q, hq⟩ := h.metas
  rw [removeFile_metas, removeFile_metas, hq, List.map_map]
  apply List.map_congr_left
  intro f _
  simp only [Function.comp, dropRecs]
  by_cases hf : q f = true
  · simp [hf]
  · simp [hf]

theorem PartlyWithout.incs' {p : List α} (hp : p ≠ []) (h : PartlyWithout p st st') (hw : FsWF st) (stamp stamp' : A) :
    (removeFile stamp st' p).incs = (removeFile stamp' st p).incs := by
  obtain ⟨q, hq, e⟩ := h.incs
  rw [removeFile_incs _ (h.wf hp hw), removeFile_incs _ hw, e, List.filter_filter]
  apply List.filter_congr
  intro f _
  by_cases hf : p <+: f.idx
  · simp [List.isPrefixOf_iff_prefix.mpr hf]
  · simp [hq f hf]

theorem PartlyWithout.mirror' {p : List α} (hp : p ≠ []) (h : PartlyWithout p st st') (hw : FsWF st) (stamp stamp' : A) (j : List α) :
    SameOrDirs (get (removeFile stamp st' p).mirror j) (get (removeFile stamp' st p).mirror j) := by
  have hw' := h.wf hp hw
  rw [removeFile_mirror, removeFile_mirror, removeMirror_get _ hw'.closed, removeMirror_get _ hw.closed]
  by_cases hj : p <+: j
  · simp only [hj, if_true]; exact .inl rfl
  · simp only [hj, if_false]
    have key : ∀ (s : State α A C S H Δ) (a : A), SameOrDirs
        (if j = p.dropLast ∧ (get s.mirror p).isSome ∧ isDirAt s.mirror p.dropLast = true then some (.dir a) else get s.mirror j) (get s.mirror j) := by
      intro s a
      by_cases hx : j = p.dropLast ∧ (get s.mirror p).isSome ∧ isDirAt s.mirror p.dropLast = true
      · rw [if_pos hx]
        refine .inr ⟨rfl, ?_⟩
        rw [isDirNode_iff, hx.1]; exact hx.2.2
      · rw [if_neg hx]; exact .inl rfl
    exact ((key st' stamp).trans ((h.mirror j).1 hj)).trans (key st stamp').symm

theorem sameFile_of_sameOrDirs {a b : Option (Node A C S)} (h : SameOrDirs a b) : SameFile o a b := by
  rcases h with rfl | ⟨h1, h2⟩
  · cases a with
    | none => trivial
    | some n => cases n <;> trivial
  · cases a with
    | none => simp [isDirNode] at h1
    | some x =>
      cases b with
      | none => simp [isDirNode] at h2
      | some y => cases x <;> cases y <;> simp_all [isDirNode, Node.isDir, SameFile]

theorem incTimes_of {s s' : State α A C S H Δ} (hi : incsAt s' [] = incsAt s []) (hm : s'.metas.map (·.time) = s.metas.map (·.time)) (t : Nat) :
    incrementTimes s' t = incrementTimes s t := by
  unfold incrementTimes
  unfold incsAt at hi
  rw [hi, hm]

/-- whatever is next to the path is not affected -/
theorem PartlyWithout.restore_outside {p : List α} (hr : Rep o rsv st hist) (hne : hist ≠ []) (hp : p ≠ []) (h : PartlyWithout p st st') {sub : List α}
    (h1 : ¬ sub <+: p) (h2 : ¬ p <+: sub) (t : Nat) : restore o st' t sub = restore o st t sub := by
  rcases hr with ⟨rfl, -⟩ | ⟨P, T0, rest, L0, mrest, rfl, hs, hc⟩
  · exact absurd rfl hne
  obtain ⟨q, hq⟩ := h.metas
  obtain ⟨qi, hqi, hi⟩ := h.incs
  have hat : ∀ i, ¬ p <+: i → incsAt st' i = incsAt st i := by
    intro i hpi
    unfold incsAt
    rw [hi, List.filter_filter]
    apply List.filter_congr
    intro f _
    by_cases hf : f.idx = i
    · subst hf; simp [hqi f hpi]
    · simp [hf]
  have hout : ∀ i : List α, sub <+: i → ¬ p <+: i := by
    intro i hsi hpi
    rcases List.prefix_or_prefix_of_prefix hsi hpi with h | h
    · exact h1 h
    · exact h2 h
  refine restore_other hs hc sub h.marks ?_ ?_ ?_ ?_ t
  · refine incTimes_of (hat [] (by simpa using hp)) ?_ _
    rw [hq, List.map_map]
    apply List.map_congr_left
    intro f _
    simp only [Function.comp]
    by_cases hf : q f = true <;> simp [hf]
  · intro t
    rw [hq]
    apply metaAtTime_map
    · intro f; by_cases hf : q f = true <;> simp [hf]
    · intro f; by_cases hf : q f = true <;> simp [hf]
    · intro f
      by_cases hf : q f = true
      · simp only [hf, if_true, List.filter_filter]
        apply List.filter_congr
        intro r _
        by_cases hsr : sub <+: r.idx
        · simp [isPrefixOf_false.mpr (hout _ hsr)]
        · simp [isPrefixOf_false.mpr hsr]
      · simp [hf]
  · intro x _ r _ hsr
    exact hat _ (hout _ hsr)
  · intro x _ r _ hsr
    exact (h.mirror _).1 (hout _ hsr)

/-- once the metadata is changed, everything is restored as after the complete removal -/
theorem PartlyWithout.restore_phase2 {p : List α} (hr : Rep o rsv st hist) (hne : hist ≠ []) (hp : p ≠ []) (h : PartlyWithout p st st')
    (hm : st'.metas = st.metas.map fun f => { f with recs := f.recs.filter fun r => !(p.isPrefixOf r.idx) }) (stamp : A) (t : Nat) (sub : List α) :
    restore o st' t sub = restore o (removeFile stamp st p) t sub := by
  rcases hr with ⟨rfl, -⟩ | ⟨P, T0, rest, L0, mrest, rfl, hs, hc⟩
  · exact absurd rfl hne
  obtain ⟨P', e, hs', hc'⟩ := removeFile_clean stamp hs hc hp
  obtain ⟨qi, hqi, hi⟩ := h.incs
  have hms : st'.metas = (removeFile stamp st p).metas := by rw [removeFile_metas, hm]; rfl
  have hat : ∀ i, ¬ p <+: i → incsAt st' i = incsAt (removeFile stamp st p) i := by
    intro i hpi
    rw [incsAt_removeFile stamp hc.wf, if_neg hpi]
    unfold incsAt
    rw [hi, List.filter_filter]
    apply List.filter_congr
    intro f _
    by_cases hf : f.idx = i
    · subst hf; simp [hqi f hpi]
    · simp [hf]
  have hrec : ∀ x ∈ (P'.t0, L0.filter fun r => !(p.isPrefixOf r.idx)) :: (mrest.map fun x => (x.1, x.2.filter fun r => !(p.isPrefixOf r.idx))),
      ∀ r ∈ x.2, ¬ p <+: r.idx := by
    intro x hx r hr
    have : (!(p.isPrefixOf r.idx)) = true := by
      rcases List.mem_cons.1 hx with rfl | hx
      · exact (List.mem_filter.1 hr).2
      · obtain ⟨y, -, rfl⟩ := List.mem_map.1 hx
        exact (List.mem_filter.1 hr).2
    rw [Bool.not_eq_true', isPrefixOf_false] at this
    exact this
  refine restore_other hs' hc' sub ?_ ?_ ?_ ?_ ?_ t
  · rw [removeFile_marks]; exact h.marks
  · exact incTimes_of (hat [] (by simpa using hp)) (by rw [hms]) _
  · intro t; rw [hms]
  · intro x hx r hr _
    exact hat _ (hrec x hx r hr)
  · intro x hx r hr _
    have hn := hrec x hx r hr
    refine ((h.mirror _).1 hn).trans ?_
    rw [removeFile_mirror, removeMirror_get _ hc.wf.closed, if_neg hn]
    by_cases hx : r.idx = p.dropLast ∧ (get st.mirror p).isSome ∧ isDirAt st.mirror p.dropLast = true
    · rw [if_pos hx]
      refine .inr ⟨?_, rfl⟩
      rw [isDirNode_iff, hx.1]; exact hx.2.2
    · rw [if_neg hx]; exact .inl rfl

/-- repeating the command does what the interrupted one should have done -/
theorem PartlyWithout.again {p : List α} (hr : Rep o rsv st hist) (hne : hist ≠ []) (hp : p ≠ []) (h : PartlyWithout p st st') (stamp stamp' : A) :
    SameRepo o (removeFile stamp st' p) (removeFile stamp' st p) := by
  rcases hr with ⟨rfl, -⟩ | ⟨P, T0, rest, L0, mrest, rfl, hs, hc⟩
  · exact absurd rfl hne
  obtain ⟨P', e, hs', hc'⟩ := removeFile_clean stamp' hs hc hp
  have hi := h.incs' hp hc.wf stamp stamp'
  have hm := h.metas' stamp stamp'
  refine ⟨?_, fun i => sameFile_of_sameOrDirs (h.mirror' hp hc.wf stamp stamp' i), fun i => by rw [hi], fun t sub => ?_⟩
  · rw [removeFile_marks, removeFile_marks]; exact h.marks
  · refine restore_other hs' hc' sub ?_ ?_ ?_ ?_ ?_ t
    · rw [removeFile_marks, removeFile_marks]; exact h.marks
    · exact incTimes_of (by unfold incsAt; rw [hi]) (by rw [hm]) _
    · intro t; rw [hm]
    · intro x _ r _ _; unfold incsAt; rw [hi]
    · intro x _ r _ _; exact h.mirror' hp hc.wf stamp stamp' _

/-- the complete removal is one of the states of an interrupted one -/
theorem removeFile_partly (hw : FsWF st) (stamp : A) {p : List α} (hp : p ≠ []) : PartlyWithout p st (removeFile stamp st p) := by
  have hw' := fsWF_removeFile stamp hw hp
  refine ⟨removeFile_marks _ _, ⟨fun _ => true, ?_⟩, ⟨fun f => !(p.isPrefixOf f.idx), ?_, removeFile_incs _ hw _⟩,
    ⟨fun d => !(p.isPrefixOf d), ?_, removeFile_incdirs _ hw _⟩, ?_, hw'.incclosed, hw'.incparent, ?_⟩
  · rw [removeFile_metas]; simp [dropRecs]
  · intro f hf; simp [isPrefixOf_false.mpr hf]
  · intro f hf; simp [isPrefixOf_false.mpr hf]
  · intro j
    rw [removeFile_mirror, removeMirror_get _ hw.closed]
    constructor
    · intro hj
      rw [if_neg hj]
      by_cases hx : j = p.dropLast ∧ (get st.mirror p).isSome ∧ isDirAt st.mirror p.dropLast = true
      · rw [if_pos hx]
        refine .inr ⟨rfl, ?_⟩
        rw [isDirNode_iff, hx.1]; exact hx.2.2
      · rw [if_neg hx]; exact .inl rfl
    · intro hj; left; rw [if_pos hj]
  · intro j hj hs
    rw [isDirNode_iff]; exact hw'.closed j hj hs

end Verif.Repo
