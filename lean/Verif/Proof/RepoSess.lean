import Verif.Proof.RepoRep
/- A whole session: what holds after it, and at every moment of it. -/
namespace Verif.Repo
open Verif.Collate Verif.FillIn Verif.TreeReducer Verif.MetaChain Verif.JoinSpec
set_option linter.unusedSectionVars false
variable {α A C S H Δ L : Type} [LinearOrder α] [DecidableEq A] [DecidableEq S] [DecidableEq H] [DecidableEq L]
variable {o : Ops A C H Δ L} {rsv : α → Prop}

theorem exec_append (stamp : A) (a b : List (Step α A C S H Δ)) (st : State α A C S H Δ) :
    exec stamp (a ++ b) st = (exec stamp a st).bind (exec stamp b) := by
  induction a generalizing st with
  | nil => rfl
  | cons s a ih =>
    simp only [List.cons_append, exec]
    cases apply stamp s st with
    | none => rfl
    | some st' => simp [ih]

/-- operations which have nothing to do with increments -/
def noInc : Step α A C S H Δ → Bool
  | .newInc _ => false
  | .fillInc _ => false
  | .delInc _ _ => false
  | _ => true

theorem apply_noInc {stamp : A} {s : Step α A C S H Δ} {st st' : State α A C S H Δ} (h : noInc s = true)
    (ha : apply stamp s st = some st') : st'.incs = st.incs := by
  cases s <;> simp only [noInc, Bool.false_eq_true] at h <;> simp only [apply] at ha <;>
    (try split at ha) <;> (try split at ha) <;> simp at ha <;> subst ha <;> rfl

theorem exec_noInc {stamp : A} {ss : List (Step α A C S H Δ)} {st st' : State α A C S H Δ}
    (h : ∀ s ∈ ss, noInc s = true) (ha : exec stamp ss st = some st') : st'.incs = st.incs := by
  induction ss generalizing st with
  | nil => simp [exec] at ha; rw [ha]
  | cons s ss ih =>
    simp only [exec] at ha
    cases hs : apply stamp s st with
    | none => rw [hs] at ha; cases ha
    | some st₁ =>
      rw [hs, Option.bind_some] at ha
      rw [ih (fun s hs => h s (by simp [hs])) ha, apply_noInc (h s (by simp)) hs]

theorem events_noInc {c : Ctx α A C S H Δ} (h : c.prev = none) (e : Event α) :
    ∀ s ∈ c.eventSteps o e, noInc s = true := by
  have hm : ∀ i d r, c.makeIncrement o i d r = [] := by
    intro i d r; unfold Ctx.makeIncrement; rw [h]
  have hw : ∀ i n, ∀ s ∈ c.writeTmp i n, noInc s = true := by
    intro i n s hs
    cases n with
    | none => cases hs
    | some n => simp [Ctx.writeTmp] at hs; rcases hs with rfl | rfl <;> rfl
  intro s hs
  cases e with
  | fast i =>
    simp only [Ctx.eventSteps, Ctx.fastSteps, hm] at hs
    split at hs
    · simp only [List.mem_append, List.mem_singleton] at hs
      rcases hs with hs | rfl
      · exact hw _ _ _ hs
      · rfl
    · simp only [List.mem_append, List.mem_cons, List.not_mem_nil, or_false] at hs
      rcases hs with hs | rfl | rfl
      · exact hw _ _ _ hs
      · rfl
      · rfl
    · simp only [List.append_nil, List.mem_append, List.mem_singleton] at hs
      rcases hs with hs | rfl
      · exact hw _ _ _ hs
      · rfl
    · split at hs
      · simp at hs; subst hs; rfl
      · cases hs
  | start i =>
    simp only [Ctx.eventSteps, Ctx.startSteps, hm, List.nil_append] at hs
    generalize (if c.isFiller o i = true then isDirNode (c.mirror i) else isDirNode (c.src i)) = b at hs
    split at hs
    · split at hs
      · cases hs
      · split at hs
        · simp at hs; rcases hs with rfl | rfl <;> rfl
        · simp at hs; subst hs; rfl
    · simp only [List.append_nil] at hs
      exact hw _ _ _ hs
  | finish i =>
    simp only [Ctx.eventSteps, Ctx.finishSteps] at hs
    split at hs
    · simp at hs; subst hs; rfl
    · simp at hs; rcases hs with rfl | rfl <;> rfl
    · simp at hs; subst hs; rfl

theorem convert_noInc {junk} {dir : Dir (List α) (MRec A S H)} {conv : List (Step α A C S H Δ)}
    (h : convertSteps junk dir = some conv) : ∀ s ∈ conv, noInc s = true := by
  unfold convertSteps at h
  split at h
  · cases h
  · cases h; simp
  · cases h; simp [noInc]

/-- the metadata files at any moment between the markers: the old ones and some to be deleted, or those
of a complete session -/
def Stage (bad : Nat) (mh : MHist α A S H) (metas : Dir (List α) (MRec A S H)) : Prop :=
  (∃ X M, metas.Perm (X ++ M) ∧ MetaChain.Inv M mh ∧
    ∀ f ∈ X, f.time = bad ∨ (f.snap = false ∧ ∃ x, mh.head? = some x ∧ f.time = x.1)) ∨
  ∃ t0 L0 mrest Lb fs, mh = (t0, L0) :: mrest ∧ MetaChain.Inv metas ((bad, Lb) :: mh) ∧
    metas.Perm (⟨t0, false, getDiffIter Lb L0⟩ :: ⟨bad, true, Lb⟩ :: fs) ∧
    MetaChain.Inv (⟨t0, true, L0⟩ :: fs) mh

/-- holds at every moment between the markers -/
structure WI (o : Ops A C H Δ L) (P : Prot α A C S H Δ) (K : List Nat) (bad : Nat) (mh : MHist α A S H)
    (st : State α A C S H Δ) : Prop where
  wf : FsWF st
  ri : ∀ j, RI o P j (get st.mirror j) (incsAt st j)
  stage : Stage bad mh st.metas
  marks : st.marks = K

variable {P : Prot α A C S H Δ} {K : List Nat} {mh : MHist α A S H} {st : State α A C S H Δ}

theorem WI.metas (h : WI o P K bad mh st) {m} (hs : Stage bad mh m) : WI o P K bad mh { st with metas := m } := by
  obtain ⟨h1, h2, h3, h4⟩ := h
  refine ⟨⟨h1.closed, h1.root, h1.incroot, h1.incclosed, h1.incparent⟩, ?_, hs, h4⟩
  intro j; exact h2 j

theorem BI.wi {M} (h : BI o P M K st) (hs : Stage bad mh M) : WI o P K bad mh st :=
  ⟨h.wf, h.ri, by rw [h.metas]; exact hs, h.marks⟩

theorem inv_times {M : Dir (List α) (MRec A S H)} (h : MetaChain.Inv M mh) : ∀ f ∈ M, f.time ∈ mh.map Prod.fst := by
  obtain ⟨⟨c, hp, hr, -⟩, -, -⟩ := h
  intro f hf
  rw [← hr.times]
  exact List.mem_map.mpr ⟨f, hp.mem_iff.mp hf, rfl⟩

/-- the newest listing is there as a snapshot -/
theorem inv_newest {M : Dir (List α) (MRec A S H)} {t0 L0 mrest} (h : MetaChain.Inv M ((t0, L0) :: mrest)) :
    ∃ fs, M.Perm (⟨t0, true, L0⟩ :: fs) ∧ MetaChain.Rel none (⟨t0, true, L0⟩ :: fs) ((t0, L0) :: mrest) ∧
      ∀ f ∈ fs, f.time < t0 := by
  obtain ⟨⟨c, hp, hr, -⟩, hd, -⟩ := h
  have htim := hr.times
  cases hr with
  | snap hr' =>
    refine ⟨_, hp, .snap hr', ?_⟩
    intro f hf
    have h1 := (List.pairwise_cons.mp hd).1
    have : f.time ∈ mrest.map Prod.fst := by
      rw [← hr'.times]; exact List.mem_map.mpr ⟨f, hf, rfl⟩
    exact h1 _ this

theorem putMeta_fresh {stamp : A} {f : MFile (List α) (MRec A S H)}
    (h : ∀ g ∈ st.metas, ¬ (g.time = f.time ∧ g.snap = f.snap)) :
    apply stamp (.putMeta f) st = some { st with metas := f :: st.metas } := by
  have : st.metas.filter (fun g => ¬ (g.time = f.time ∧ g.snap = f.snap)) = st.metas := by
    rw [List.filter_eq_self]; intro g hg; exact decide_eq_true (h g hg)
  simp only [apply, this]

theorem putMeta_replace {stamp : A} {f g : MFile (List α) (MRec A S H)} {M : Dir (List α) (MRec A S H)}
    (hm : st.metas = g :: M) (hg : g.time = f.time ∧ g.snap = f.snap)
    (h : ∀ g ∈ M, ¬ (g.time = f.time ∧ g.snap = f.snap)) :
    apply stamp (.putMeta f) st = some { st with metas := f :: M } := by
  have : st.metas.filter (fun g => ¬ (g.time = f.time ∧ g.snap = f.snap)) = M := by
    rw [hm, List.filter_cons, if_neg (by simpa using hg), List.filter_eq_self]
    intro g hg; exact decide_eq_true (h g hg)
  simp only [apply, this]

/-- the end of a session: the new listing, conversion of the old one to a diff -/
theorem meta_safe {stamp : A} {M : Dir (List α) (MRec A S H)} {now : Nat} {Ls junk}
    (hI : MetaChain.Inv M mh) (hnew : ∀ x ∈ mh, x.1 < now) (hL : IsListing Ls)
    (hw : WI o P K now mh st) (hm : st.metas = ⟨now, true, junk⟩ :: M) :
    ∃ conv dir', convertSteps junk (⟨now, true, Ls⟩ :: M) = some conv ∧ MetaChain.session M now Ls = some dir' ∧
      MetaChain.Inv dir' ((now, Ls) :: mh) ∧
      Safe stamp (WI o P K now mh) (.putMeta ⟨now, true, Ls⟩ :: conv) st
        (fun st' => st' = { st with metas := dir' }) := by
  obtain ⟨dir', hses, hI'⟩ := hI.session hnew hL
  have hses0 := hses
  obtain ⟨⟨c, hp, hr, hsh⟩, hd, hl⟩ := hI
  have hI : MetaChain.Inv M mh := ⟨⟨c, hp, hr, hsh⟩, hd, hl⟩
  have hMnow : ∀ g ∈ M, g.time < now := by
    intro g hg
    obtain ⟨x, hx, he⟩ := List.mem_map.mp (inv_times hI g hg)
    rw [← he]; exact hnew x hx
  have hstage1 : Stage now mh (⟨now, true, Ls⟩ :: M) :=
    .inl ⟨[⟨now, true, Ls⟩], M, .refl _, hI, by simp⟩
  have happ1 : apply stamp (.putMeta ⟨now, true, Ls⟩) st = some { st with metas := ⟨now, true, Ls⟩ :: M } :=
    putMeta_replace hm (by simp) (fun g hg => by have := hMnow g hg; simp only; omega)
  have hwi1 : WI o P K now mh { st with metas := ⟨now, true, Ls⟩ :: M } := hw.metas hstage1
  have hsorted : sortedInclist (⟨now, true, Ls⟩ :: M) 0 = some (⟨now, true, Ls⟩ :: c) := by
    rw [sortedInclist_eq (c := ⟨now, true, Ls⟩ :: c) (hp.cons _)]
    · simp
    · rw [List.map_cons, List.pairwise_cons, hr.times]
      refine ⟨?_, hd⟩
      intro t ht
      obtain ⟨x, hx, rfl⟩ := List.mem_map.mp ht
      exact hnew x hx
  cases hc : checkNeedsDiff (⟨now, true, Ls⟩ :: M) with
  | error => unfold MetaChain.session convertToDiff at hses; rw [hc] at hses; cases hses
  | no =>
    unfold MetaChain.session convertToDiff at hses; rw [hc] at hses
    cases hses
    refine ⟨[], _, by unfold convertSteps; rw [hc], hses0, hI', ?_⟩
    exact .cons hw happ1 ⟨hwi1, rfl⟩
  | yes new old =>
    have hc' := hc
    unfold checkNeedsDiff at hc'
    rw [hsorted] at hc'
    cases hr with
    | nil => simp at hc'
    | @snap _ t0 L0 fs mrest hr' =>
      simp only at hc'
      split at hc'
      · split at hc'
        · cases hc'
        · simp only [Check.yes.injEq] at hc'
          obtain ⟨rfl, rfl⟩ := hc'
          have htimes : ∀ f ∈ fs, f.time < t0 := by
            intro f hf
            have h1 := (List.pairwise_cons.mp hd).1
            have : f.time ∈ mrest.map Prod.fst := by
              rw [← hr'.times]; exact List.mem_map.mpr ⟨f, hf, rfl⟩
            exact h1 _ this
          have ht0 : t0 < now := hnew (t0, L0) (by simp)
          unfold MetaChain.session convertToDiff at hses
          rw [hc] at hses
          simp only [Option.some.injEq] at hses
          have hMdiff : ∀ g ∈ M, ¬ (g.time = t0 ∧ g.snap = false) := by
            rintro g hg ⟨h1, h2⟩
            rcases List.mem_cons.mp (hp.mem_iff.mp hg) with rfl | h
            · simp at h2
            · have := htimes g h; omega
          have hM1diff : ∀ g ∈ (⟨now, true, Ls⟩ :: M : Dir _ _), ¬ (g.time = t0 ∧ g.snap = false) := by
            rintro g hg
            rcases List.mem_cons.mp hg with rfl | h
            · simp
            · exact hMdiff g h
          have hst2 : ∀ rs, Stage now ((t0, L0) :: mrest) (⟨t0, false, rs⟩ :: ⟨now, true, Ls⟩ :: M) := by
            intro rs
            exact .inl ⟨[⟨t0, false, rs⟩, ⟨now, true, Ls⟩], M, .refl _, hI, by simp⟩
          have hdirp : dir'.Perm (⟨t0, false, getDiffIter Ls L0⟩ :: ⟨now, true, Ls⟩ :: fs) := by
            rw [← hses]
            refine .cons _ ?_
            rw [List.filter_cons, if_pos (by simp; omega)]
            refine .cons _ ?_
            have hfs : fs.filter (fun f => !(f.time == t0 && f.snap)) = fs := by
              rw [List.filter_eq_self]
              intro f hf; have := htimes f hf; simp; omega
            have := hp.filter (fun f => !(f.time == t0 && f.snap))
            rw [List.filter_cons, if_neg (by simp), hfs] at this
            exact this
          refine ⟨_, dir', by unfold convertSteps; rw [hc], hses0, hI', ?_⟩
          refine .cons hw happ1 ?_
          refine .cons hwi1 (putMeta_fresh (by exact hM1diff)) ?_
          have hwi2 := hwi1.metas (hst2 junk)
          refine .cons hwi2 (putMeta_replace (M := ⟨now, true, Ls⟩ :: M) rfl (by simp) (by exact hM1diff)) ?_
          have hwi3 := hwi1.metas (hst2 (getDiffIter Ls L0))
          have hdel : apply stamp (.delMeta t0 true) { st with metas := ⟨t0, false, getDiffIter Ls L0⟩ :: ⟨now, true, Ls⟩ :: M } =
              some { st with metas := dir' } := by
            rw [apply, ← hses]
            simp only [Option.some.injEq, State.mk.injEq, true_and, and_true]
            rw [List.filter_cons, if_pos (by simp)]
            congr 1
            apply List.filter_congr
            intro g _
            by_cases h1 : g.time = t0 <;> cases h2 : g.snap <;> simp [h1]
          refine .cons hwi3 hdel ⟨?_, rfl⟩
          refine hwi1.metas (m := dir') (.inr ⟨t0, L0, mrest, Ls, fs, rfl, hI', hdirp, ?_⟩)
          exact hI.relist hp
      · cases hc'

/-- the working part of a session -/
theorem work_safe {c : Ctx α A C S H Δ} {M : Dir (List α) (MRec A S H)} {stamp : A}
    (hc : CtxOK o c P) (hs : Sorted c) (hst : st.mirror = c.st.mirror ∧ st.incs = c.st.incs ∧
      st.incdirs = c.st.incdirs) (hM : c.st.metas = M) (hm : st.metas = M)
    (hw : WI o P K c.s.now mh st) (hI : MetaChain.Inv M mh) (hnew : ∀ x ∈ mh, x.1 < c.s.now) :
    ∃ evs conv dir', c.events o = some evs ∧
      convertSteps c.s.junkMeta (⟨c.s.now, true, c.listing o⟩ :: c.st.metas) = some conv ∧
      MetaChain.Inv dir' ((c.s.now, c.listing o) :: mh) ∧
      Safe stamp (WI o P K c.s.now mh) (.putMeta ⟨c.s.now, true, c.s.junkMeta⟩ ::
          (evs.flatMap (c.eventSteps o) ++ .putMeta ⟨c.s.now, true, c.listing o⟩ :: conv)) st
        (fun st' => Body o P c st' ∧ st'.metas = dir' ∧ st'.marks = K ∧ FsWF st') := by
  have hMnow : ∀ g ∈ M, g.time < c.s.now := by
    intro g hg
    obtain ⟨x, hx, he⟩ := List.mem_map.mp (inv_times hI g hg)
    rw [← he]; exact hnew x hx
  have hstage : Stage c.s.now mh (⟨c.s.now, true, c.s.junkMeta⟩ :: M) :=
    .inl ⟨[⟨c.s.now, true, c.s.junkMeta⟩], M, .refl _, hI, by simp⟩
  have hw1 : WI o P K c.s.now mh { st with metas := ⟨c.s.now, true, c.s.junkMeta⟩ :: M } := hw.metas hstage
  have happ : apply stamp (.putMeta ⟨c.s.now, true, c.s.junkMeta⟩) st =
      some { st with metas := ⟨c.s.now, true, c.s.junkMeta⟩ :: M } := by
    rw [← hm]
    refine putMeta_fresh ?_
    intro g hg; rw [hm] at hg; have := hMnow g hg; simp only; omega
  have hB : BI o P (⟨c.s.now, true, c.s.junkMeta⟩ :: M) K { st with metas := ⟨c.s.now, true, c.s.junkMeta⟩ :: M } :=
    ⟨hw1.wf, hw1.ri, rfl, hw1.marks⟩
  obtain ⟨evs, hev, hsafe⟩ := body_safe (stamp := stamp) hc hs (st := { st with metas := ⟨c.s.now, true, c.s.junkMeta⟩ :: M }) hst hB
  have hL := (listing_spec (o := o) hs).1
  -- the conversion depends on the metadata only
  obtain ⟨conv, dir', hconv, hses, hI', -⟩ := meta_safe (stamp := stamp) hI hnew hL hw1 rfl
  refine ⟨evs, conv, dir', hev, by rw [hM]; exact hconv, hI', .cons hw happ ?_⟩
  refine ((hsafe.weaken (fun st' hB' hb => And.intro hb hB')).imp (fun s h => h.wi hstage)).append ?_
  rintro st₁ hw₁ ⟨hb, hB₁⟩
  obtain ⟨conv', dir'', hconv', hses', -, hsafe'⟩ := meta_safe (stamp := stamp) hI hnew hL hw₁ hB₁.metas
  rw [hconv] at hconv'; cases hconv'
  rw [hses] at hses'; cases hses'
  refine hsafe'.weaken ?_
  rintro st₂ hw₂ rfl
  exact ⟨⟨hb.mirror, hb.rf, hb.root, hb.incs⟩, rfl, hw₂.marks, hw₂.wf⟩

/-! ### The two kinds of repositories -/

/-- a repository with an interrupted backup or regress -/
def CI (o : Ops A C H Δ L) (rsv : α → Prop) (st : State α A C S H Δ) (hist : Hist α A C S) : Prop :=
  ∃ P T0 rest L0 mrest bad, hist = (P.t0, T0) :: rest ∧ Static o rsv P T0 rest L0 mrest ∧ P.t0 < bad ∧
    WI o P [bad, P.t0] bad ((P.t0, L0) :: mrest) st

theorem Static.mtimes {T0 rest L0 mrest} (h : Static o rsv P T0 rest L0 mrest) :
    ((P.t0, L0) :: mrest).map Prod.fst = ((P.t0, T0) :: rest).map Prod.fst := by
  have h' := h.desc
  revert h'
  generalize (P.t0, T0) :: rest = x
  generalize (P.t0, L0) :: mrest = y
  intro h'
  induction h' with
  | nil => rfl
  | cons hxy _ ih => simp [hxy.1, ih]

theorem CtxOK.ri_self {c : Ctx α A C S H Δ} (h : CtxOK o c P) (j : List α) :
    RI o P j (c.mirror j) (incsAt c.st j) := by
  have := h.ri_mirror j none
  rw [← h.incs0]; exact this

theorem linked_loose {m n : Option (Node A C S)} {x : Option (Inc A C S Δ)} {old : Option (Node A C S)} (h : LooseNode o m n)
    (hl : Linked o m x old) : Linked o n x old := by
  obtain ⟨h0, h1, h2, h3⟩ := hl
  have h0' : (∀ y, x = some y → incType y = fileType old) ∧ (x = none → fileType n = fileType old) := ⟨h0.1, fun hx => h.fileType ▸ h0.2 hx⟩
  refine ⟨h0', ?_⟩
  cases m with
  | none => cases n with
    | none => exact ⟨h1, h2, h3⟩
    | some n => cases n <;> exact h.elim
  | some m =>
    cases n with
    | none => cases m <;> exact h.elim
    | some n =>
      cases m with
      | dir a => cases n with
        | dir b =>
          refine ⟨fun c hc => .inl rfl, fun c s hc => ?_, fun c v hc => ⟨fun _ _ he => (by cases he), ?_⟩⟩
          · rcases h2 c s hc with ⟨a', ha', -⟩ | h
            · cases ha'
            · exact .inr h
          · have := (h3 c v hc).2
            cases x with
            | none => simp [resolve1] at this
            | some x => cases x with
              | snap n => cases n <;> simpa [resolve1] using this
              | diff _ => simp [resolve1] at this
              | _ => simp [resolve1] at this
        | _ => exact h.elim
      | reg a v => cases n with
        | reg b w =>
          obtain ⟨e1, rfl⟩ := h
          refine ⟨fun c hc => .inr ((h1 c hc).resolve_left (by simp [isDirNode, Node.isDir])), fun c s hc => ?_, fun c u hc => ⟨?_, ?_⟩⟩
          · rcases h2 c s hc with ⟨a', ha', -⟩ | h
            · cases ha'
            · exact .inr h
          · intro a' c' he hsz hor
            cases he
            exact (h3 c u hc).1 a _ rfl hsz (by rw [e1]; exact hor)
          · have := (h3 c u hc).2
            cases x with
            | none => simpa [resolve1] using this
            | some x => cases x with
              | snap n => cases n <;> simpa [resolve1] using this
              | diff _ => simpa [resolve1] using this
              | _ => simp [resolve1] at this
        | _ => exact h.elim
      | other a v => cases n with
        | other b w =>
          obtain ⟨e1, rfl⟩ := h
          refine ⟨fun c hc => .inr ((h1 c hc).resolve_left (by simp [isDirNode, Node.isDir])), fun c s hc => ?_, fun c u hc => ⟨fun _ _ he => (by cases he), ?_⟩⟩
          · rcases h2 c s hc with ⟨a', ha', h⟩ | h
            · cases ha'
              exact .inl ⟨b, rfl, by rw [← e1]; exact h⟩
            · exact .inr h
          · have := (h3 c u hc).2
            cases x with
            | none => simp [resolve1] at this
            | some x => cases x with
              | snap n => cases n <;> simpa [resolve1] using this
              | diff _ => simp [resolve1] at this
              | _ => simp [resolve1] at this
        | _ => exact h.elim

theorem incOf_type {c : Ctx α A C S H Δ} {i : List α} {nr : Bool} {y : Inc A C S Δ} (h : c.incOf o i nr = some y) :
    incType y = fileType (c.mirror i) := by
  unfold Ctx.incOf at h
  cases hp : c.prev with
  | none => rw [hp] at h; cases h
  | some t =>
    rw [hp] at h
    cases hm : c.mirror i with
    | none => rw [hm] at h; cases h; rfl
    | some n =>
      rw [hm] at h
      cases n with
      | dir a => cases h; rfl
      | other a v => cases h; rfl
      | reg a v =>
        simp only at h
        cases nr with
        | false => cases h; rfl
        | true =>
          simp only [if_true] at h
          split at h
          · cases h; rfl
          · cases h

/-- the increment written for a path has the type of the old file; if there is none, the type of the file hasn't changed -/
theorem fin_types {c : Ctx α A C S H Δ} {i : List α} (hp : c.prev.isSome = true) :
    (∀ y, c.finInc o i = some y → incType y = fileType (c.mirror i)) ∧ (c.finInc o i = none → fileType (c.fin o i) = fileType (c.mirror i)) := by
  obtain ⟨t, hp⟩ := Option.isSome_iff_exists.mp hp
  have hnone : c.incOf o i false ≠ none := by
    unfold Ctx.incOf
    rw [hp]
    cases c.mirror i with
    | none => simp
    | some n => cases n <;> simp
  unfold Ctx.finInc Ctx.fin
  by_cases hf : c.isFast i = true
  · rw [if_pos hf, if_pos hf]
    cases hpat : c.patch o i with
    | failed => exact ⟨fun y h => by simp at h, fun _ => rfl⟩
    | unchanged tf =>
      refine ⟨fun y h => by simp at h, fun _ => ?_⟩
      cases c.mirror i with
      | none => rfl
      | some n => cases n <;> rfl
    | done tf =>
      cases tf with
      | none => exact ⟨fun y h => incOf_type h, fun h => absurd h hnone⟩
      | some tf =>
        refine ⟨fun y h => incOf_type h, fun h => ?_⟩
        simp only at h ⊢
        unfold Ctx.incOf at h
        rw [hp] at h
        cases hm : c.mirror i with
        | none => rw [hm] at h; cases h
        | some n =>
          rw [hm] at h
          cases n with
          | dir a => cases h
          | other a v => cases h
          | reg a v =>
            cases tf with
            | reg b w => rfl
            | dir b => simp [Node.isReg] at h
            | other b w => simp [Node.isReg] at h
  · rw [if_neg hf, if_neg hf]
    exact ⟨fun y h => incOf_type h, fun h => absurd h hnone⟩

/-- the history after a session -/
theorem static_next {T0 rest L0 mrest T} {st' : State α A C S H Δ} {s : Sess α A C S H Δ}
    (hs : Static o rsv P T0 rest L0 mrest) (hc : Clean o P T0 L0 mrest st)
    (hv : ValidSess o rsv ((P.t0, T0) :: rest) s) (hb : Body o P (nextCtx st s P L0) st')
    (hri : ∀ j, RI o P j (get st'.mirror j) (incsAt st' j)) (hr : Recorded T0 s T) :
    Static o rsv ⟨s.now, get T, fun i => hashOf (recAt ((nextCtx st s P L0).listing o) i), incsAt st'⟩ T
      ((P.t0, T0) :: rest) ((nextCtx st s P L0).listing o) ((P.t0, L0) :: mrest) := by
  have hbf := before_next hs hc hv
  have hincs : ∀ i, ∃ x, incsAt st' i = incFile P i x ++ P.incs0 i ∧
      ∀ a c, P.old i = some (.reg a c) → resolve1 o x (get st'.mirror i) = some c := hb.rf
  constructor
  · intro i; rfl
  · intro i; rfl
  · intro x hx
    rcases List.mem_cons.mp hx with rfl | hx
    · exact isTree_recorded hv.tree hr
    · exact hs.trees x hx
  · exact .cons ⟨rfl, hbf.describes hr⟩ hs.desc
  · rw [List.map_cons, List.pairwise_cons]
    refine ⟨?_, hs.times⟩
    intro t ht
    obtain ⟨x, hx, rfl⟩ := List.mem_map.mp ht
    exact hv.time x hx
  · intro i f hf
    have ht0 : P.t0 < s.now := hv.time (P.t0, T0) (by simp)
    obtain ⟨x, h1, -⟩ := hincs i
    have hf : f ∈ incsAt st' i := hf
    rw [h1] at hf
    rcases List.mem_append.mp hf with hf | hf
    · cases x with
      | none => cases hf
      | some y =>
        simp only [incFile, List.mem_singleton] at hf
        subst hf
        exact ⟨rfl, ht0, by simp⟩
    · obtain ⟨h2, h3, h4⟩ := hs.incs i f hf
      exact ⟨h2, by simp only; omega, by simp only [List.map_cons, List.mem_cons]; exact .inr h4⟩
  · intro y hy i a c hyc
    obtain ⟨x, h1, h2⟩ := hincs i
    have hlt : ∀ g ∈ P.incs0 i, g.time < P.t0 := fun g hg => (hs.incs i g hg).2.1
    have hloose : LooseNode o (get st'.mirror i) (get T i) := by
      rw [hb.mirror, hr.files]; exact hbf.result i
    have hyt : y.1 ≤ P.t0 := by
      rcases List.mem_cons.mp hy with rfl | hy
      · exact le_refl _
      · have := (List.pairwise_cons.mp hs.times).1 y.1 (List.mem_map.mpr ⟨y, hy, rfl⟩)
        simp only at this; omega
    refine resolve_congr (m := get st'.mirror i) hloose.content' _ ?_
    simp only [h1]
    rw [newerIncs_incFile hlt hyt]
    have hlast : ∀ a c, get T0 i = some (.reg a c) → resolve o x.toList (get st'.mirror i) = some c := by
      intro a c h
      rw [resolve1_eq]
      exact h2 a c (by rw [hs.old]; exact h)
    rcases List.mem_cons.mp hy with rfl | hy
    · have : newerIncs (P.incs0 i) P.t0 = [] := newerIncs_nil hlt
      simp only [this, List.map_nil, List.nil_append]
      exact hlast a c hyc
    · exact resolve_append hlast _ (hs.content y hy i a c hyc)
  · intro i
    obtain ⟨x, h1, -⟩ := hincs i
    show (incsAt st' i).Pairwise _
    rw [h1]
    refine List.pairwise_append.mpr ⟨?_, hs.sorted i, ?_⟩
    · cases x <;> simp [incFile]
    · intro f hf g hg
      cases x with
      | none => cases hf
      | some y =>
        simp only [incFile, List.mem_singleton] at hf
        subst hf
        exact (hs.incs i g hg).2.1
  · have hAt : ∀ i x, incsAt st' i = incFile P i x ++ P.incs0 i → incAt (incsAt st' i) P.t0 = x ∧
        ∀ t, t ≠ P.t0 → incAt (incsAt st' i) t = incAt (P.incs0 i) t := by
      intro i x h1
      rw [h1]
      cases x with
      | none =>
        refine ⟨?_, fun t _ => rfl⟩
        have : (P.incs0 i).find? (fun f => f.time = P.t0) = none := by
          rw [List.find?_eq_none]
          intro g hg hgt
          have := (hs.incs i g hg).2.1
          simp only [decide_eq_true_eq] at hgt; omega
        simp only [incFile, List.nil_append, incAt, this, Option.map_none]
      | some y =>
        refine ⟨by simp [incFile, incAt], fun t ht => ?_⟩
        have : ¬ P.t0 = t := fun e => ht e.symm
        simp [incFile, incAt, List.find?_cons, this]
    refine ⟨?_, hs.chain.congr ?_⟩
    · intro i
      obtain ⟨x, h1, h2⟩ := hincs i
      obtain ⟨x', g1, g2, g3, g4⟩ := hri i
      have hx : x' = x := by rw [← (hAt i x h1).1, ← (hAt i x' g1).1]
      subst hx
      have hloose : LooseNode o (get st'.mirror i) (get T i) := by
        rw [hb.mirror, hr.files]; exact hbf.result i
      show Linked o (get T i) (incAt (incsAt st' i) P.t0) (get T0 i)
      rw [(hAt i x' h1).1, ← hs.old i]
      have hm : fileType ((nextCtx st s P L0).mirror i) = fileType (P.old i) := by
        rw [hs.old]; exact (hc.mirror i).fileType
      have hx' : x' = if i ∈ (nextCtx st s P L0).touched o then (nextCtx st s P L0).finInc o i else none := by
        rw [← (hAt i _ (hb.incs i)).1, ← (hAt i x' h1).1]
      have hty : (∀ y, x' = some y → incType y = fileType (P.old i)) ∧ (x' = none → fileType (get st'.mirror i) = fileType (P.old i)) := by
        rw [hx', ← hm, hb.mirror i]
        unfold Ctx.result
        by_cases ht : i ∈ (nextCtx st s P L0).touched o
        · rw [if_pos ht, if_pos ht]
          exact fin_types (by simp [nextCtx])
        · rw [if_neg ht, if_neg ht]
          exact ⟨fun y h => by simp at h, fun _ => rfl⟩
      refine linked_loose hloose ⟨hty, g2, g3, fun a c ha => ⟨(g4 a c ha).1, h2 a c ha⟩⟩
    · intro x hx i
      obtain ⟨y, h1, -⟩ := hincs i
      refine (hAt i y h1).2 x.1 ?_
      have := (List.pairwise_cons.mp hs.times).1 x.1 (List.mem_map.mpr ⟨x, hx, rfl⟩)
      simp only at this; omega

theorem recAt_eq_dst (st : State α A C S H Δ) (s : Sess α A C S H Δ) (L0) (i : List α) :
    (nextCtx st s P L0).dst i = recAt L0 i := rfl

/-- A session after another: it runs to the end, with the expected result, and at every moment between the
markers it can be undone. -/
theorem session_next {T0 rest L0 mrest} {s : Sess α A C S H Δ}
    (hs : Static o rsv P T0 rest L0 mrest) (hc : Clean o P T0 L0 mrest st)
    (hv : ValidSess o rsv ((P.t0, T0) :: rest) s) :
    ∃ work st', sessionSteps o st s = some (.mark s.now :: (work ++ [.unmark P.t0])) ∧
      exec s.stamp (.mark s.now :: (work ++ [.unmark P.t0])) st = some st' ∧
      (∀ T, Recorded T0 s T → Rep o rsv st' ((s.now, T) :: (P.t0, T0) :: rest)) ∧
      (∀ n st'', n ≤ work.length → exec s.stamp (.mark s.now :: work.take n) st = some st'' →
        WI o P [s.now, P.t0] s.now ((P.t0, L0) :: mrest) st'') ∧
      (∀ i, incsAt st' i = incFile P i (if i ∈ (nextCtx st s P L0).touched o then (nextCtx st s P L0).finInc o i else none) ++ P.incs0 i) := by
  have hbf := before_next hs hc hv
  have ht0 : P.t0 < s.now := hv.time (P.t0, T0) (by simp)
  let st1 : State α A C S H Δ := { st with marks := [s.now, P.t0] }
  have hmark : apply s.stamp (.mark s.now) st = some st1 := by
    simp only [apply, hc.marks]
    rw [if_neg (by simp; omega)]
  have hw : WI o P [s.now, P.t0] s.now ((P.t0, L0) :: mrest) st1 :=
    ⟨⟨hc.wf.closed, hc.wf.root, hc.wf.incroot, hc.wf.incclosed, hc.wf.incparent⟩,
      fun j => hbf.ok.ri_self j, .inl ⟨[], st.metas, .refl _, hc.metas, by simp⟩, rfl⟩
  obtain ⟨evs, conv, dir', h1, h2, h3, h4⟩ := work_safe (stamp := s.stamp) (M := st.metas) (st := st1) hbf.ok hbf.sorted ⟨rfl, rfl, rfl⟩ rfl rfl hw
    hc.metas (by
      intro x hx
      have : x.1 ∈ ((P.t0, T0) :: rest).map Prod.fst := by
        rw [← hs.mtimes]; exact List.mem_map.mpr ⟨x, hx, rfl⟩
      obtain ⟨y, hy, he⟩ := List.mem_map.mp this
      rw [← he]; exact hv.time y hy)
  have hdest : destOf o st (some P.t0) = some L0 := by
    simp only [destOf]
    rw [hc.metas.read (t := P.t0) (L := L0) (by simp)]
    simp
  have hmt : mirrorTime st = some (some P.t0) := by simp [mirrorTime, hc.marks]
  have hsteps : sessionSteps o st s = some (.mark s.now :: ((.putMeta ⟨s.now, true, s.junkMeta⟩ ::
      (evs.flatMap ((nextCtx st s P L0).eventSteps o) ++ .putMeta ⟨s.now, true, (nextCtx st s P L0).listing o⟩ :: conv)) ++
        [.unmark P.t0])) := by
    unfold sessionSteps
    rw [hmt]
    simp only [Option.any_some]
    rw [if_neg (by simp; omega), hdest]
    simp only
    simp only [nextCtx] at h1 h2 ⊢
    rw [h1, h2]
  obtain ⟨st₂, he, ⟨hb, hm, hmk, hwf⟩, -⟩ := h4.exec
  have hri : ∀ j, RI o P j (get st₂.mirror j) (incsAt st₂ j) := by
    obtain ⟨st₃, h5, h6⟩ := h4.take _
    rw [List.take_of_length_le (le_refl _), he] at h5
    cases h5
    exact h6.ri
  refine ⟨_, { st₂ with marks := [s.now] }, hsteps, ?_, ?_, ?_, hb.incs⟩
  · rw [exec, hmark, Option.bind_some, exec_append]
    refine (congrArg (fun x => Option.bind x _) he).trans ?_
    rw [Option.bind_some, exec, apply, hmk]
    simp only [Option.bind_some, exec]
    rw [List.filter_cons, if_pos (by simp; omega)]
    simp
  · intro T hr
    refine .inr ⟨_, T, (P.t0, T0) :: rest, (nextCtx st s P L0).listing o, (P.t0, L0) :: mrest, rfl,
      static_next hs hc hv hb hri hr, ?_⟩
    refine ⟨⟨hwf.closed, hwf.root, hwf.incroot, hwf.incclosed, hwf.incparent⟩, ?_, ?_, ?_, rfl⟩
    · intro i
      show LooseNode o (get st₂.mirror i) _
      rw [hb.mirror, hr.files]; exact hbf.result i
    · intro i; rfl
    · show MetaChain.Inv st₂.metas _
      rw [hm]; exact h3
  · intro n st'' _ hex
    rw [exec, hmark, Option.bind_some] at hex
    obtain ⟨st₃, h5, h6⟩ := h4.take n
    have hex := h5.symm.trans hex
    cases hex
    exact h6

/-- The first session. -/
theorem session_first (a : A) {s : Sess α A C S H Δ} (hv : ValidSess o rsv [] s) :
    ∃ st', backup o ⟨[([], .dir a)], [], [[]], [], []⟩ s = some st' ∧
      ∀ T, Recorded [] s T → Rep o rsv st' [(s.now, T)] := by
  have hbf := before_first a hv
  have hI : MetaChain.Inv ([] : Dir (List α) (MRec A S H)) [] := History.empty.inv
  have hw : WI o firstProt [] s.now [] (firstCtx a s).st :=
    ⟨fsWF_first a, fun j => hbf.ok.ri_self j, .inl ⟨[], [], .refl _, hI, by simp⟩, rfl⟩
  obtain ⟨evs, conv, dir', h1, h2, h3, h4⟩ := work_safe (stamp := s.stamp) (M := []) hbf.ok hbf.sorted ⟨rfl, rfl, rfl⟩ rfl rfl hw
    hI (by simp)
  have hdest : destOf o (firstCtx a s).st none = some [⟨[], some (.dir a)⟩] := by
    simp [destOf, firstCtx, srcRec, Sort.sortBy, Sort.insertBy]
  have hsteps : sessionSteps o (firstCtx a s).st s = some ((.putMeta ⟨s.now, true, s.junkMeta⟩ ::
      (evs.flatMap ((firstCtx a s).eventSteps o) ++ .putMeta ⟨s.now, true, (firstCtx a s).listing o⟩ :: conv)) ++
        [.mark s.now]) := by
    unfold sessionSteps
    have : mirrorTime (firstCtx a s).st = some none := rfl
    rw [this]
    simp only [Option.any_none]
    rw [if_neg (by simp), hdest]
    simp only
    simp only [firstCtx] at h1 h2 ⊢
    rw [h1, h2]
  obtain ⟨st₂, he, ⟨hb, hm, hmk, hwf⟩, -⟩ := h4.exec
  refine ⟨{ st₂ with marks := [s.now] }, ?_, ?_⟩
  · show backup o (firstCtx a s).st s = _
    unfold backup
    rw [hsteps, Option.bind_some, exec_append]
    refine (congrArg (fun x => Option.bind x _) he).trans ?_
    rw [Option.bind_some, exec, apply, hmk]
    simp [exec]
  · intro T hr
    have hinc : ∀ i, incsAt st₂ i = [] := by
      intro i
      have : st₂.incs = (firstCtx a s).st.incs := by
        refine exec_noInc ?_ he
        intro x hx
        simp only [List.mem_cons, List.mem_append] at hx
        rcases hx with rfl | hx | rfl | hx
        · rfl
        · obtain ⟨e, _, he'⟩ := List.mem_flatMap.mp hx
          exact events_noInc rfl e x he'
        · rfl
        · exact convert_noInc h2 x hx
      rw [incsAt, this]; rfl
    refine .inr ⟨⟨s.now, get T, fun i => hashOf (recAt ((firstCtx a s).listing o) i), fun _ => []⟩, T, [],
      (firstCtx a s).listing o, [], rfl, ?_, ?_⟩
    · constructor
      · intro i; rfl
      · intro i; rfl
      · intro x hx
        simp at hx; subst hx
        exact isTree_recorded hv.tree hr
      · exact .cons ⟨rfl, hbf.describes hr⟩ .nil
      · simp
      · simp
      · simp
      · simp
      · trivial
    · refine ⟨⟨hwf.closed, hwf.root, hwf.incroot, hwf.incclosed, hwf.incparent⟩, ?_, ?_, ?_, rfl⟩
      · intro i
        show LooseNode o (get st₂.mirror i) _
        rw [hb.mirror, hr.files]; exact hbf.result i
      · intro i; exact hinc i
      · show MetaChain.Inv st₂.metas _
        rw [hm]; exact h3

end Verif.Repo
