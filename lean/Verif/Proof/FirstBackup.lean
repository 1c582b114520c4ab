import Verif.Proof.RepoSess
import Verif.Model.Action
import Mathlib.Order.MinMax
/- The first backup into a directory with any contents. -/
namespace Verif.Repo
open Verif.Collate Verif.FillIn Verif.TreeReducer Verif.MetaChain Verif.JoinSpec
set_option linter.unusedSectionVars false
variable {α A C S H Δ L : Type} [LinearOrder α] [DecidableEq A] [DecidableEq S] [DecidableEq H] [DecidableEq L]
variable {o : Ops A C H Δ L} {rsv : α → Prop}

/-! ### Directories -/

theorem get_nodup {V : Type} {m : Files α V} (h : (m.map Prod.fst).Nodup) (i : List α) (v : V) :
    get m i = some v ↔ (i, v) ∈ m := by
  induction m with
  | nil => simp [get]
  | cons x m ih =>
    obtain ⟨k, w⟩ := x
    simp only [List.map_cons, List.nodup_cons] at h
    by_cases hk : k = i
    · subst hk
      rw [get, if_pos rfl]
      constructor
      · intro e; cases e; simp
      · intro e
        rcases List.mem_cons.mp e with e | e
        · cases e; rfl
        · exact absurd (List.mem_map.mpr ⟨_, e, rfl⟩) h.1
    · rw [get, if_neg hk, ih h.2]
      constructor
      · intro e; exact List.mem_cons_of_mem _ e
      · intro e
        rcases List.mem_cons.mp e with e | e
        · cases e; exact absurd rfl hk
        · exact e

/-- a repository without any backup, in a directory containing `m` -/
def anyState (m : Files α (Node A C S)) : State α A C S H Δ := ⟨m, [], [[]], [], []⟩

theorem IsDirectory.closed {m : Files α (Node A C S)} (h : IsDirectory m) : Closed m := by
  intro i hi hs
  obtain ⟨n, hn⟩ := Option.isSome_iff_exists.mp hs
  obtain ⟨a, ha⟩ := h.parent (i, n) ((get_nodup h.nodup _ _).mp hn) hi
  simp only [isDirAt]
  rw [(get_nodup h.nodup _ _).mpr ha]

theorem IsDirectory.fsWF {m : Files α (Node A C S)} (h : IsDirectory m) : FsWF (anyState (H := H) (Δ := Δ) m) := by
  refine ⟨h.closed, ?_, by simp [anyState], by simp [anyState], by simp [anyState]⟩
  obtain ⟨a, ha⟩ := h.root
  simp only [isDirAt, anyState]
  rw [(get_nodup h.nodup _ _).mpr ha]

theorem isDirectory_of {st : State α A C S H Δ} (hn : (st.mirror.map Prod.fst).Nodup) (hw : FsWF st) :
    IsDirectory st.mirror := by
  refine ⟨hn, ?_, ?_⟩
  · have := hw.root
    simp only [isDirAt] at this
    cases hg : get st.mirror [] with
    | none => rw [hg] at this; cases this
    | some n =>
      rw [hg] at this
      cases n <;> simp at this
      exact ⟨_, (get_nodup hn _ _).mp hg⟩
  · rintro ⟨i, n⟩ hx hi
    have := hw.closed i hi (by rw [(get_nodup hn _ _).mpr hx]; rfl)
    simp only [isDirAt] at this
    cases hg : get st.mirror i.dropLast with
    | none => rw [hg] at this; cases this
    | some n =>
      rw [hg] at this
      cases n <;> simp at this
      exact ⟨_, (get_nodup hn _ _).mp hg⟩

/-! ### Operations keep paths unique -/

theorem nodup_filter {V : Type} {m : Files α V} (h : (m.map Prod.fst).Nodup) (p : List α × V → Bool) :
    ((m.filter p).map Prod.fst).Nodup := h.sublist (List.filter_sublist.map _)

theorem nodup_put {V : Type} {m : Files α V} (h : (m.map Prod.fst).Nodup) (i : List α) (v : V) :
    ((put m i v).map Prod.fst).Nodup := by
  simp only [put, List.map_cons, List.nodup_cons]
  refine ⟨?_, nodup_filter h _⟩
  intro hm
  obtain ⟨x, hx, he⟩ := List.mem_map.mp hm
  simp only [List.mem_filter, decide_eq_true_eq] at hx
  exact hx.2 he

theorem nodup_touch {m : Files α (Node A C S)} (stamp : A) (h : (m.map Prod.fst).Nodup) (i : List α) :
    ((touch stamp m i).map Prod.fst).Nodup := by
  unfold touch
  by_cases hd : isDirAt m i = true
  · rw [if_pos hd]; exact nodup_put h _ _
  · rw [if_neg hd]; exact h

theorem apply_nodup {stamp : A} {x : Step α A C S H Δ} {st st' : State α A C S H Δ} (h : apply stamp x st = some st')
    (hn : (st.mirror.map Prod.fst).Nodup) : (st'.mirror.map Prod.fst).Nodup := by
  cases x with
  | write i n =>
    simp only [apply] at h
    split at h
    · cases h
      refine nodup_put ?_ _ _
      by_cases hg : (get st.mirror i).isNone = true
      · rw [if_pos hg]; exact nodup_touch _ hn _
      · rw [if_neg hg]; exact hn
    · cases h
  | rename i j =>
    simp only [apply] at h
    split at h
    · cases h
    · split at h
      · cases h
        exact nodup_put (nodup_filter (nodup_touch _ hn _) _) _ _
      · cases h
  | delete i =>
    simp only [apply] at h
    split at h
    · cases h; exact nodup_filter (nodup_touch _ hn _) _
    · cases h
  | mkdir i =>
    simp only [apply] at h
    split at h
    · cases h; exact nodup_put (nodup_touch _ hn _) _ _
    · cases h
  | rmdir i =>
    simp only [apply] at h
    split at h
    · cases h; exact nodup_filter (nodup_touch _ hn _) _
    · cases h
  | chattr i a =>
    simp only [apply] at h
    split at h
    · cases h
    · cases h; exact nodup_put hn _ _
  | mkIncDir i => simp only [apply] at h; split at h <;> cases h; exact hn
  | newInc f => simp only [apply] at h; split at h <;> cases h; exact hn
  | fillInc f => simp only [apply] at h; cases h; exact hn
  | delInc i t => simp only [apply] at h; cases h; exact hn
  | putMeta f => simp only [apply] at h; cases h; exact hn
  | delMeta t b => simp only [apply] at h; cases h; exact hn
  | mark t => simp only [apply] at h; split at h <;> cases h; exact hn
  | unmark t => simp only [apply] at h; cases h; exact hn

theorem exec_nodup {stamp : A} {l : List (Step α A C S H Δ)} {st st' : State α A C S H Δ} (h : exec stamp l st = some st')
    (hn : (st.mirror.map Prod.fst).Nodup) : (st'.mirror.map Prod.fst).Nodup := by
  induction l generalizing st with
  | nil => cases h; exact hn
  | cons x l ih =>
    rw [exec] at h
    obtain ⟨st1, h1, h2⟩ := Option.bind_eq_some_iff.mp h
    exact ih h2 (apply_nodup h1 hn)

/-! ### At most one metadata file -/

/-- operations of the first backup on metadata -/
def OneMeta (now : Nat) : Step α A C S H Δ → Prop
  | .putMeta f => f.time = now ∧ f.snap = true
  | _ => True

theorem exec_oneMeta {stamp : A} {now : Nat} {l : List (Step α A C S H Δ)} {st st' : State α A C S H Δ} (h : exec stamp l st = some st')
    (hl : ∀ x ∈ l, OneMeta now x) (hm : (∀ g ∈ st.metas, g.time = now ∧ g.snap = true) ∧ st.metas.length ≤ 1) :
    (∀ g ∈ st'.metas, g.time = now ∧ g.snap = true) ∧ st'.metas.length ≤ 1 := by
  induction l generalizing st with
  | nil => cases h; exact hm
  | cons x l ih =>
    rw [exec] at h
    obtain ⟨st1, h1, h2⟩ := Option.bind_eq_some_iff.mp h
    refine ih h2 (fun y hy => hl y (List.mem_cons_of_mem _ hy)) ?_
    have hx := hl x (by simp)
    cases x with
    | putMeta f =>
      simp only [apply] at h1; cases h1
      have : st.metas.filter (fun g => ¬ (g.time = f.time ∧ g.snap = f.snap)) = [] := by
        refine List.filter_eq_nil_iff.mpr fun g hg => ?_
        have := hm.1 g hg
        have hx : f.time = now ∧ f.snap = true := hx
        simp [this.1, this.2, hx.1, hx.2]
      simp only [this]
      exact ⟨fun g hg => by rw [List.mem_singleton.mp hg]; exact hx, by simp⟩
    | delMeta t b =>
      simp only [apply] at h1; cases h1
      exact ⟨fun g hg => hm.1 g (List.mem_filter.mp hg).1, le_trans (List.length_filter_le _ _) hm.2⟩
    | write i n => simp only [apply] at h1; split at h1 <;> cases h1; exact hm
    | rename i j => simp only [apply] at h1; split at h1 <;> [cases h1; (split at h1 <;> cases h1; exact hm)]
    | delete i => simp only [apply] at h1; split at h1 <;> cases h1; exact hm
    | mkdir i => simp only [apply] at h1; split at h1 <;> cases h1; exact hm
    | rmdir i => simp only [apply] at h1; split at h1 <;> cases h1; exact hm
    | chattr i a => simp only [apply] at h1; split at h1 <;> cases h1; exact hm
    | mkIncDir i => simp only [apply] at h1; split at h1 <;> cases h1; exact hm
    | newInc f => simp only [apply] at h1; split at h1 <;> cases h1; exact hm
    | fillInc f => simp only [apply] at h1; cases h1; exact hm
    | delInc i t => simp only [apply] at h1; cases h1; exact hm
    | mark t => simp only [apply] at h1; split at h1 <;> cases h1; exact hm
    | unmark t => simp only [apply] at h1; cases h1; exact hm

theorem eventSteps_noMeta {c : Ctx α A C S H Δ} (e : Event α) : ∀ x ∈ c.eventSteps o e, ∀ f, x ≠ .putMeta f := by
  intro x hx f hf
  subst hf
  have hw : ∀ i tf, Step.putMeta f ∉ c.writeTmp i tf := by
    intro i tf; cases tf <;> simp [Ctx.writeTmp]
  have hi : ∀ i a b, Step.putMeta f ∉ c.makeIncrement o i a b := by
    intro i a b
    simp only [Ctx.makeIncrement]
    cases c.prev with
    | none => simp
    | some t =>
      simp only [List.mem_append, not_or]
      refine ⟨by split <;> simp, ?_⟩
      cases c.mirror i with
      | none => simp
      | some n =>
        cases n with
        | dir a => simp
        | other a s => simp
        | reg a x =>
          simp only
          split
          · split <;> simp
          · simp
  cases e with
  | fast i =>
    simp only [Ctx.eventSteps, Ctx.fastSteps] at hx
    split at hx
    · simp [hw] at hx
    · simp [hw] at hx
    · simp [hw, hi] at hx
    · split at hx <;> simp [hi] at hx
  | start i =>
    simp only [Ctx.eventSteps, Ctx.startSteps] at hx
    generalize (if c.isFiller o i = true then isDirNode (c.mirror i) else isDirNode (c.src i)) = d at hx
    cases d
    · simp [hw, hi] at hx
    · simp only [if_true, List.mem_append, hi, false_or] at hx
      split at hx
      · simp at hx
      · rw [List.mem_append] at hx
        rcases hx with hx | hx
        · split at hx <;> simp at hx
        · simp at hx
  | finish i =>
    simp only [Ctx.eventSteps, Ctx.finishSteps] at hx
    split at hx <;> simp at hx

/-! ### The session -/

/-- the listing of what is in the directory -/
def foundList (o : Ops A C H Δ L) (m : Files α (Node A C S)) : List (Rec (List α) (MRec A S H)) :=
  (Sort.sortBy (fun x y => decide (x.1 ≤ y.1)) m).map (fun x => ⟨x.1, some (srcRec o true x.2)⟩)

def anyCtx (o : Ops A C H Δ L) (m : Files α (Node A C S)) (s : Sess α A C S H Δ) : Ctx α A C S H Δ :=
  ⟨anyState m, s, none, foundList o m⟩

theorem foundList_listing {m : Files α (Node A C S)} (h : IsDirectory m) : IsListing (foundList (H := H) o m) := by
  have hp := Sort.sortBy_perm (fun x y : List α × Node A C S => decide (x.1 ≤ y.1)) m
  have hs : (Sort.sortBy (fun x y : List α × Node A C S => decide (x.1 ≤ y.1)) m).Pairwise (fun x y => decide (x.1 ≤ y.1) = true) :=
    Sort.pairwise_sortBy (by intro a b c h1 h2; simp at *; exact le_trans h1 h2) (by intro a b; simp; exact le_total _ _) m
  refine ⟨?_, ?_⟩
  · have hn : ((Sort.sortBy (fun x y : List α × Node A C S => decide (x.1 ≤ y.1)) m).map Prod.fst).Nodup :=
      (hp.map _).nodup_iff.mpr h.nodup
    show List.Pairwise (fun x y => x.idx < y.idx) (foundList o m)
    unfold foundList
    rw [List.pairwise_map]
    have hn' := List.pairwise_map.mp hn
    refine (hs.and hn').imp ?_
    rintro x y ⟨h1, h2⟩
    exact lt_of_le_of_ne (by simpa using h1) h2
  · intro r hr
    obtain ⟨x, -, rfl⟩ := List.mem_map.mp hr
    rfl

theorem foundList_dst {m : Files α (Node A C S)} (h : IsDirectory m) (s : Sess α A C S H Δ) (i : List α) :
    (anyCtx o m s).dst i = (get m i).map (srcRec o true) := by
  have hp := Sort.sortBy_perm (fun x y : List α × Node A C S => decide (x.1 ≤ y.1)) m
  have hn : ((Sort.sortBy (fun x y : List α × Node A C S => decide (x.1 ≤ y.1)) m).map Prod.fst).Nodup :=
      (hp.map _).nodup_iff.mpr h.nodup
  have hg : get (Sort.sortBy (fun x y : List α × Node A C S => decide (x.1 ≤ y.1)) m) i = get m i := by
    ext v
    rw [get_nodup hn, get_nodup h.nodup]; exact hp.mem_iff
  rw [← hg]
  simp only [Ctx.dst, anyCtx, foundList]
  generalize Sort.sortBy (fun x y : List α × Node A C S => decide (x.1 ≤ y.1)) m = l
  induction l with
  | nil => rfl
  | cons x l ih =>
    obtain ⟨k, v⟩ := x
    rw [List.map_cons, List.find?_cons, get]
    by_cases hk : k = i
    · simp [hk]
    · simp only [hk, decide_false, if_false]; exact ih

theorem before_any {m : Files α (Node A C S)} (hm : IsDirectory m) {s : Sess α A C S H Δ} (hv : ValidFirst o rsv m s) :
    Before o rsv (anyCtx o m s) firstProt m := by
  have hD : ∀ i, Desc o (get m i) ((anyCtx o m s).dst i) := by
    intro i
    rw [foundList_dst hm]
    cases get m i with
    | none => trivial
    | some n => exact desc_srcRec true n
  refine ⟨?_, ⟨hv.tree.ordered, foundList_listing hm⟩, hv.honest, hv.tree, fun i => .inl (hD i), fun i => .inl (LooseNode.refl _)⟩
  constructor
  · exact hv.tree.root_dir
  · exact hv.tree.closed
  · exact hv.tree.no_tmp hv.tmp
  · intro i hi
    show get m i = none
    cases hg : get m i with
    | none => rfl
    | some n => exact absurd hi (hv.unused (i, n) ((get_nodup hm.nodup _ _).mp hg))
  · exact hm.fsWF
  · intro i; exact (hD i).agrees (LooseNode.refl _)
  · intro i a x h; cases h
  · intro i a h; cases h
  · intro i a x h; cases h
  · intro i a x _ _ _ h; cases h
  · intro i a x _ _ h; cases h
  · intro t h; cases h
  · intro _ i; rfl
  · intro i; rfl

/-- A first session into any directory completes; wherever it is interrupted, there is again a directory with at most one
metadata file and no marker. -/
theorem session_any {m : Files α (Node A C S)} (hm : IsDirectory m) {s : Sess α A C S H Δ} (hv : ValidFirst o rsv m s) :
    ∃ work st', sessionSteps o (anyState m) s = some (work ++ [.mark s.now]) ∧
      exec s.stamp (work ++ [.mark s.now]) (anyState m) = some st' ∧
      (∀ T, Recorded m s T → Rep o rsv st' [(s.now, T)]) ∧
      ∀ n, ∃ st'', exec s.stamp (work.take n) (anyState m) = some st'' ∧ IsDirectory st''.mirror ∧ st''.marks = [] ∧
        st''.metas.length ≤ 1 := by
  have hbf := before_any hm hv
  have hI : MetaChain.Inv ([] : Dir (List α) (MRec A S H)) [] := History.empty.inv
  have hw : WI o firstProt [] s.now [] (anyCtx o m s).st :=
    ⟨hm.fsWF, fun j => hbf.ok.ri_self j, .inl ⟨[], [], .refl _, hI, by simp⟩, rfl⟩
  obtain ⟨evs, conv, dir', h1, h2, h3, h4⟩ := work_safe (stamp := s.stamp) (M := []) hbf.ok hbf.sorted ⟨rfl, rfl, rfl⟩ rfl rfl hw
    hI (by simp)
  have hconv : conv = [] := by
    have : convertSteps (C := C) (Δ := Δ) s.junkMeta [⟨s.now, true, (anyCtx o m s).listing o⟩] = some [] := by
      rfl
    have h2' : convertSteps (C := C) (Δ := Δ) s.junkMeta [⟨s.now, true, (anyCtx o m s).listing o⟩] = some conv := h2
    rw [this] at h2'; cases h2'; rfl
  have hsteps : sessionSteps o (anyCtx o m s).st s = some ((.putMeta ⟨s.now, true, s.junkMeta⟩ ::
      (evs.flatMap ((anyCtx o m s).eventSteps o) ++ .putMeta ⟨s.now, true, (anyCtx o m s).listing o⟩ :: conv)) ++
        [.mark s.now]) := by
    unfold sessionSteps
    have : mirrorTime (anyCtx o m s).st = some none := rfl
    rw [this]
    simp only [Option.any_none]
    rw [if_neg (by simp)]
    have hdest : destOf o (anyCtx o m s).st none = some (foundList o m) := rfl
    rw [hdest]
    simp only
    simp only [anyCtx] at h1 h2 ⊢
    rw [h1, h2]
  obtain ⟨st₂, he, ⟨hb, hmt, hmk, hwf⟩, -⟩ := h4.exec
  refine ⟨_, { st₂ with marks := [s.now] }, hsteps, ?_, ?_, ?_⟩
  · rw [exec_append]
    refine (congrArg (fun x => Option.bind x _) he).trans ?_
    rw [Option.bind_some, exec, apply, hmk]
    simp [exec]
  · intro T hr
    have hinc : ∀ i, incsAt st₂ i = [] := by
      intro i
      have : st₂.incs = (anyCtx o m s).st.incs := by
        refine exec_noInc ?_ he
        intro x hx
        simp only [List.mem_cons, List.mem_append] at hx
        rcases hx with rfl | hx | rfl | hx
        · rfl
        · obtain ⟨e, _, he'⟩ := List.mem_flatMap.mp hx
          exact events_noInc rfl e x he'
        · rfl
        · exact convert_noInc h2 x hx
      rw [incsAt, this]; rfl
    refine .inr ⟨⟨s.now, get T, fun i => hashOf (recAt ((anyCtx o m s).listing o) i), fun _ => []⟩, T, [],
      (anyCtx o m s).listing o, [], rfl, ?_, ?_⟩
    · constructor
      · intro i; rfl
      · intro i; rfl
      · intro x hx
        simp at hx; subst hx
        exact isTree_recorded hv.tree hr
      · exact .cons ⟨rfl, hbf.describes hr⟩ .nil
      · simp
      · simp
      · simp
      · simp
      · trivial
    · refine ⟨⟨hwf.closed, hwf.root, hwf.incroot, hwf.incclosed, hwf.incparent⟩, ?_, ?_, ?_, rfl⟩
      · intro i
        show LooseNode o (get st₂.mirror i) _
        rw [hb.mirror, hr.files]; exact hbf.result i
      · intro i; exact hinc i
      · show MetaChain.Inv st₂.metas _
        rw [hmt]; exact h3
  · intro n
    obtain ⟨st₃, h5, h6⟩ := h4.take n
    refine ⟨st₃, h5, isDirectory_of (exec_nodup h5 hm.nodup) h6.wf, h6.marks, ?_⟩
    refine (exec_oneMeta (now := s.now) h5 ?_ ⟨by simp [anyCtx, anyState], by simp [anyCtx, anyState]⟩).2
    intro x hx
    have hx := List.mem_of_mem_take hx
    subst hconv
    simp only [List.mem_cons, List.mem_append, List.not_mem_nil, or_false] at hx
    rcases hx with rfl | hx | rfl
    · exact ⟨rfl, rfl⟩
    · obtain ⟨e, _, he'⟩ := List.mem_flatMap.mp hx
      have := eventSteps_noMeta e x he'
      cases x <;> first | trivial | exact absurd rfl (this _)
    · exact ⟨rfl, rfl⟩

end Verif.Repo
