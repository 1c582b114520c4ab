import Verif.Proof.RepoResolve
import Verif.Model.RepoList
/- What a repository with a given history looks like, and that a session keeps it so. -/
namespace Verif.Repo
open Verif.Collate Verif.FillIn Verif.TreeReducer Verif.MetaChain Verif.JoinSpec
set_option linter.unusedSectionVars false
variable {α A C S H Δ L : Type} [LinearOrder α] [DecidableEq A] [DecidableEq S] [DecidableEq H] [DecidableEq L]
variable {o : Ops A C H Δ L} {rsv : α → Prop}

/-- the record of a path -/
def recAt (l : List (Rec (List α) (MRec A S H))) (i : List α) : Option (MRec A S H) :=
  (l.find? (fun r => r.idx = i)).bind (·.data)

/-- a record describes a file -/
def Desc (o : Ops A C H Δ L) : Option (Node A C S) → Option (MRec A S H) → Prop
  | none, none => True
  | some (.dir a), some (.dir a') => a = a'
  | some (.reg a x), some (.reg a' sz h) => a = a' ∧ sz = o.size x ∧ ∀ h', h = some h' → h' = o.sha x
  | some (.other a s), some (.other a' s') => a = a' ∧ s = s'
  | _, _ => False

structure Describes (o : Ops A C H Δ L) (T : Files α (Node A C S)) (l : List (Rec (List α) (MRec A S H))) :
    Prop where
  listing : IsListing l
  desc : ∀ i, Desc o (get T i) (recAt l i)

/-- the file in the mirror is the given one, as far as `equal_loose` sees -/
def LooseNode (o : Ops A C H Δ L) : Option (Node A C S) → Option (Node A C S) → Prop
  | none, none => True
  | some (.dir _), some (.dir _) => True
  | some (.reg a x), some (.reg a' x') => o.loose a = o.loose a' ∧ x = x'
  | some (.other a s), some (.other a' s') => o.loose a = o.loose a' ∧ s = s'
  | _, _ => False

def hashOf : Option (MRec A S H) → Option H
  | some (.reg _ _ h) => h
  | _ => none

abbrev MHist (α A S H : Type) := List (Nat × List (Rec (List α) (MRec A S H)))

/-- the increment of a given time -/
def incAt (l : List (IncFile α A C S Δ)) (t : Nat) : Option (Inc A C S Δ) := (l.find? fun f => f.time = t).map (·.inc)

/-- what is known about a path in two consecutive backups: `new` in the newer, `old` in the older one, `x`: the increment between them -/
def Linked (o : Ops A C H Δ L) (new : Option (Node A C S)) (x : Option (Inc A C S Δ)) (old : Option (Node A C S)) : Prop :=
  ((∀ y, x = some y → incType y = fileType old) ∧ (x = none → fileType new = fileType old)) ∧
  (∀ a, old = some (.dir a) → isDirNode new = true ∨ x.isSome = true) ∧
  (∀ a s, old = some (.other a s) → (∃ a', new = some (.other a' s) ∧ o.loose a' = o.loose a) ∨ x.isSome = true) ∧
  ∀ a c, old = some (.reg a c) →
    (∀ a' c', new = some (.reg a' c') → o.size c' = o.size c → (o.loose a' = o.loose a ∨ o.sha c' = o.sha c) → c' = c) ∧
    resolve1 o x new = some c

theorem LooseNode.fileType {m n : Option (Node A C S)} (h : LooseNode o m n) : fileType m = fileType n := by
  cases m with
  | none => cases n with
    | none => rfl
    | some n => cases n <;> exact h.elim
  | some m => cases n with
    | none => cases m <;> exact h.elim
    | some n => cases m <;> cases n <;> first | rfl | exact h.elim

/-- consecutive backups are linked by increments -/
def Chain (o : Ops A C H Δ L) (incs : List α → List (IncFile α A C S Δ)) : Hist α A C S → Prop
  | y :: x :: rest => (∀ i, Linked o (get y.2 i) (incAt (incs i) x.1) (get x.2 i)) ∧ Chain o incs (x :: rest)
  | _ => True

theorem Chain.congr {incs incs' : List α → List (IncFile α A C S Δ)} : ∀ {hist : Hist α A C S}, Chain o incs hist →
    (∀ x ∈ hist.tail, ∀ i, incAt (incs' i) x.1 = incAt (incs i) x.1) → Chain o incs' hist
  | [], _, _ => trivial
  | [_], _, _ => trivial
  | y :: x :: rest, h, he => by
    refine ⟨fun i => ?_, h.2.congr fun z hz i => he z (by simp; exact .inr hz) i⟩
    rw [he x (by simp) i]; exact h.1 i

/-- everything about older backups -/
structure Static (o : Ops A C H Δ L) (rsv : α → Prop) (P : Prot α A C S H Δ) (T0 : Files α (Node A C S))
    (rest : Hist α A C S) (L0 : List (Rec (List α) (MRec A S H))) (mrest : MHist α A S H) : Prop where
  old : ∀ i, P.old i = get T0 i
  hash : ∀ i, P.hash i = hashOf (recAt L0 i)
  trees : ∀ x ∈ (P.t0, T0) :: rest, IsTree rsv x.2
  desc : List.Forall₂ (fun x y => x.1 = y.1 ∧ Describes o x.2 y.2) ((P.t0, T0) :: rest) ((P.t0, L0) :: mrest)
  times : (((P.t0, T0) :: rest).map Prod.fst).Pairwise (· > ·)
  incs : ∀ i, ∀ f ∈ P.incs0 i, f.idx = i ∧ f.time < P.t0 ∧ f.time ∈ rest.map Prod.fst
  content : ∀ x ∈ rest, ∀ i a c, get x.2 i = some (.reg a c) →
    resolve o ((newerIncs (P.incs0 i) x.1).map (·.inc)) (get T0 i) = some c
  sorted : ∀ i, (P.incs0 i).Pairwise (fun f g => g.time < f.time)
  chain : Chain o P.incs0 ((P.t0, T0) :: rest)

/-- a repository without interrupted backup -/
structure Clean (o : Ops A C H Δ L) (P : Prot α A C S H Δ) (T0 : Files α (Node A C S))
    (L0 : List (Rec (List α) (MRec A S H))) (mrest : MHist α A S H) (st : State α A C S H Δ) : Prop where
  wf : FsWF st
  mirror : ∀ i, LooseNode o (get st.mirror i) (get T0 i)
  incs : ∀ i, incsAt st i = P.incs0 i
  metas : MetaChain.Inv st.metas ((P.t0, L0) :: mrest)
  marks : st.marks = [P.t0]

def Rep (o : Ops A C H Δ L) (rsv : α → Prop) (st : State α A C S H Δ) (hist : Hist α A C S) : Prop :=
  (hist = [] ∧ ∃ a, st = ⟨[([], .dir a)], [], [[]], [], []⟩) ∨
  ∃ P T0 rest L0 mrest, hist = (P.t0, T0) :: rest ∧ Static o rsv P T0 rest L0 mrest ∧ Clean o P T0 L0 mrest st

/-! ### Trees -/

theorem IsTree.get_iff {T : Files α (Node A C S)} (h : IsTree rsv T) (i : List α) (n : Node A C S) :
    get T i = some n ↔ (i, n) ∈ T := get_mem h.ordered i n

theorem IsTree.root_dir {T : Files α (Node A C S)} (h : IsTree rsv T) : isDirNode (get T []) = true := by
  obtain ⟨a, ha⟩ := h.root
  rw [(h.get_iff _ _).mpr ha]; rfl

theorem IsTree.closed {T : Files α (Node A C S)} (h : IsTree rsv T) (i : List α) (hi : i ≠ [])
    (hs : (get T i).isSome = true) : isDirNode (get T i.dropLast) = true := by
  obtain ⟨n, hn⟩ := Option.isSome_iff_exists.mp hs
  obtain ⟨a, ha⟩ := h.parent (i, n) ((h.get_iff _ _).mp hn) hi
  simp only at ha
  rw [(h.get_iff _ _).mpr ha]; rfl

theorem IsTree.no_tmp {T : Files α (Node A C S)} (h : IsTree rsv T) {tmp : α} (ht : rsv tmp) (i : List α)
    (hi : tmp ∈ i) : get T i = none := by
  cases hg : get T i with
  | none => rfl
  | some n => exact absurd ht (h.names (i, n) ((h.get_iff _ _).mp hg) tmp hi)

/-! ### The context of a session -/

theorem Desc.agrees {t m : Option (Node A C S)} {r : Option (MRec A S H)} (h : Desc o t r) (hl : LooseNode o m t) :
    Agrees o r m := by
  cases t with
  | none =>
    cases r with
    | some r => exact h.elim
    | none =>
      cases m with
      | none => trivial
      | some k => cases k <;> exact hl.elim
  | some n =>
    cases m with
    | none => cases n <;> exact hl.elim
    | some k =>
      cases r with
      | none => cases n <;> exact h.elim
      | some r =>
        cases n <;> cases k <;> (first | exact hl.elim | skip) <;> cases r <;> (first | exact h.elim | skip)
        · trivial
        · obtain ⟨-, h1, h2⟩ := h
          obtain ⟨-, rfl⟩ := hl
          exact ⟨h1.symm, h2⟩
        · exact h.2.symm.trans hl.2.symm

theorem LooseNode.content {m t : Option (Node A C S)} (h : LooseNode o m t) :
    ∀ c, (∃ a, t = some (.reg a c)) → ∃ a, m = some (.reg a c) := by
  rintro c ⟨a, rfl⟩
  cases m with
  | none => exact h.elim
  | some k => cases k <;> first | exact h.elim | (obtain ⟨_, rfl⟩ := h; exact ⟨_, rfl⟩)

theorem LooseNode.content' {m t : Option (Node A C S)} (h : LooseNode o m t) :
    ∀ c, (∃ a, m = some (.reg a c)) → ∃ a, t = some (.reg a c) := by
  rintro c ⟨a, rfl⟩
  cases t with
  | none => exact h.elim
  | some k => cases k <;> first | exact h.elim | (obtain ⟨_, rfl⟩ := h; exact ⟨_, rfl⟩)

theorem Static.tree0 {P : Prot α A C S H Δ} {T0 rest L0 mrest} (h : Static o rsv P T0 rest L0 mrest) :
    IsTree rsv T0 := h.trees (P.t0, T0) (by simp)

theorem Static.desc0 {P : Prot α A C S H Δ} {T0 rest L0 mrest} (h : Static o rsv P T0 rest L0 mrest) :
    Describes o T0 L0 := by
  obtain ⟨h1, -⟩ := List.forall₂_cons.mp h.desc
  exact h1.2

/-- the context of the next session -/
def nextCtx (st : State α A C S H Δ) (s : Sess α A C S H Δ) (P : Prot α A C S H Δ)
    (L0 : List (Rec (List α) (MRec A S H))) : Ctx α A C S H Δ := ⟨st, s, some P.t0, L0⟩

theorem ctxOK_next {P : Prot α A C S H Δ} {T0 rest L0 mrest} {st : State α A C S H Δ} {s : Sess α A C S H Δ}
    (hs : Static o rsv P T0 rest L0 mrest) (hc : Clean o P T0 L0 mrest st)
    (hv : ValidSess o rsv ((P.t0, T0) :: rest) s) : CtxOK o (nextCtx st s P L0) P := by
  have hT := hs.tree0
  constructor
  · exact hv.tree.root_dir
  · exact hv.tree.closed
  · exact hv.tree.no_tmp hv.tmp
  · intro i hi
    have := hc.mirror i
    rw [hT.no_tmp hv.tmp i hi] at this
    show get st.mirror i = none
    cases hg : get st.mirror i with
    | none => rfl
    | some k => rw [hg] at this; cases k <;> exact this.elim
  · exact hc.wf
  · intro i; exact (hs.desc0.desc i).agrees (hc.mirror i)
  · intro i a x hx
    rw [hs.old] at hx
    have := hc.mirror i
    rw [hx] at this
    show ∃ a', get st.mirror i = _ ∧ _
    cases hg : get st.mirror i with
    | none => rw [hg] at this; exact this.elim
    | some k =>
      rw [hg] at this
      cases k <;> first | exact this.elim | (obtain ⟨h1, rfl⟩ := this; exact ⟨_, rfl, h1⟩)
  · intro i a hx
    rw [hs.old] at hx
    have := hc.mirror i
    rw [hx] at this
    show isDirNode (get st.mirror i) = true
    cases hg : get st.mirror i with
    | none => rw [hg] at this; exact this.elim
    | some k =>
      rw [hg] at this
      cases k <;> first | exact this.elim | rfl
  · intro i a x hx
    rw [hs.old] at hx
    have := hc.mirror i
    rw [hx] at this
    show ∃ a', get st.mirror i = _ ∧ _
    cases hg : get st.mirror i with
    | none => rw [hg] at this; exact this.elim
    | some k =>
      rw [hg] at this
      cases k <;> first | exact this.elim | (obtain ⟨h1, rfl⟩ := this; exact ⟨_, rfl, h1⟩)
  · intro i a x a' sz h _ hd
    rw [hs.hash]
    show hashOf ((nextCtx st s P L0).dst i) = h
    rw [hd]; rfl
  · intro i a x a' x' h1 h2 h3 h4
    rw [hs.old] at h1
    refine hv.honest i a x a' x' h1 h2 ?_
    rcases h4 with h4 | h4
    · exact .inl ⟨h3, h4⟩
    · exact .inr h4
  · intro t ht
    cases ht
    refine ⟨rfl, ?_⟩
    intro f hf he
    have : f ∈ incsAt st f.idx := by simp only [incsAt, List.mem_filter]; exact ⟨hf, by simp⟩
    rw [hc.incs] at this
    have := (hs.incs _ f this).2.1
    omega
  · intro h; cases h
  · intro i; exact (hc.incs i).symm

theorem sorted_next {P : Prot α A C S H Δ} {T0 rest L0 mrest} {st : State α A C S H Δ} {s : Sess α A C S H Δ}
    (hs : Static o rsv P T0 rest L0 mrest) {hist} (hv : ValidSess o rsv hist s) : Sorted (nextCtx st s P L0) :=
  ⟨hv.tree.ordered, hs.desc0.listing⟩

/-- the context of the first session -/
def firstCtx (a : A) (s : Sess α A C S H Δ) : Ctx α A C S H Δ :=
  ⟨⟨[([], .dir a)], [], [[]], [], []⟩, s, none, [⟨[], some (.dir a)⟩]⟩

def firstProt : Prot α A C S H Δ := ⟨0, fun _ => none, fun _ => none, fun _ => []⟩

theorem fsWF_first (a : A) : FsWF (⟨[([], .dir a)], [], [[]], [], []⟩ : State α A C S H Δ) := by
  constructor
  · intro i hi h
    rw [get_isSome_iff] at h
    obtain ⟨x, hx, rfl⟩ := h
    simp at hx; subst hx; exact absurd rfl hi
  · rfl
  · simp
  · simp
  · simp

theorem ctxOK_first (a : A) {s : Sess α A C S H Δ} (hv : ValidSess o rsv [] s) :
    CtxOK o (firstCtx a s) firstProt := by
  have hm : ∀ i, (firstCtx (α := α) (C := C) (S := S) (H := H) (Δ := Δ) a s).mirror i = if i = [] then some (.dir a) else none := by
    intro i
    simp only [Ctx.mirror, firstCtx, get]
    by_cases h : i = [] <;> simp [h, eq_comm]
  have hd : ∀ i, (firstCtx a s).dst i = if i = [] then some (.dir a) else none := by
    intro i
    simp only [Ctx.dst, firstCtx, List.find?]
    by_cases h : i = []
    · subst h; rfl
    · have : ¬ [] = i := fun e => h e.symm
      simp [h, this]
  constructor
  · exact hv.tree.root_dir
  · exact hv.tree.closed
  · exact hv.tree.no_tmp hv.tmp
  · intro i hi
    rw [hm, if_neg]; rintro rfl; simp at hi
  · exact fsWF_first a
  · intro i; rw [hm, hd]; split <;> trivial
  · intro i a x h; cases h
  · intro i a h; cases h
  · intro i a x h; cases h
  · intro i a x _ _ _ h; cases h
  · intro i a x _ _ h; cases h
  · intro t h; cases h
  · intro _ i; rfl
  · intro i; rfl

theorem sorted_first (a : A) {s : Sess α A C S H Δ} {hist} (hv : ValidSess o rsv hist s) : Sorted (firstCtx a s) :=
  ⟨hv.tree.ordered, by simp [firstCtx], by simp [firstCtx]⟩

/-! ### What a session records -/

variable {c : Ctx α A C S H Δ} {P : Prot α A C S H Δ}

/-- What is known before a session about the tree of the last backup (empty before the first). -/
structure Before (o : Ops A C H Δ L) (rsv : α → Prop) (c : Ctx α A C S H Δ) (P : Prot α A C S H Δ)
    (T0 : Files α (Node A C S)) : Prop where
  ok : CtxOK o c P
  sorted : Sorted c
  honest : Honest o T0 c.s.src
  tree : IsTree rsv c.s.src
  /-- except for the root of the first backup -/
  desc : ∀ i, Desc o (get T0 i) (c.dst i) ∨ (isDirNode (c.src i) = true ∧ isDirRec (c.dst i) = true)
  loose : ∀ i, LooseNode o (c.mirror i) (get T0 i) ∨ (isDirNode (c.src i) = true ∧ isDirNode (c.mirror i) = true)

theorem patch_cases (hsrc : isDirNode (c.src i) = false) (hs : (c.src i).isSome = true) :
    (c.patch o i = .failed ↔ c.s.fails i = true) := by
  unfold Ctx.patch
  cases h : c.src i with
  | none => rw [h] at hs; cases hs
  | some n =>
    cases n with
    | dir a => rw [h] at hsrc; cases hsrc
    | other a x => simp only; by_cases hf : c.s.fails i <;> simp [hf]
    | reg a x =>
      simp only
      by_cases hf : c.s.fails i
      · simp [hf]
      · rw [if_neg hf]
        simp only [hf]
        split
        · simp only [o.patch_delta]
          split <;> simp
        · simp

theorem isDirRec_of_desc {t : Option (Node A C S)} {r : Option (MRec A S H)} (h : Desc o t r) :
    isDirRec r = isDirNode t := by
  cases t with
  | none => cases r <;> first | rfl | exact h.elim
  | some n =>
    cases r with
    | none => cases n <;> exact h.elim
    | some r => cases n <;> cases r <;> first | rfl | exact h.elim

theorem desc_srcRec (b : Bool) (n : Node A C S) : Desc o (some n) (some (srcRec o b n)) := by
  cases n with
  | dir a => rfl
  | reg a x => exact ⟨rfl, rfl, by cases b <;> simp [eq_comm]⟩
  | other a s => exact ⟨rfl, rfl⟩

/-- an unchanged record: the file is the same as in the last backup -/
theorem Before.unchanged (hb : Before o rsv c P T0) {i : List α} (h : changedPair o (c.src i) (c.dst i) = false) :
    ∃ n, c.src i = some n ∧ Desc o (some n) (c.dst i) ∧ (get T0 i = some n ∨ n.isDir = true) := by
  cases hs : c.src i with
  | none => rw [hs] at h; simp [changedPair] at h
  | some n =>
    cases hd : c.dst i with
    | none => rw [hs, hd] at h; simp [changedPair] at h
    | some m =>
      rw [hs, hd] at h
      simp only [changedPair, Bool.not_eq_false'] at h
      refine ⟨n, rfl, ?_⟩
      rcases hb.desc i with hD | ⟨h1, h2⟩
      · rw [hd] at hD
        cases n with
        | dir a =>
          cases m <;> simp [eqMeta] at h
          exact ⟨h, .inr rfl⟩
        | other a x =>
          cases m <;> simp [eqMeta] at h
          obtain ⟨rfl, rfl⟩ := h
          refine ⟨⟨rfl, rfl⟩, .inl ?_⟩
          cases hT : get T0 i with
          | none => rw [hT] at hD; exact hD.elim
          | some k => rw [hT] at hD; cases k <;> first | exact hD.elim | (obtain ⟨rfl, rfl⟩ := hD; rfl)
        | reg a x =>
          cases m <;> simp [eqMeta] at h
          next a' sz hh =>
          obtain ⟨rfl, rfl⟩ := h
          cases hT : get T0 i with
          | none => rw [hT] at hD; exact hD.elim
          | some k =>
            rw [hT] at hD
            cases k with
            | reg b y =>
              obtain ⟨rfl, h5, h6⟩ := hD
              have := hb.honest i b y b x hT hs (.inl ⟨h5, rfl⟩)
              subst this
              exact ⟨⟨rfl, rfl, h6⟩, .inl rfl⟩
            | _ => exact hD.elim
      · rw [hs] at h1; rw [hd] at h2
        cases n with
        | dir a =>
          cases m <;> simp [eqMeta] at h
          exact ⟨h, .inr rfl⟩
        | _ => cases h1

/-- the record written describes what is to be recorded -/
theorem Before.newRec (hb : Before o rsv c P T0) (i : List α) :
    Desc o (recordedAt (get T0 i) (c.src i) (c.s.fails i)) (c.newRec o i (c.src i) (c.dst i)) := by
  unfold Ctx.newRec
  by_cases hch : changedPair o (c.src i) (c.dst i) = true
  · rw [if_pos hch]
    cases hs : c.src i with
    | none => trivial
    | some n =>
      simp only
      have hdd : n.isDir = false → isDirRec (c.dst i) = isDirNode (get T0 i) := by
        intro hn
        rcases hb.desc i with hD | ⟨h1, _⟩
        · exact isDirRec_of_desc hD
        · rw [hs] at h1; simp [isDirNode, hn] at h1
      by_cases hdir : (n.isDir || isDirRec (c.dst i)) = true
      · rw [if_pos hdir]
        have : recordedAt (get T0 i) (some n) (c.s.fails i) = some n := by
          simp only [recordedAt]
          rw [if_neg]
          rintro ⟨-, h1, h2⟩
          rw [h2, hdd h2, h1] at hdir; simp at hdir
        rw [this]; exact desc_srcRec _ _
      · rw [if_neg hdir]
        simp only [Bool.or_eq_true, not_or, Bool.not_eq_true] at hdir
        have hp := patch_cases (o := o) (c := c) (i := i) (by rw [hs]; exact hdir.1) (by rw [hs]; rfl)
        have hold : isDirNode (get T0 i) = false := by rw [← hdd hdir.1]; exact hdir.2
        cases hpat : c.patch o i with
        | failed =>
          have : recordedAt (get T0 i) (some n) (c.s.fails i) = get T0 i := by
            simp only [recordedAt]; rw [if_pos ⟨hp.mp hpat, hold, hdir.1⟩]
          simp only [this]
          rcases hb.desc i with hD | ⟨h1, _⟩
          · exact hD
          · rw [hs] at h1; simp [isDirNode, hdir.1] at h1
        | unchanged tf =>
          have hf : ¬ (c.s.fails i = true) := fun h => by rw [hp.mpr h] at hpat; cases hpat
          have : recordedAt (get T0 i) (some n) (c.s.fails i) = some n := by
            simp only [recordedAt]; rw [if_neg (fun h => hf h.1)]
          rw [this]; exact desc_srcRec _ _
        | done tf =>
          have hf : ¬ (c.s.fails i = true) := fun h => by rw [hp.mpr h] at hpat; cases hpat
          have : recordedAt (get T0 i) (some n) (c.s.fails i) = some n := by
            simp only [recordedAt]; rw [if_neg (fun h => hf h.1)]
          rw [this]; exact desc_srcRec _ _
  · rw [if_neg hch]
    obtain ⟨n, h1, h2, h3⟩ := hb.unchanged (by simpa using hch)
    rw [h1]
    have : recordedAt (get T0 i) (some n) (c.s.fails i) = some n := by
      simp only [recordedAt]
      split
      · next h =>
        rcases h3 with h3 | h3
        · exact h3
        · rw [h3] at h; simp at h
      · rfl
    rw [this]; exact h2

theorem listing_spec (hs : Sorted c) : IsListing (c.listing o) ∧
    ∀ i, recAt (c.listing o) i = c.newRec o i (c.src i) (c.dst i) := by
  obtain ⟨ks, h1, h2, h3⟩ := hs.pairs
  have hform : c.listing o = ks.filterMap (fun k => (c.newRec o k (c.src k) (c.dst k)).map (fun m => ⟨k, some m⟩)) := by
    unfold Ctx.listing
    rw [h3, List.filterMap_map]
    apply List.filterMap_congr
    intro k _
    simp only [Function.comp]
    cases c.newRec o k (c.src k) (c.dst k) <;> rfl
  have hmem : ∀ x, x ∈ c.listing o ↔ ∃ m, x.data = some m ∧ c.newRec o x.idx (c.src x.idx) (c.dst x.idx) = some m := by
    intro x
    rw [hform, List.mem_filterMap]
    constructor
    · rintro ⟨k, hk, he⟩
      obtain ⟨m, hm, rfl⟩ := Option.map_eq_some_iff.mp he
      exact ⟨m, rfl, hm⟩
    · rintro ⟨m, hx, hm⟩
      refine ⟨x.idx, ?_, ?_⟩
      · rw [h2]
        by_contra hcon
        push Not at hcon
        have e1 : c.src x.idx = none := by simpa using hcon.1
        have e2 : c.dst x.idx = none := by simpa using hcon.2
        rw [e1, e2] at hm
        simp [Ctx.newRec, changedPair] at hm
      · rw [hm]; cases x; simp_all
  have hl : IsListing (c.listing o) := by
    refine ⟨?_, ?_⟩
    · rw [hform]
      apply List.Pairwise.filterMap _ _ h1
      intro a b hab x hx y hy
      obtain ⟨m, _, rfl⟩ := Option.map_eq_some_iff.mp hx
      obtain ⟨m', _, rfl⟩ := Option.map_eq_some_iff.mp hy
      exact hab
    · intro r hr
      obtain ⟨m, h, _⟩ := (hmem r).mp hr
      rw [h]; rfl
  refine ⟨hl, ?_⟩
  intro i
  apply Option.ext
  intro m
  unfold recAt
  rw [find_mem hl, hmem]
  simp

theorem Before.describes (hb : Before o rsv c P T0) {T : Files α (Node A C S)} (hr : Recorded T0 c.s T) :
    Describes o T (c.listing o) := by
  obtain ⟨h1, h2⟩ := listing_spec (o := o) hb.sorted
  refine ⟨h1, ?_⟩
  intro i
  rw [h2, hr.files]
  exact hb.newRec i

theorem recordedAt_some {old src : Option (Node A C S)} {f : Bool} (h : (recordedAt old src f).isSome = true) :
    src.isSome = true := by
  cases src with
  | none => cases h
  | some n => rfl

theorem recordedAt_dir {old src : Option (Node A C S)} {f : Bool} (h : isDirNode src = true) :
    recordedAt old src f = src := by
  cases src with
  | none => rfl
  | some n =>
    simp only [recordedAt]
    rw [if_neg]
    rintro ⟨-, -, h2⟩
    rw [isDirNode, h2] at h; cases h

theorem isTree_recorded {T0 T : Files α (Node A C S)} {s : Sess α A C S H Δ} (hsrc : IsTree rsv s.src)
    (hr : Recorded T0 s T) : IsTree rsv T := by
  have hg : ∀ i n, get T i = some n ↔ (i, n) ∈ T := get_mem hr.ordered
  refine ⟨hr.ordered, ?_, ?_, ?_⟩
  · obtain ⟨a, ha⟩ := hsrc.root
    refine ⟨a, (hg _ _).mp ?_⟩
    have hx := (hsrc.get_iff _ _).mpr ha
    rw [hr.files, hx, recordedAt_dir rfl]
  · intro x hx hne
    have h1 := (hg x.1 x.2).mpr hx
    rw [hr.files] at h1
    have h2 : (get s.src x.1).isSome = true := recordedAt_some (Option.isSome_iff_exists.mpr ⟨_, h1⟩)
    have h3 := hsrc.closed x.1 hne h2
    have h4 : get T x.1.dropLast = get s.src x.1.dropLast := by rw [hr.files, recordedAt_dir h3]
    cases h5 : get s.src x.1.dropLast with
    | none => rw [h5] at h3; cases h3
    | some n =>
      rw [h5] at h3
      cases n with
      | dir a => exact ⟨a, (hg _ _).mp (h4.trans h5)⟩
      | _ => cases h3
  · intro x hx n hn hrn
    have h1 := (hg x.1 x.2).mpr hx
    rw [hr.files] at h1
    have h2 : (get s.src x.1).isSome = true := recordedAt_some (Option.isSome_iff_exists.mpr ⟨_, h1⟩)
    rw [hsrc.no_tmp hrn x.1 hn] at h2; cases h2

theorem LooseNode.refl (n : Option (Node A C S)) : LooseNode o n n := by
  cases n with
  | none => trivial
  | some n => cases n <;> simp [LooseNode]

theorem looseNode_dir {m t : Option (Node A C S)} (h1 : isDirNode m = true) (h2 : isDirNode t = true) :
    LooseNode o m t := by
  cases m with
  | none => cases h1
  | some m => cases t with
    | none => cases h2
    | some t => cases m <;> cases t <;> trivial

/-- the mirror after the session is what is to be recorded -/
theorem Before.result (hb : Before o rsv c P T0) (i : List α) :
    LooseNode o (c.result o i) (recordedAt (get T0 i) (c.src i) (c.s.fails i)) := by
  have hc := hb.ok
  have hold : isDirNode (c.src i) = false → LooseNode o (c.mirror i) (get T0 i) := by
    intro h
    rcases hb.loose i with h' | h'
    · exact h'
    · rw [h'.1] at h; cases h
  have hdesc : isDirNode (c.src i) = false → Desc o (get T0 i) (c.dst i) := by
    intro h
    rcases hb.desc i with h' | h'
    · exact h'
    · rw [h'.1] at h; cases h
  unfold Ctx.result
  by_cases ht : i ∈ c.touched o
  · rw [if_pos ht]
    unfold Ctx.fin
    by_cases hf : c.isFast i = true
    · rw [if_pos hf]
      have hf' : isDirNode (c.src i) = false ∧ isDirRec (c.dst i) = false := by
        simpa [Ctx.isFast] using hf
      have hd0 : isDirNode (get T0 i) = false := by rw [← isDirRec_of_desc (hdesc hf'.1)]; exact hf'.2
      cases hpat : c.patch o i with
      | failed =>
        simp only
        cases hs : c.src i with
        | none => simp [Ctx.patch, hs] at hpat
        | some n =>
          have hfail := (patch_cases (o := o) (c := c) (i := i) hf'.1 (by rw [hs]; rfl)).mp hpat
          have : recordedAt (get T0 i) (some n) (c.s.fails i) = get T0 i := by
            simp only [recordedAt]; rw [if_pos ⟨hfail, hd0, by rw [hs] at hf'; exact hf'.1⟩]
          rw [this]; exact hold hf'.1
      | unchanged tf =>
        obtain ⟨a, x, a', sz, a'', y, hs, rfl, hdst, hmi⟩ := patch_unchanged hpat
        have hfail : ¬ c.s.fails i = true := fun h => by
          rw [(patch_cases (o := o) (c := c) (i := i) hf'.1 (by rw [hs]; rfl)).mpr h] at hpat; cases hpat
        have : recordedAt (get T0 i) (c.src i) (c.s.fails i) = some (.reg a x) := by
          rw [hs]; simp only [recordedAt]; rw [if_neg (fun h => hfail h.1)]
        rw [this]
        have hl := hold hf'.1
        have hd := hdesc hf'.1
        rw [hmi] at hl
        cases hT : get T0 i with
        | none => rw [hT] at hl; exact hl.elim
        | some k =>
          rw [hT] at hl hd
          cases k with
          | reg b z =>
            obtain ⟨-, rfl⟩ := hl
            rw [hdst] at hd
            have hsha := hd.2.2 _ rfl
            have := hb.honest i b y a x hT hs (.inr hsha)
            subst this
            rw [hmi]
            exact ⟨rfl, rfl⟩
          | _ => exact hl.elim
      | done tf =>
        cases tf with
        | none =>
          rw [patch_done_none hpat]; exact trivial
        | some tf =>
          obtain ⟨hs, _⟩ := patch_done hpat
          have hfail : ¬ c.s.fails i = true := fun h => by
            rw [(patch_cases (o := o) (c := c) (i := i) hf'.1 (by rw [hs]; rfl)).mpr h] at hpat; cases hpat
          have : recordedAt (get T0 i) (c.src i) (c.s.fails i) = some tf := by
            rw [hs]; simp only [recordedAt]; rw [if_neg (fun h => hfail h.1)]
          rw [this]; exact LooseNode.refl _
    · rw [if_neg hf]
      by_cases hfil : c.isFiller o i = true
      · rw [if_pos hfil]
        obtain ⟨h1, h2⟩ := filler_dirs hc hb.sorted hfil
        rw [recordedAt_dir h1]
        exact looseNode_dir h2 h1
      · rw [if_neg hfil]
        have : recordedAt (get T0 i) (c.src i) (c.s.fails i) = c.src i := by
          cases hs : c.src i with
          | none => rfl
          | some n =>
            simp only [recordedAt]
            rw [if_neg]
            rintro ⟨-, h1, h2⟩
            apply hf
            have hsn : isDirNode (c.src i) = false := by rw [hs]; exact h2
            have : isDirRec (c.dst i) = false := by rw [isDirRec_of_desc (hdesc hsn)]; exact h1
            simp [Ctx.isFast, hsn, this]
        rw [this]; exact LooseNode.refl _
  · rw [if_neg ht]
    have hnc : i ∉ c.changed o := fun h => ht ((hb.sorted.touched.2 i).mpr ⟨i, h, List.prefix_refl _⟩)
    by_cases hex : (c.src i).isSome = true ∨ (c.dst i).isSome = true
    · have hu : changedPair o (c.src i) (c.dst i) = false := by
        by_contra hcon
        exact hnc ((hb.sorted.changed.2 i).mpr ⟨hex, by simpa using hcon⟩)
      obtain ⟨n, h1, h2, h3⟩ := hb.unchanged hu
      by_cases hn : n.isDir = true
      · rw [recordedAt_dir (by rw [h1]; exact hn), h1]
        refine looseNode_dir ?_ hn
        rw [← hc.dst_dir, isDirRec_of_desc h2]; exact hn
      · have h3' : get T0 i = some n := h3.resolve_right hn
        have : recordedAt (get T0 i) (c.src i) (c.s.fails i) = get T0 i := by
          rw [h1, h3']; simp only [recordedAt]; split <;> rfl
        rw [this]
        exact hold (by rw [h1]; simpa [isDirNode] using hn)
    · push Not at hex
      have e1 : c.src i = none := by simpa using hex.1
      have e2 : c.mirror i = none := by
        have := hc.dst_isSome i
        rw [Option.not_isSome_iff_eq_none.mp hex.2] at this
        exact Option.not_isSome_iff_eq_none.mp (by rw [← this]; simp)
      rw [e1, e2]; trivial

theorem before_next {T0 rest L0 mrest} {st : State α A C S H Δ} {s : Sess α A C S H Δ}
    (hs : Static o rsv P T0 rest L0 mrest) (hc : Clean o P T0 L0 mrest st)
    (hv : ValidSess o rsv ((P.t0, T0) :: rest) s) : Before o rsv (nextCtx st s P L0) P T0 :=
  ⟨ctxOK_next hs hc hv, sorted_next hs hv, hv.honest, hv.tree, fun i => .inl (hs.desc0.desc i),
    fun i => .inl (hc.mirror i)⟩

theorem before_first (a : A) {s : Sess α A C S H Δ} (hv : ValidSess o rsv [] s) :
    Before o rsv (firstCtx a s) firstProt [] := by
  have hc := ctxOK_first a hv
  have hd : ∀ i, i ≠ [] → (firstCtx a s).dst i = none := by
    intro i h
    have : ¬ [] = i := fun e => h e.symm
    simp [Ctx.dst, firstCtx, List.find?, this]
  have hm : ∀ i, i ≠ [] → (firstCtx a s).mirror i = none := by
    intro i h
    have : ¬ [] = i := fun e => h e.symm
    simp [Ctx.mirror, firstCtx, get, this]
  refine ⟨hc, sorted_first a hv, hv.honest, hv.tree, ?_, ?_⟩
  · intro i
    by_cases h : i = []
    · subst h; right; exact ⟨hc.src_root, rfl⟩
    · left; rw [hd i h]; trivial
  · intro i
    by_cases h : i = []
    · subst h; right; exact ⟨hc.src_root, rfl⟩
    · left; rw [hm i h]; trivial

end Verif.Repo
