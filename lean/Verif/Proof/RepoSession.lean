import Verif.Proof.RepoFS
import Verif.Proof.Tight
/- What the operations of a backup session do, and what holds at every moment of it. -/
namespace Verif.Repo
open Verif.Collate Verif.FillIn Verif.TreeReducer Verif.MetaChain Verif.NestingSpec
set_option linter.unusedSectionVars false
variable {α A C S H Δ L : Type} [LinearOrder α] [DecidableEq A] [DecidableEq S] [DecidableEq H]

/-- What a session must not destroy: the tree of the last backup (time `t0`), the recorded hashes, the older
increments. -/
structure Prot (α A C S H Δ : Type) where
  t0 : Nat
  old : List α → Option (Node A C S)
  hash : List α → Option H
  incs0 : List α → List (IncFile α A C S Δ)

/-- content of a file at the time of an increment, from the increment (if any) and the file now -/
def resolve1 (o : Ops A C H Δ L) : Option (Inc A C S Δ) → Option (Node A C S) → Option C
  | none, some (.reg _ c) => some c
  | some (.snap (.reg _ c)), _ => some c
  | some (.diff d), some (.reg _ c) => some (o.patch c d)
  | _, _ => none

def incFile (P : Prot α A C S H Δ) (i : List α) : Option (Inc A C S Δ) → List (IncFile α A C S Δ)
  | none => []
  | some y => [⟨i, P.t0, y⟩]

/-- Path `i` can be brought back: at every moment of a session and of a regress. -/
def RI (o : Ops A C H Δ L) (P : Prot α A C S H Δ) (i : List α) (m : Option (Node A C S))
    (incs : List (IncFile α A C S Δ)) : Prop :=
  ∃ x, incs = incFile P i x ++ P.incs0 i ∧
    (∀ a, P.old i = some (.dir a) → isDirNode m = true ∨ x.isSome = true) ∧
    (∀ a s, P.old i = some (.other a s) → (∃ a', m = some (.other a' s) ∧ o.loose a' = o.loose a) ∨ x.isSome = true) ∧
    ∀ a c, P.old i = some (.reg a c) →
      (∀ a' c', m = some (.reg a' c') → o.size c' = o.size c →
        (o.loose a' = o.loose a ∨ o.sha c' = o.sha c) → c' = c) ∧
      ((∃ a', m = some (.reg a' c) ∧ o.loose a' = o.loose a) ∨
       (P.hash i = some (o.sha c) ∧ ∃ a', m = some (.reg a' c)) ∨
       resolve1 o x m = some c)

/-- Path `i` is properly incremented: after a session. -/
def RF (o : Ops A C H Δ L) (P : Prot α A C S H Δ) (i : List α) (m : Option (Node A C S))
    (incs : List (IncFile α A C S Δ)) : Prop :=
  ∃ x, incs = incFile P i x ++ P.incs0 i ∧
    ∀ a c, P.old i = some (.reg a c) → resolve1 o x m = some c

/-- holds at every moment while the files are processed -/
structure BI (o : Ops A C H Δ L) (P : Prot α A C S H Δ) (M : Dir (List α) (MRec A S H)) (K : List Nat)
    (st : State α A C S H Δ) : Prop where
  wf : FsWF st
  ri : ∀ j, RI o P j (get st.mirror j) (incsAt st j)
  metas : st.metas = M
  marks : st.marks = K

variable {o : Ops A C H Δ L} {P : Prot α A C S H Δ} {M : Dir (List α) (MRec A S H)} {K : List Nat}
  {st st' : State α A C S H Δ} {stamp : A} {s : Step α A C S H Δ}

theorem RI_dir {i : List α} {a b : A} {l} (h : RI o P i (some (.dir a)) l) : RI o P i (some (.dir b)) l := by
  obtain ⟨x, h1, h2, h2', h3⟩ := h
  refine ⟨x, h1, fun _ _ => .inl rfl, fun a' s' hs => (h2' a' s' hs).imp (by simp) id, ?_⟩
  intro a' c hc
  obtain ⟨h4, h5⟩ := h3 a' c hc
  refine ⟨by simp, .inr (.inr ?_)⟩
  rcases h5 with ⟨_, h, _⟩ | ⟨_, _, h⟩ | h
  · cases h
  · cases h
  · cases x with
    | none => simp [resolve1] at h
    | some x => cases x with
      | snap n => cases n <;> simp_all [resolve1]
      | _ => simp [resolve1] at h

theorem RI_free {i : List α} {m m' : Option (Node A C S)} {l} (hn : P.old i = none) (h : RI o P i m l) :
    RI o P i m' l := by
  obtain ⟨x, h1, -⟩ := h
  exact ⟨x, h1, by simp [hn], by simp [hn], by simp [hn]⟩

theorem incsAt_congr (h : st'.incs = st.incs) (j : List α) : incsAt st' j = incsAt st j := by
  simp [incsAt, h]

theorem RI_parent {j : List α} {l} (h : RI o P j (get st.mirror j) l)
    (h1 : isDirAt st.mirror j = true) (h2 : isDirAt st'.mirror j = true) :
    RI o P j (get st'.mirror j) l := by
  obtain ⟨a, ha⟩ := (isDirAt_iff _ _).mp h1
  obtain ⟨b, hb⟩ := (isDirAt_iff _ _).mp h2
  rw [hb]; rw [ha] at h; exact RI_dir h

theorem BI.eff (hB : BI o P M K st) {i p : List α} {v : Option (Node A C S)}
    (ha : apply stamp s st = some st') (he : Eff st st' i p v)
    (hp : isDirAt st.mirror p = true) (hne : p ≠ i) (hR : RI o P i v (incsAt st i)) : BI o P M K st' := by
  refine ⟨apply_fsWF ha hB.wf, ?_, he.metas.trans hB.metas, he.marks.trans hB.marks⟩
  intro j
  rw [incsAt_congr he.incs]
  by_cases hj : j = i
  · subst hj; rw [he.at_i]; exact hR
  · by_cases hjp : j = p
    · subst hjp; exact RI_parent (hB.ri j) hp he.parent
    · rw [he.frame j hj hjp]; exact hB.ri j

/-- `st'` differs from `st` at most at the paths in `X`, and in the attributes of directory `d` -/
structure Fr (st st' : State α A C S H Δ) (X : List α → Prop) (d : List α) : Prop where
  mirror : ∀ j, ¬ X j → j ≠ d → get st'.mirror j = get st.mirror j
  incs : ∀ j, ¬ X j → incsAt st' j = incsAt st j
  incdirs : ∀ j, ¬ X j → (j ∈ st'.incdirs ↔ j ∈ st.incdirs)
  dir : isDirAt st'.mirror d = true
  incmono : ∀ j, j ∈ st.incdirs → j ∈ st'.incdirs

theorem Fr.trans {st₁ st₂ st₃ : State α A C S H Δ} {X Y : List α → Prop} {d : List α}
    (h : Fr st₁ st₂ X d) (h' : Fr st₂ st₃ Y d) : Fr st₁ st₃ (fun j => X j ∨ Y j) d := by
  constructor
  · intro j hj hd
    rw [h'.mirror j (fun hy => hj (.inr hy)) hd, h.mirror j (fun hy => hj (.inl hy)) hd]
  · intro j hj
    rw [h'.incs j (fun hy => hj (.inr hy)), h.incs j (fun hy => hj (.inl hy))]
  · intro j hj
    rw [h'.incdirs j (fun hy => hj (.inr hy)), h.incdirs j (fun hy => hj (.inl hy))]
  · exact h'.dir
  · exact fun j hj => h'.incmono j (h.incmono j hj)

theorem Fr.mono {st₁ st₂ : State α A C S H Δ} {X Y : List α → Prop} {d : List α}
    (h : Fr st₁ st₂ X d) (hxy : ∀ j, X j → Y j) : Fr st₁ st₂ Y d :=
  ⟨fun j hj => h.mirror j (fun hx => hj (hxy j hx)), fun j hj => h.incs j (fun hx => hj (hxy j hx)),
   fun j hj => h.incdirs j (fun hx => hj (hxy j hx)), h.dir, h.incmono⟩

theorem Eff.fr {i p : List α} {v} (h : Eff st st' i p v) : Fr st st' (· = i) p :=
  ⟨fun j hj hd => h.frame j hj hd, fun j _ => incsAt_congr h.incs j, fun j _ => by rw [h.incdirs], h.parent,
    fun j hj => by rw [h.incdirs]; exact hj⟩

/-! ### What a session relies on -/

/-- the recorded metadata describes what is in the mirror, up to attributes -/
def Agrees (o : Ops A C H Δ L) : Option (MRec A S H) → Option (Node A C S) → Prop
  | none, none => True
  | some (.dir _), some (.dir _) => True
  | some (.reg _ sz h), some (.reg _ x) => o.size x = sz ∧ ∀ h', h = some h' → h' = o.sha x
  | some (.other _ s), some (.other _ s') => s = s'
  | _, _ => False

structure CtxOK (o : Ops A C H Δ L) (c : Ctx α A C S H Δ) (P : Prot α A C S H Δ) : Prop where
  src_root : isDirNode (c.src []) = true
  src_closed : ∀ i, i ≠ [] → (c.src i).isSome = true → isDirNode (c.src i.dropLast) = true
  src_tmp : ∀ i, c.s.tmp ∈ i → c.src i = none
  mir_tmp : ∀ i, c.s.tmp ∈ i → c.mirror i = none
  wf : FsWF c.st
  kind : ∀ i, Agrees o (c.dst i) (c.mirror i)
  prot : ∀ i a x, P.old i = some (.reg a x) → ∃ a', c.mirror i = some (.reg a' x) ∧ o.loose a' = o.loose a
  prot_dir : ∀ i a, P.old i = some (.dir a) → isDirNode (c.mirror i) = true
  prot_other : ∀ i a x, P.old i = some (.other a x) → ∃ a', c.mirror i = some (.other a' x) ∧ o.loose a' = o.loose a
  hash : ∀ i a x a' sz h, P.old i = some (.reg a x) → c.dst i = some (.reg a' sz h) → P.hash i = h
  honest : ∀ i a x a' x', P.old i = some (.reg a x) → c.src i = some (.reg a' x') → o.size x' = o.size x →
    (o.loose a' = o.loose a ∨ o.sha x' = o.sha x) → x' = x
  prev : ∀ t, c.prev = some t → P.t0 = t ∧ ∀ f ∈ c.st.incs, f.time ≠ t
  noprev : c.prev = none → ∀ i, P.old i = none
  incs0 : ∀ i, P.incs0 i = incsAt c.st i

variable {c : Ctx α A C S H Δ}

/-- as long as a path is untouched, any increment may be there -/
theorem CtxOK.ri_mirror (h : CtxOK o c P) (i : List α) (x : Option (Inc A C S Δ)) :
    RI o P i (c.mirror i) (incFile P i x ++ P.incs0 i) := by
  refine ⟨x, rfl, fun a hs => .inl (h.prot_dir i a hs), fun a s hs => .inl (h.prot_other i a s hs), ?_⟩
  intro a y hy
  obtain ⟨a', ha', hl⟩ := h.prot i a y hy
  refine ⟨?_, .inl ⟨a', ha', hl⟩⟩
  intro b z hz
  rw [ha'] at hz; cases hz; intros; rfl

theorem CtxOK.prot_some (h : CtxOK o c P) (i : List α) (hi : (P.old i).isSome = true) :
    (c.mirror i).isSome = true := by
  cases ho : P.old i with
  | none => rw [ho] at hi; cases hi
  | some n =>
    cases n with
    | dir a =>
      have := h.prot_dir i a ho
      cases hm : c.mirror i with
      | none => rw [hm] at this; cases this
      | some _ => rfl
    | reg a x => obtain ⟨a', h1, _⟩ := h.prot i a x ho; rw [h1]; rfl
    | other a x => obtain ⟨a', h1, _⟩ := h.prot_other i a x ho; rw [h1]; rfl

theorem CtxOK.old_tmp (h : CtxOK o c P) {i : List α} (ht : c.s.tmp ∈ i) : P.old i = none := by
  by_contra hc
  have := h.prot_some i (by simpa [Option.isSome_iff_ne_none] using hc)
  rw [h.mir_tmp i ht] at this; simp at this

/-- the state of a path that has not been processed yet -/
structure At (c : Ctx α A C S H Δ) (st : State α A C S H Δ) (i : List α) : Prop where
  mirror : get st.mirror i = c.mirror i
  incs : incsAt st i = incsAt c.st i
  incdirs : i ∈ st.incdirs ↔ i ∈ c.st.incdirs

/-- the increment made for path `i` -/
def Ctx.incOf (o : Ops A C H Δ L) (c : Ctx α A C S H Δ) (i : List α) (newReg : Bool) : Option (Inc A C S Δ) :=
  match c.prev with
  | none => none
  | some _ =>
    match c.mirror i with
    | none => some .missing
    | some (.dir _) => some .dir
    | some (.reg a old) =>
      if newReg then
        match c.patch o i with
        | .done (some (.reg _ new)) => some (.diff (o.delta new old))
        | _ => none
      else some (.snap (.reg a old))
    | some (.other a s) => some (.snap (.other a s))

theorem incsAt_cons (f : IncFile α A C S Δ) (j : List α) :
    incsAt { st with incs := f :: st.incs } j = if f.idx = j then f :: incsAt st j else incsAt st j := by
  by_cases h : f.idx = j <;> simp [incsAt, h]

theorem incsAt_fill (f : IncFile α A C S Δ) (j : List α) :
    incsAt { st with incs := st.incs.map (fun g => if g.idx = f.idx ∧ g.time = f.time then f else g) } j =
      (incsAt st j).map (fun g => if g.idx = f.idx ∧ g.time = f.time then f else g) := by
  have : ∀ l : List (IncFile α A C S Δ), (l.map (fun g => if g.idx = f.idx ∧ g.time = f.time then f else g)).filter
      (fun g => g.idx = j) = (l.filter (fun g => g.idx = j)).map
        (fun g => if g.idx = f.idx ∧ g.time = f.time then f else g) := by
    intro l
    induction l with
    | nil => rfl
    | cons g l ih =>
      rw [List.map_cons, List.filter_cons, List.filter_cons, ih]
      have e : (if g.idx = f.idx ∧ g.time = f.time then f else g).idx = g.idx := by
        split
        · next h => exact h.1.symm
        · rfl
      rw [e]
      split <;> simp
  exact this st.incs

/-- running `newInc` -/
theorem newInc_safe (hB : BI o P M K st) {i : List α} {y : Inc A C S Δ} {ss : List (Step α A C S H Δ)}
    {Q : State α A C S H Δ → Prop}
    (hp : i = [] ∨ i.dropLast ∈ st.incdirs) (hno : ∀ g ∈ incsAt st i, g.time ≠ P.t0)
    (hR : RI o P i (get st.mirror i) (⟨i, P.t0, y⟩ :: incsAt st i))
    (hk : ∀ st', BI o P M K st' → st'.mirror = st.mirror → st'.incdirs = st.incdirs →
      (∀ j, j ≠ i → incsAt st' j = incsAt st j) → incsAt st' i = ⟨i, P.t0, y⟩ :: incsAt st i →
      Safe stamp (BI o P M K) ss st' Q) :
    Safe stamp (BI o P M K) (.newInc ⟨i, P.t0, y⟩ :: ss) st Q := by
  have ha : apply stamp (.newInc ⟨i, P.t0, y⟩) st = some { st with incs := ⟨i, P.t0, y⟩ :: st.incs } := by
    rw [apply, if_pos]
    refine ⟨hp, ?_⟩
    rintro g hg ⟨h1, h2⟩
    exact hno g (by simp only [incsAt, List.mem_filter]; exact ⟨hg, by simpa using h1⟩) h2
  have hi : ∀ j, j ≠ i → incsAt { st with incs := ⟨i, P.t0, y⟩ :: st.incs } j = incsAt st j := by
    intro j hj; rw [incsAt_cons, if_neg (fun h => hj h.symm)]
  have hii : incsAt { st with incs := ⟨i, P.t0, y⟩ :: st.incs } i = ⟨i, P.t0, y⟩ :: incsAt st i := by
    rw [incsAt_cons, if_pos rfl]
  refine .cons hB ha (hk _ ⟨apply_fsWF ha hB.wf, ?_, hB.metas, hB.marks⟩ rfl rfl hi hii)
  intro j
  by_cases hj : j = i
  · subst hj; rw [hii]; exact hR
  · rw [hi j hj]; exact hB.ri j

/-- running `fillInc` on an increment just begun -/
theorem fillInc_safe (hB : BI o P M K st) {i : List α} {y z : Inc A C S Δ} {l : List (IncFile α A C S Δ)}
    {ss : List (Step α A C S H Δ)} {Q : State α A C S H Δ → Prop}
    (hl : incsAt st i = ⟨i, P.t0, z⟩ :: l) (hno : ∀ g ∈ l, g.time ≠ P.t0)
    (hR : RI o P i (get st.mirror i) (⟨i, P.t0, y⟩ :: l))
    (hk : ∀ st', BI o P M K st' → st'.mirror = st.mirror → st'.incdirs = st.incdirs →
      (∀ j, j ≠ i → incsAt st' j = incsAt st j) → incsAt st' i = ⟨i, P.t0, y⟩ :: l →
      Safe stamp (BI o P M K) ss st' Q) :
    Safe stamp (BI o P M K) (.fillInc ⟨i, P.t0, y⟩ :: ss) st Q := by
  have ha : apply stamp (.fillInc ⟨i, P.t0, y⟩) st = some { st with incs := st.incs.map (fun g =>
    if g.idx = i ∧ g.time = P.t0 then ⟨i, P.t0, y⟩ else g) } := rfl
  have hi : ∀ j, j ≠ i → incsAt { st with incs := st.incs.map (fun g =>
      if g.idx = i ∧ g.time = P.t0 then ⟨i, P.t0, y⟩ else g) } j = incsAt st j := by
    intro j hj
    have := incsAt_fill (st := st) ⟨i, P.t0, y⟩ j
    simp only at this
    rw [this]
    conv_rhs => rw [← List.map_id (incsAt st j)]
    apply List.map_congr_left
    intro g hg
    simp only [incsAt, List.mem_filter] at hg
    have : g.idx = j := by simpa using hg.2
    rw [if_neg]; · rfl
    rintro ⟨h1, _⟩; exact hj (this.symm.trans h1)
  have hii : incsAt { st with incs := st.incs.map (fun g =>
      if g.idx = i ∧ g.time = P.t0 then ⟨i, P.t0, y⟩ else g) } i = ⟨i, P.t0, y⟩ :: l := by
    have := incsAt_fill (st := st) ⟨i, P.t0, y⟩ i
    simp only at this
    rw [this, hl]
    simp only [List.map_cons, and_self, if_true]
    congr 1
    conv_rhs => rw [← List.map_id l]
    apply List.map_congr_left
    intro g hg
    rw [if_neg]; · rfl
    rintro ⟨_, h2⟩; exact hno g hg h2
  refine .cons hB ha (hk _ ⟨apply_fsWF ha hB.wf, ?_, hB.metas, hB.marks⟩ rfl rfl hi hii)
  intro j
  by_cases hj : j = i
  · subst hj; rw [hii]; exact hR
  · rw [hi j hj]; exact hB.ri j

end Verif.Repo
