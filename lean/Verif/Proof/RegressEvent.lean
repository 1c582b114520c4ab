import Verif.Proof.RepoRestore
import Verif.Model.Regress
/- What the operations of a regress do to one path. -/
namespace Verif.Repo
open Verif.Collate Verif.FillIn Verif.TreeReducer Verif.MetaChain Verif.JoinSpec Verif.NestingSpec
set_option linter.unusedSectionVars false
variable {α A C S H Δ L : Type} [LinearOrder α] [DecidableEq A] [DecidableEq S] [DecidableEq H] [DecidableEq L]
variable {o : Ops A C H Δ L} {rsv : α → Prop} {P : Prot α A C S H Δ} {st st' : State α A C S H Δ}
  {T0 : Files α (Node A C S)} {c : RCtx α A C S H Δ} {M : Dir (List α) (MRec A S H)} {K : List Nat} {stamp : A}

/-- what a regress relies on -/
structure RegOK (o : Ops A C H Δ L) (rsv : α → Prop) (c : RCtx α A C S H Δ) (P : Prot α A C S H Δ)
    (T0 : Files α (Node A C S)) : Prop where
  wf : FsWF c.st
  ri : ∀ j, RI o P j (c.mirror j) (incsAt c.st j)
  good : c.good = P.t0
  bad : P.t0 < c.bad
  old : ∀ i, P.old i = get T0 i
  tree : IsTree rsv T0
  desc : ∀ i, Desc o (get T0 i) (c.rorp i)
  hash : ∀ i, P.hash i = hashOf (c.rorp i)
  incs0 : ∀ i, ∀ f ∈ P.incs0 i, f.idx = i ∧ f.time < P.t0
  rsv : rsv c.r.tmp
  tmp : ∀ i, c.r.tmp ∈ i → c.mirror i = none
  stamp : ∀ i a x, get T0 i = some (.reg a x) → o.loose c.r.stamp ≠ o.loose a
  junk : ∀ i a x, get T0 i = some (.reg a x) → o.sha (c.r.junk i) = o.sha x → c.r.junk i = x

/-- no temporary file -/
def TmpFree (c : RCtx α A C S H Δ) (st : State α A C S H Δ) : Prop := ∀ j, c.r.tmp ∈ j → get st.mirror j = none

/-- equal, or both directories -/
def Same (m m' : Option (Node A C S)) : Prop := m = m' ∨ (isDirNode m = true ∧ isDirNode m' = true)

theorem Same.refl (m : Option (Node A C S)) : Same m m := .inl rfl

theorem Same.trans {a b d : Option (Node A C S)} (h : Same a b) (h' : Same b d) : Same a d := by
  rcases h with rfl | h
  · exact h'
  · rcases h' with rfl | h'
    · exact .inr h
    · exact .inr ⟨h.1, h'.2⟩

theorem Same.dir {a b : Option (Node A C S)} (h : Same a b) : isDirNode a = isDirNode b := by
  rcases h with rfl | h
  · rfl
  · rw [h.1, h.2]

theorem Same.eq {a b : Option (Node A C S)} (h : Same a b) (hd : isDirNode b = false) : a = b := by
  rcases h with rfl | h
  · rfl
  · rw [h.2] at hd; cases hd

theorem Same.loose {a b t : Option (Node A C S)} (h : Same a b) (hl : LooseNode o b t) : LooseNode o a t := by
  rcases h with rfl | ⟨h1, h2⟩
  · exact hl
  · cases b with
    | none => cases h2
    | some b =>
      cases b with
      | dir x =>
        cases a with
        | none => cases h1
        | some a =>
          cases a with
          | dir y => cases t with
            | none => exact hl
            | some t => cases t <;> exact hl
          | _ => cases h1
      | _ => cases h2

/-- only the paths in `X` are changed, besides attributes of directories -/
structure Frm (st st' : State α A C S H Δ) (X : List α → Prop) : Prop where
  mirror : ∀ j, ¬ X j → Same (get st'.mirror j) (get st.mirror j)
  incs : ∀ j, ¬ X j → incsAt st' j = incsAt st j

theorem Frm.refl (st : State α A C S H Δ) (X : List α → Prop) : Frm st st X :=
  ⟨fun _ _ => .refl _, fun _ _ => rfl⟩

theorem Frm.trans {st₁ st₂ st₃ : State α A C S H Δ} {X Y : List α → Prop} (h : Frm st₁ st₂ X) (h' : Frm st₂ st₃ Y) :
    Frm st₁ st₃ (fun j => X j ∨ Y j) :=
  ⟨fun j hj => (h'.mirror j (fun hy => hj (.inr hy))).trans (h.mirror j (fun hx => hj (.inl hx))),
   fun j hj => (h'.incs j (fun hy => hj (.inr hy))).trans (h.incs j (fun hx => hj (.inl hx)))⟩

theorem Frm.mono {X Y : List α → Prop} (h : Frm st st' X) (hxy : ∀ j, X j → Y j) : Frm st st' Y :=
  ⟨fun j hj => h.mirror j (fun hx => hj (hxy j hx)), fun j hj => h.incs j (fun hx => hj (hxy j hx))⟩

theorem isDirNode_get (m : Files α (Node A C S)) (i : List α) : isDirNode (get m i) = isDirAt m i := by
  unfold isDirAt isDirNode
  cases get m i with
  | none => rfl
  | some x => cases x <;> rfl

theorem Eff.frm {i p : List α} {v} (he : Eff st st' i p v) (hp : isDirAt st.mirror p = true) :
    Frm st st' (· = i) := by
  constructor
  · intro j hj
    by_cases hjp : j = p
    · subst hjp; right; rw [isDirNode_get, isDirNode_get]; exact ⟨he.parent, hp⟩
    · left; exact he.frame j hj hjp
  · intro j _; exact incsAt_congr he.incs j

/-- the state of a path before it is processed, while its contents are processed, and after that -/
structure Fresh (c : RCtx α A C S H Δ) (st : State α A C S H Δ) (i : List α) : Prop where
  mirror : Same (get st.mirror i) (c.mirror i)
  incs : incsAt st i = incsAt c.st i

structure Done (o : Ops A C H Δ L) (P : Prot α A C S H Δ) (T0 : Files α (Node A C S)) (st : State α A C S H Δ)
    (i : List α) : Prop where
  mirror : LooseNode o (get st.mirror i) (get T0 i)
  incs : incsAt st i = P.incs0 i

/-- what `RI` says about a path, for a given increment -/
def RIx (o : Ops A C H Δ L) (P : Prot α A C S H Δ) (i : List α) (m : Option (Node A C S)) (x : Option (Inc A C S Δ)) :
    Prop :=
  (∀ a, P.old i = some (.dir a) → isDirNode m = true ∨ x.isSome = true) ∧
    (∀ a s, P.old i = some (.other a s) → (∃ a', m = some (.other a' s) ∧ o.loose a' = o.loose a) ∨ x.isSome = true) ∧
    ∀ a c, P.old i = some (.reg a c) →
      (∀ a' c', m = some (.reg a' c') → o.size c' = o.size c →
        (o.loose a' = o.loose a ∨ o.sha c' = o.sha c) → c' = c) ∧
      ((∃ a', m = some (.reg a' c) ∧ o.loose a' = o.loose a) ∨
       (P.hash i = some (o.sha c) ∧ ∃ a', m = some (.reg a' c)) ∨
       resolve1 o x m = some c)

theorem RIx.ri {i m x} (h : RIx o P i m x) : RI o P i m (incFile P i x ++ P.incs0 i) := ⟨x, rfl, h⟩

theorem RIx.loose {i : List α} {m : Option (Node A C S)} {x} (h : LooseNode o m (P.old i)) : RIx o P i m x := by
  refine ⟨?_, ?_, ?_⟩
  · intro a ha; rw [ha] at h
    left
    cases m with
    | none => exact h.elim
    | some m => cases m <;> first | exact h.elim | rfl
  · intro a s ha; rw [ha] at h
    left
    cases m with
    | none => exact h.elim
    | some m => cases m <;> first | exact h.elim | (obtain ⟨h1, rfl⟩ := h; exact ⟨_, rfl, h1⟩)
  · intro a y ha; rw [ha] at h
    cases m with
    | none => exact h.elim
    | some m =>
      cases m with
      | reg b z =>
        obtain ⟨h1, rfl⟩ := h
        exact ⟨by intro a' c' hc; cases hc; intros; rfl, .inl ⟨b, rfl, h1⟩⟩
      | _ => exact h.elim

theorem delInc_safe (hc : RegOK o rsv c P T0) (hB : BI o P M K st) {i : List α}
    (hi : incsAt st i = incsAt c.st i) (hl : LooseNode o (get st.mirror i) (get T0 i)) :
    Safe stamp (BI o P M K) (c.delSteps i) st
      (fun st' => Done o P T0 st' i ∧ st'.mirror = st.mirror ∧ ∀ j, j ≠ i → incsAt st' j = incsAt st j) := by
  obtain ⟨x, hx, -⟩ := hc.ri i
  have hnew : c.newer i = incFile P i x := by
    unfold RCtx.newer
    rw [show c.st.incs.filter (fun f => decide (f.idx = i)) = incsAt c.st i from rfl, hx, hc.good]
    have h0 : newerIncs (P.incs0 i) P.t0 = [] := newerIncs_nil (fun f hf => (hc.incs0 i f hf).2)
    cases x with
    | none => simpa [incFile] using h0
    | some y =>
      rw [incFile, List.singleton_append, newerIncs_cons (fun f hf => (hc.incs0 i f hf).2) (le_refl _), h0]
      rfl
  unfold RCtx.delSteps
  rw [hnew]
  cases x with
  | none =>
    simp only [incFile]
    refine ⟨hB, ⟨hl, ?_⟩, rfl, fun _ _ => rfl⟩
    rw [hi, hx]; rfl
  | some y =>
    simp only [incFile]
    have hat : ∀ j, incsAt { st with incs := st.incs.filter (fun g => ¬ (g.idx = i ∧ g.time = P.t0)) } j =
        (incsAt st j).filter (fun g => ¬ (g.idx = i ∧ g.time = P.t0)) := by
      intro j
      simp only [incsAt, List.filter_filter]
      apply List.filter_congr
      intro f _; exact Bool.and_comm _ _
    have hati : incsAt { st with incs := st.incs.filter (fun g => ¬ (g.idx = i ∧ g.time = P.t0)) } i = P.incs0 i := by
      rw [hat, hi, hx]
      simp only [incFile, List.singleton_append]
      rw [List.filter_cons, if_neg (by simp), List.filter_eq_self]
      intro f hf
      have := (hc.incs0 i f hf).2
      simp; omega
    have hato : ∀ j, j ≠ i → incsAt { st with incs := st.incs.filter (fun g => ¬ (g.idx = i ∧ g.time = P.t0)) } j =
        incsAt st j := by
      intro j hj
      rw [hat, List.filter_eq_self]
      intro f hf
      have : f.idx = j := by simpa [incsAt] using (List.mem_filter.mp hf).2
      rw [this]; simp [hj]
    have ha : apply stamp (.delInc i P.t0) st = some { st with incs := st.incs.filter (fun g => ¬ (g.idx = i ∧ g.time = P.t0)) } := rfl
    refine .cons hB ha ⟨⟨apply_fsWF ha hB.wf, ?_, hB.metas, hB.marks⟩, ⟨hl, hati⟩, rfl, hato⟩
    intro j
    by_cases hj : j = i
    · subst hj
      rw [hati]
      exact (RIx.loose (x := none) (by rw [hc.old]; exact hl)).ri
    · rw [hato j hj]; exact hB.ri j

/-- the content found for a regular file to be restored -/
theorem RegOK.content (hc : RegOK o rsv c P T0) {i : List α} {x} (hx : incsAt c.st i = incFile P i x ++ P.incs0 i) {y : C}
    (h : resolve1 o x (c.mirror i) = some y) : c.content o i = y := by
  unfold RCtx.content
  have hlt : ∀ f ∈ incsAt c.st i, f.time < c.bad := by
    intro f hf
    rw [hx] at hf
    have hb := hc.bad
    rcases List.mem_append.mp hf with hf | hf
    · cases x with
      | none => cases hf
      | some z => simp [incFile] at hf; subst hf; exact hb
    · have := (hc.incs0 i f hf).2; omega
  rw [show c.st.incs.filter (fun f => decide (f.idx = i)) = incsAt c.st i from rfl, restoreFp_eq hlt, hx,
    newerIncs_incFile (fun f hf => (hc.incs0 i f hf).2) (by rw [hc.good])]
  have h0 : newerIncs (P.incs0 i) c.good = [] := newerIncs_nil (fun f hf => by rw [hc.good]; exact (hc.incs0 i f hf).2)
  rw [h0, List.map_nil, List.nil_append, resolve1_eq, h]
  rfl

theorem RegOK.old_tmp (hc : RegOK o rsv c P T0) {i : List α} (hi : c.r.tmp ∈ i) : P.old i = none := by
  rw [hc.old]; exact hc.tree.no_tmp hc.rsv i hi

/-- nothing below a path -/
def NoneBelow (st : State α A C S H Δ) (i : List α) : Prop := ∀ j, i <+: j → j ≠ i → get st.mirror j = none

/-- removing what is there, if anything -/
theorem clear_safe (hB : BI o P M K st) {d : List α} {n : α} {b : Bool} {ss : List (Step α A C S H Δ)} {Q}
    (hd : isDirAt st.mirror d = true) (hnb : NoneBelow st (d ++ [n]))
    (hb : b = (get st.mirror (d ++ [n])).isSome)
    (hR : RI o P (d ++ [n]) none (incsAt st (d ++ [n])))
    (hk : ∀ st', BI o P M K st' → get st'.mirror (d ++ [n]) = none → isDirAt st'.mirror d = true →
      Frm st st' (· = d ++ [n]) → incsAt st' (d ++ [n]) = incsAt st (d ++ [n]) → Safe stamp (BI o P M K) ss st' Q) :
    Safe stamp (BI o P M K) ((if b then [.delete (d ++ [n])] else []) ++ ss) st Q := by
  by_cases h : b = true
  · rw [if_pos h, List.singleton_append]
    have hde : (d ++ [n]).dropLast = d := by simp
    refine eff_safe hB (i := d ++ [n]) (p := d) (v := none) ?_ hd (concat_ne d _) hR ?_
    · have := apply_delete_leaf stamp st (d ++ [n]) (by simp) (by rw [hde]; exact hd) (by rw [← hb]; exact h) hnb
      rwa [hde] at this
    · intro st₁ hB₁ he
      exact hk st₁ hB₁ he.at_i he.parent (he.frm hd) (incsAt_congr he.incs _)
  · rw [if_neg h, List.nil_append]
    refine hk st hB ?_ hd (.refl _ _) rfl
    rw [hb] at h
    simpa using h

theorem write_safe (hB : BI o P M K st) {d : List α} {n : α} {x : Node A C S} {ss : List (Step α A C S H Δ)} {Q}
    (hd : isDirAt st.mirror d = true) (hnd : isDirAt st.mirror (d ++ [n]) = false) (hx : x.isDir = false)
    (hR : RI o P (d ++ [n]) (some x) (incsAt st (d ++ [n])))
    (hk : ∀ st', BI o P M K st' → get st'.mirror (d ++ [n]) = some x → isDirAt st'.mirror d = true →
      Frm st st' (· = d ++ [n]) → incsAt st' (d ++ [n]) = incsAt st (d ++ [n]) → Safe stamp (BI o P M K) ss st' Q) :
    Safe stamp (BI o P M K) (.write (d ++ [n]) x :: ss) st Q := by
  have hde : (d ++ [n]).dropLast = d := by simp
  refine eff_safe hB (i := d ++ [n]) (p := d) (v := some x) ?_ hd (concat_ne d _) hR ?_
  · have := apply_write stamp st (d ++ [n]) x (by simp) (by rw [hde]; exact hd) hnd hx
    rwa [hde] at this
  · intro st₁ hB₁ he
    exact hk st₁ hB₁ he.at_i he.parent (he.frm hd) (incsAt_congr he.incs _)

theorem setattr_safe (hB : BI o P M K st) {d : List α} {n : α} {x : Node A C S} {a : A} {ss : List (Step α A C S H Δ)} {Q}
    (hd : isDirAt st.mirror d = true) (hg : get st.mirror (d ++ [n]) = some x)
    (hR : RI o P (d ++ [n]) (some (x.setAttr a)) (incsAt st (d ++ [n])))
    (hk : ∀ st', BI o P M K st' → get st'.mirror (d ++ [n]) = some (x.setAttr a) → isDirAt st'.mirror d = true →
      Frm st st' (· = d ++ [n]) → incsAt st' (d ++ [n]) = incsAt st (d ++ [n]) → Safe stamp (BI o P M K) ss st' Q) :
    Safe stamp (BI o P M K) (.chattr (d ++ [n]) a :: ss) st Q := by
  refine chattr_safe hB hg hR ?_
  intro st₁ hB₁ h1 h2 h3 h4
  refine hk st₁ hB₁ h2 ?_ ⟨fun j hj => .inl (h1 j hj), fun j _ => incsAt_congr h3 j⟩ (incsAt_congr h3 _)
  rw [isDirAt_of_get (h1 d (concat_ne d n))]; exact hd

theorem notDir_of_some {m : Files α (Node A C S)} {i : List α} {x : Node A C S} (h : get m i = some x)
    (hx : x.isDir = false) : isDirAt m i = false := by
  rw [← isDirNode_get, h]; exact hx

theorem notDir_of_none {m : Files α (Node A C S)} {i : List α} (h : get m i = none) : isDirAt m i = false := by
  rw [← isDirNode_get, h]; rfl

/-- how a path looks when it is rewritten -/
structure Ready (c : RCtx α A C S H Δ) (st : State α A C S H Δ) (d : List α) (n : α) : Prop where
  parent : isDirAt st.mirror d = true
  mirror : Same (get st.mirror (d ++ [n])) (c.mirror (d ++ [n]))
  below : NoneBelow st (d ++ [n])
  incs : incsAt st (d ++ [n]) = incsAt c.st (d ++ [n])
  tmp : TmpFree c st

theorem Ready.isSome {d n} (h : Ready c st d n) : (c.mirror (d ++ [n])).isSome = (get st.mirror (d ++ [n])).isSome := by
  rcases h.mirror with h' | ⟨h1, h2⟩
  · rw [h']
  · cases h3 : c.mirror (d ++ [n]) with
    | none => rw [h3] at h2; cases h2
    | some _ =>
      cases h4 : get st.mirror (d ++ [n]) with
      | none => rw [h4] at h1; cases h1
      | some _ => rfl

theorem tmpFree_frm {d : List α} {n : α} (h : TmpFree c st) (hf : Frm st st' (· = d ++ [n])) (hn : c.r.tmp ∉ d ++ [n]) :
    TmpFree c st' := by
  intro j hj
  have := hf.mirror j (by rintro rfl; exact hn hj)
  rw [h j hj] at this
  exact this.eq rfl

/-- result of rewriting a path -/
structure Rewritten (c : RCtx α A C S H Δ) (st st' : State α A C S H Δ) (i : List α)
    (v : Option (Node A C S)) : Prop where
  mirror : get st'.mirror i = v
  incs : incsAt st' i = incsAt st i
  frm : Frm st st' (· = i)
  tmp : TmpFree c st'

theorem regfile_safe (hc : RegOK o rsv c P T0) (hB : BI o P M K st) {d : List α} {n : α} (hr : Ready c st d n)
    {a : A} {y : C} {sz : Nat} {h : Option H} (hT : get T0 (d ++ [n]) = some (.reg a y))
    (hrec : c.rorp (d ++ [n]) = some (.reg a sz h))
    (hne : looseEq o (c.rorp (d ++ [n])) (c.mirror (d ++ [n])) = false) :
    Safe stamp (BI o P M K) (c.regfileSteps o (d ++ [n]) a sz h) st
      (fun st' => Rewritten c st st' (d ++ [n]) (some (.reg a y))) := by
  obtain ⟨x, hx, -, -, hreg⟩ := hc.ri (d ++ [n])
  have hold : P.old (d ++ [n]) = some (.reg a y) := by rw [hc.old]; exact hT
  obtain ⟨hid, halt⟩ := hreg a y hold
  have hdesc := hc.desc (d ++ [n])
  rw [hT, hrec] at hdesc
  obtain ⟨-, hsz, hsha⟩ := hdesc
  have hhash : P.hash (d ++ [n]) = h := by rw [hc.hash, hrec]; rfl
  have hincs : incsAt st (d ++ [n]) = incFile P (d ++ [n]) x ++ P.incs0 (d ++ [n]) := by rw [hr.incs, hx]
  have hfin : ∀ x, RI o P (d ++ [n]) (some (.reg a y)) (incFile P (d ++ [n]) x ++ P.incs0 (d ++ [n])) := by
    intro x
    exact (RIx.loose (by rw [hold]; exact ⟨rfl, rfl⟩)).ri
  have hntmp : c.r.tmp ∉ d ++ [n] := by
    intro ht
    rw [hc.tree.no_tmp hc.rsv _ ht] at hT; cases hT
  by_cases hm : ∃ b z, c.mirror (d ++ [n]) = some (.reg b z)
  · obtain ⟨b, z, hm⟩ := hm
    unfold RCtx.regfileSteps
    rw [hm]
    simp only
    have hstm : get st.mirror (d ++ [n]) = some (.reg b z) := by
      have := hr.mirror; rw [hm] at this; exact this.eq rfl
    by_cases hsame : o.size z = sz ∧ h = some (o.sha z)
    · rw [if_pos hsame]
      have hzy : z = y := by
        refine hid b z hm (by rw [hsame.1, hsz]) (.inr ?_)
        exact hsha _ hsame.2
      subst hzy
      refine setattr_safe hB hr.parent hstm (by rw [hincs]; exact hfin x) ?_
      intro st₁ hB₁ h1 _ h3 h4
      exact ⟨hB₁, h1, h4, h3, tmpFree_frm hr.tmp h3 hntmp⟩
    · rw [if_neg hsame]
      have hres : resolve1 o x (c.mirror (d ++ [n])) = some y := by
        rcases halt with ⟨a', h1, h2⟩ | ⟨h1, a', h2⟩ | h1
        · exfalso
          rw [h1] at hm; cases hm
          rw [hrec, h1] at hne
          simp [looseEq, h2, hsz] at hne
        · exfalso
          rw [h2] at hm; cases hm
          exact hsame ⟨hsz.symm, by rw [← hhash]; exact h1⟩
        · exact h1
      have hcont := hc.content hx hres
      rw [hcont, tmpOf_concat]
      have htd : c.r.tmp ∈ d ++ [c.r.tmp] := by simp
      have hoT : P.old (d ++ [c.r.tmp]) = none := hc.old_tmp htd
      have hneq : c.r.tmp ≠ n := by rintro rfl; exact hntmp htd
      have hneqp : d ++ [n] ≠ d ++ [c.r.tmp] := by
        intro e; exact hneq (by simpa using e.symm)
      refine write_safe hB hr.parent (notDir_of_none (hr.tmp _ htd)) rfl (RI_free hoT (hB.ri _)) ?_
      intro st₁ hB₁ a1 a2 a3 a4
      refine write_safe hB₁ a2 (notDir_of_some a1 rfl) rfl (RI_free hoT (hB₁.ri _)) ?_
      intro st₂ hB₂ b1 b2 b3 b4
      refine setattr_safe hB₂ b2 b1 (RI_free hoT (hB₂.ri _)) ?_
      intro st₃ hB₃ c1 c2 c3 c4
      have hF := (a3.trans b3).trans c3
      have hm3 : get st₃.mirror (d ++ [n]) = some (.reg b z) := by
        have := hF.mirror (d ++ [n]) (by simp [hneq.symm])
        rw [hstm] at this; exact this.eq rfl
      have hi3 : incsAt st₃ (d ++ [n]) = incsAt st (d ++ [n]) := hF.incs (d ++ [n]) (by simp [hneq.symm])
      refine rename_safe hB₃ hneq hoT c1 rfl c2 (notDir_of_some hm3 rfl)
        (by rw [hi3, hincs]; exact hfin x) ?_
      intro st₄ hB₄ d1 d2 d3 d4 d5 d6
      refine ⟨hB₄, d3, (incsAt_congr d5 _).trans hi3, ⟨?_, ?_⟩, ?_⟩
      · intro j hj
        by_cases hjt : j = d ++ [c.r.tmp]
        · subst hjt; left; rw [d2, hr.tmp _ htd]
        · by_cases hjd : j = d
          · subst hjd; right; rw [isDirNode_get, isDirNode_get]; exact ⟨d4, hr.parent⟩
          · have e := hF.mirror j (by simp [hjt])
            rw [d1 j hjt hj hjd]; exact e
      · intro j hj
        rw [incsAt_congr d5]
        by_cases hjt : j = d ++ [c.r.tmp]
        · subst hjt; rw [c4, b4, a4]
        · exact hF.incs j (by simp [hjt])
      · intro j hj
        by_cases hjt : j = d ++ [c.r.tmp]
        · subst hjt; exact d2
        · have hjn : j ≠ d ++ [n] := by rintro rfl; exact hntmp hj
          have hjd : j ≠ d := by rintro rfl; exact hntmp (by simp [hj])
          rw [d1 j hjt hjn hjd]
          have e := hF.mirror j (by simp [hjt])
          rw [hr.tmp j hj] at e; exact e.eq rfl
  · have hres : resolve1 o x (c.mirror (d ++ [n])) = some y := by
      rcases halt with ⟨a', h1, h2⟩ | ⟨h1, a', h2⟩ | h1
      · exact absurd ⟨_, _, h1⟩ hm
      · exact absurd ⟨_, _, h2⟩ hm
      · exact h1
    have hsnap : ∀ m : Option (Node A C S), resolve1 o x m = some y := by
      intro m
      cases x with
      | none =>
        exfalso
        cases hcm : c.mirror (d ++ [n]) with
        | none => rw [hcm] at hres; cases hres
        | some k =>
          rw [hcm] at hres
          cases k with
          | reg b z => exact hm ⟨_, _, hcm⟩
          | _ => cases hres
      | some q =>
        cases q with
        | snap k =>
          cases k <;> cases hcm : c.mirror (d ++ [n]) <;> simp_all [resolve1]
        | diff δ =>
          exfalso
          cases hcm : c.mirror (d ++ [n]) with
          | none => rw [hcm] at hres; cases hres
          | some k =>
            rw [hcm] at hres
            cases k with
            | reg b z => exact hm ⟨_, _, hcm⟩
            | _ => cases hres
        | _ => exfalso; simp [resolve1] at hres
    have hcont := hc.content hx hres
    -- whatever is there while the file is written
    have hany : ∀ m : Option (Node A C S),
        (∀ a' c', m = some (.reg a' c') → o.size c' = o.size y →
          (o.loose a' = o.loose a ∨ o.sha c' = o.sha y) → c' = y) →
        RI o P (d ++ [n]) m (incFile P (d ++ [n]) x ++ P.incs0 (d ++ [n])) := by
      intro m hm'
      refine RIx.ri ⟨by simp [hold], by simp [hold], ?_⟩
      intro a₁ c₁ h₁
      rw [hold] at h₁; cases h₁
      exact ⟨hm', .inr (.inr (hsnap m))⟩
    have hform : c.regfileSteps o (d ++ [n]) a sz h =
        ((if (c.mirror (d ++ [n])).isSome then [Step.delete (d ++ [n])] else []) ++
          [Step.write (d ++ [n]) (.reg c.r.stamp (c.r.junk (d ++ [n]))),
            .write (d ++ [n]) (.reg c.r.stamp (c.content o (d ++ [n]))), .chattr (d ++ [n]) a] : List (Step α A C S H Δ)) := by
      unfold RCtx.regfileSteps
      cases hcm : c.mirror (d ++ [n]) with
      | none => rfl
      | some k =>
        cases k with
        | reg b z => exact absurd ⟨_, _, hcm⟩ hm
        | _ => rfl
    rw [hform, hcont]
    refine clear_safe hB hr.parent hr.below hr.isSome (by rw [hincs]; exact hany none (by simp)) ?_
    intro st₁ hB₁ a1 a2 a3 a4
    have hin : incsAt st₁ (d ++ [n]) = incFile P (d ++ [n]) x ++ P.incs0 (d ++ [n]) := by rw [a4, hincs]
    refine write_safe hB₁ a2 (notDir_of_none a1) rfl (by
      rw [hin]
      refine hany _ ?_
      intro a' c' he _ hor
      cases he
      rcases hor with h1 | h1
      · exact absurd h1 (hc.stamp _ a y hT)
      · exact hc.junk _ a y hT h1) ?_
    intro st₂ hB₂ b1 b2 b3 b4
    refine write_safe hB₂ b2 (notDir_of_some b1 rfl) rfl (by
      rw [b4, hin]
      refine hany _ ?_
      intro a' c' he _ _
      cases he; rfl) ?_
    intro st₃ hB₃ c1 c2 c3 c4
    refine setattr_safe hB₃ c2 c1 (by rw [c4, b4, hin]; exact hfin x) ?_
    intro st₄ hB₄ d1 d2 d3 d4
    have hF := ((a3.trans b3).trans c3).trans d3
    have hF' : Frm st st₄ (· = d ++ [n]) := hF.mono (by simp)
    exact ⟨hB₄, d1, by rw [d4, c4, b4, a4], hF', tmpFree_frm hr.tmp hF' hntmp⟩

/-- rewriting what is not a regular file -/
theorem other_safe (hc : RegOK o rsv c P T0) (hB : BI o P M K st) {d : List α} {n : α} (hr : Ready c st d n)
    (hrec : isDirRec (c.rorp (d ++ [n])) = false) (hnreg : ∀ a sz h, c.rorp (d ++ [n]) ≠ some (.reg a sz h))
    (hne : looseEq o (c.rorp (d ++ [n])) (c.mirror (d ++ [n])) = false) :
    Safe stamp (BI o P M K) (c.otherSteps (d ++ [n]) (c.rorp (d ++ [n]))) st
      (fun st' => Rewritten c st st' (d ++ [n]) (get T0 (d ++ [n]))) := by
  obtain ⟨x, hx, -, hoth, -⟩ := hc.ri (d ++ [n])
  have hdesc := hc.desc (d ++ [n])
  have hincs : incsAt st (d ++ [n]) = incFile P (d ++ [n]) x ++ P.incs0 (d ++ [n]) := by rw [hr.incs, hx]
  cases hR : c.rorp (d ++ [n]) with
  | none =>
    rw [hR] at hdesc
    have hT : get T0 (d ++ [n]) = none := by
      cases hg : get T0 (d ++ [n]) with
      | none => rfl
      | some k => rw [hg] at hdesc; cases k <;> exact hdesc.elim
    have hold : P.old (d ++ [n]) = none := by rw [hc.old]; exact hT
    simp only [RCtx.otherSteps]
    have := clear_safe (stamp := stamp) (ss := []) (Q := fun st' => Rewritten c st st' (d ++ [n]) (get T0 (d ++ [n])))
      hB hr.parent hr.below hr.isSome (RI_free hold (hB.ri _)) (by
        intro st₁ hB₁ a1 a2 a3 a4
        refine ⟨hB₁, by rw [a1, hT], a4, a3, ?_⟩
        intro j hj
        by_cases hjn : j = d ++ [n]
        · subst hjn; exact a1
        · have := a3.mirror j hjn
          rw [hr.tmp j hj] at this; exact this.eq rfl)
    simpa using this
  | some m =>
    cases m with
    | dir a => rw [hR] at hrec; cases hrec
    | reg a sz h => exact absurd hR (hnreg a sz h)
    | other a s =>
      rw [hR] at hdesc
      have hT : get T0 (d ++ [n]) = some (.other a s) := by
        cases hg : get T0 (d ++ [n]) with
        | none => rw [hg] at hdesc; exact hdesc.elim
        | some k => rw [hg] at hdesc; cases k <;> first | exact hdesc.elim | (obtain ⟨rfl, rfl⟩ := hdesc; rfl)
      have hold : P.old (d ++ [n]) = some (.other a s) := by rw [hc.old]; exact hT
      have hntmp : c.r.tmp ∉ d ++ [n] := by
        intro ht
        rw [hc.tree.no_tmp hc.rsv _ ht] at hT; cases hT
      have hxs : x.isSome = true := by
        rcases hoth a s hold with ⟨a', h1, h2⟩ | h1
        · rw [hR, h1] at hne
          simp [looseEq, h2] at hne
        · exact h1
      have hany : ∀ m : Option (Node A C S), RI o P (d ++ [n]) m (incFile P (d ++ [n]) x ++ P.incs0 (d ++ [n])) := by
        intro m
        exact RIx.ri ⟨by simp [hold], fun _ _ _ => .inr hxs, by simp [hold]⟩
      simp only [RCtx.otherSteps]
      refine clear_safe hB hr.parent hr.below hr.isSome (by rw [hincs]; exact hany none) ?_
      intro st₁ hB₁ a1 a2 a3 a4
      refine write_safe hB₁ a2 (notDir_of_none a1) rfl (by rw [a4, hincs]; exact hany _) ?_
      intro st₂ hB₂ b1 b2 b3 b4
      refine setattr_safe hB₂ b2 b1 (by rw [b4, a4, hincs]; exact hany _) ?_
      intro st₃ hB₃ c1 c2 c3 c4
      have hF' : Frm st st₃ (· = d ++ [n]) := ((a3.trans b3).trans c3).mono (by simp)
      exact ⟨hB₃, by rw [c1, hT]; rfl, by rw [c4, b4, a4], hF', tmpFree_frm hr.tmp hF' hntmp⟩

/-- loosely equal: nothing to do -/
theorem loose_of_looseEq (hc : RegOK o rsv c P T0) {i : List α} (h : looseEq o (c.rorp i) (c.mirror i) = true) :
    LooseNode o (c.mirror i) (get T0 i) := by
  have hdesc := hc.desc i
  obtain ⟨x, hx, -, -, hreg⟩ := hc.ri i
  cases hR : c.rorp i with
  | none =>
    rw [hR] at h hdesc
    cases hm : c.mirror i with
    | none =>
      cases hT : get T0 i with
      | none => trivial
      | some k => rw [hT] at hdesc; cases k <;> exact hdesc.elim
    | some k => rw [hm] at h; cases h
  | some m =>
    rw [hR] at h hdesc
    cases hm : c.mirror i with
    | none => rw [hm] at h; cases m <;> cases h
    | some k =>
      rw [hm] at h
      cases hT : get T0 i with
      | none => rw [hT] at hdesc; cases m <;> exact hdesc.elim
      | some t =>
        rw [hT] at hdesc
        cases m with
        | dir a =>
          cases k <;> first | cases h | skip
          cases t <;> first | exact hdesc.elim | trivial
        | other a s =>
          cases k <;> first | cases h | skip
          cases t <;> first | exact hdesc.elim | skip
          obtain ⟨rfl, rfl⟩ := hdesc
          simp [looseEq] at h
          exact ⟨h.1.symm, h.2.symm⟩
        | reg a sz hh =>
          cases k <;> first | cases h | skip
          next a₁ z =>
          cases t <;> first | exact hdesc.elim | skip
          next a₂ y =>
          obtain ⟨rfl, h2, -⟩ := hdesc
          simp [looseEq] at h
          obtain ⟨h3, h4⟩ := h
          have := (hreg a₂ y (by rw [hc.old]; exact hT)).1 a₁ z hm (by rw [← h4, h2]) (.inl h3.symm)
          subst this
          exact ⟨h3.symm, rfl⟩

/-- result of an event -/
structure Ev (o : Ops A C H Δ L) (c : RCtx α A C S H Δ) (P : Prot α A C S H Δ) (T0 : Files α (Node A C S))
    (st st' : State α A C S H Δ) (i : List α) : Prop where
  done : Done o P T0 st' i
  frm : Frm st st' (· = i)
  tmp : TmpFree c st'

theorem del_after (hc : RegOK o rsv c P T0) {st₀ : State α A C S H Δ} {i : List α} (hB : BI o P M K st)
    (hw : Rewritten c st₀ st i v) (hi : incsAt st₀ i = incsAt c.st i) (hl : LooseNode o v (get T0 i)) :
    Safe stamp (BI o P M K) (c.delSteps i) st (fun st' => Ev o c P T0 st₀ st' i) := by
  refine (delInc_safe hc hB (hw.incs.trans hi) (by rw [hw.mirror]; exact hl)).weaken ?_
  rintro st₁ - ⟨h1, h2, h3⟩
  refine ⟨h1, ⟨?_, ?_⟩, ?_⟩
  · intro j hj; rw [h2]; exact hw.frm.mirror j hj
  · intro j hj; rw [h3 j hj]; exact hw.frm.incs j hj
  · intro j hj; rw [h2]; exact hw.tmp j hj

theorem RegOK.below_none (hc : RegOK o rsv c P T0) {i : List α} (h : isDirNode (get T0 i) = false) {j : List α}
    (hp : i <+: j) (hne : j ≠ i) : get T0 j = none := by
  by_contra hcon
  have hcl : Closed T0 := by
    intro k hk hs
    rw [← isDirNode_get]; exact hc.tree.closed k hk hs
  have := hcl.below hp (Ne.symm hne) (by simpa [Option.isSome_iff_ne_none] using hcon)
  rw [← isDirNode_get, h] at this; cases this

/-- a file -/
theorem regFast_safe (hc : RegOK o rsv c P T0) (hB : BI o P M K st) {i : List α} (hF : Fresh c st i)
    (htmp : TmpFree c st) (h1 : isDirNode (c.mirror i) = false) (h2 : isDirRec (c.rorp i) = false)
    (hact : (c.mirror i).isSome = true ∨ (c.rorp i).isSome = true → i ≠ [] ∧ isDirAt st.mirror i.dropLast = true) :
    Safe stamp (BI o P M K) (c.fastSteps o i) st (fun st' => Ev o c P T0 st st' i) := by
  have hm : get st.mirror i = c.mirror i := hF.mirror.eq h1
  unfold RCtx.fastSteps
  by_cases hle : looseEq o (c.rorp i) (c.mirror i) = true
  · rw [if_pos hle, List.nil_append]
    exact del_after hc hB ⟨hm, rfl, .refl _ _, htmp⟩ hF.incs (loose_of_looseEq hc hle)
  · rw [if_neg hle]
    have hle : looseEq o (c.rorp i) (c.mirror i) = false := by simpa using hle
    have hact' : (c.mirror i).isSome = true ∨ (c.rorp i).isSome = true := by
      by_contra hcon
      push Not at hcon
      rw [Option.not_isSome_iff_eq_none.mp hcon.1, Option.not_isSome_iff_eq_none.mp hcon.2] at hle
      simp [looseEq] at hle
    obtain ⟨hne, hp⟩ := hact hact'
    obtain ⟨d, n, rfl⟩ : ∃ d n, i = d ++ [n] := ⟨i.dropLast, i.getLast hne, (List.dropLast_concat_getLast hne).symm⟩
    rw [List.dropLast_concat] at hp
    have hr : Ready c st d n := ⟨hp, hF.mirror, hB.wf.closed.none_below (by rw [← isDirNode_get, hm]; exact h1),
      hF.incs, htmp⟩
    cases hR : c.rorp (d ++ [n]) with
    | none =>
      simp only
      have := other_safe (stamp := stamp) hc hB hr h2 (by simp [hR]) hle
      rw [hR] at this
      exact this.append (fun st₁ hB₁ hw => del_after hc hB₁ hw hF.incs (.refl _))
    | some m =>
      cases m with
      | dir a => rw [hR] at h2; cases h2
      | other a s =>
        simp only
        have := other_safe (stamp := stamp) hc hB hr h2 (by simp [hR]) hle
        rw [hR] at this
        exact this.append (fun st₁ hB₁ hw => del_after hc hB₁ hw hF.incs (.refl _))
      | reg a sz h =>
        simp only
        have hdesc := hc.desc (d ++ [n])
        rw [hR] at hdesc
        cases hT : get T0 (d ++ [n]) with
        | none => rw [hT] at hdesc; exact hdesc.elim
        | some k =>
          rw [hT] at hdesc
          cases k with
          | reg a' y =>
            obtain ⟨rfl, -⟩ := hdesc
            refine (regfile_safe (stamp := stamp) hc hB hr hT hR hle).append ?_
            intro st₁ hB₁ hw
            exact del_after hc hB₁ hw hF.incs (by rw [hT]; exact .refl _)
          | _ => exact hdesc.elim

/-- beginning a directory -/
structure Begun (c : RCtx α A C S H Δ) (st st' : State α A C S H Δ) (i : List α) : Prop where
  dir : isDirAt st'.mirror i = true
  incs : incsAt st' i = incsAt c.st i
  frm : Frm st st' (· = i)
  tmp : TmpFree c st'

theorem regStart_safe (hc : RegOK o rsv c P T0) (hB : BI o P M K st) {i : List α} (hF : Fresh c st i)
    (htmp : TmpFree c st) (hslow : isDirNode (c.mirror i) = true ∨ isDirRec (c.rorp i) = true)
    (hp : i ≠ [] → isDirAt st.mirror i.dropLast = true) :
    Safe stamp (BI o P M K) (c.startSteps i) st (fun st' => Begun c st st' i) := by
  unfold RCtx.startSteps
  by_cases hm : isDirNode (c.mirror i) = true
  · have : (if isDirRec (c.rorp i) = true then if isDirNode (c.mirror i) = true then [] else
        (if (c.mirror i).isSome = true then [Step.delete i] else []) ++ [Step.mkdir i] else
        ([] : List (Step α A C S H Δ))) = [] := by rw [if_pos hm]; split <;> rfl
    rw [this]
    refine ⟨hB, ?_, hF.incs, .refl _ _, htmp⟩
    rw [← isDirNode_get, hF.mirror.dir]; exact hm
  · have hrec := hslow.resolve_left hm
    rw [if_pos hrec, if_neg hm]
    have hm' : isDirNode (c.mirror i) = false := by simpa using hm
    have hne : i ≠ [] := by
      rintro rfl
      have := hc.wf.root
      rw [← isDirNode_get] at this
      exact hm this
    obtain ⟨d, n, rfl⟩ : ∃ d n, i = d ++ [n] := ⟨i.dropLast, i.getLast hne, (List.dropLast_concat_getLast hne).symm⟩
    have hp := hp hne
    rw [List.dropLast_concat] at hp
    obtain ⟨x, hx, hdir, -⟩ := hc.ri (d ++ [n])
    have hTd : isDirNode (get T0 (d ++ [n])) = true := by rw [← isDirRec_of_desc (hc.desc _)]; exact hrec
    obtain ⟨a, ha⟩ : ∃ a, get T0 (d ++ [n]) = some (.dir a) := by
      cases hg : get T0 (d ++ [n]) with
      | none => rw [hg] at hTd; cases hTd
      | some k => cases k <;> first | exact ⟨_, rfl⟩ | (rw [hg] at hTd; cases hTd)
    have hold : P.old (d ++ [n]) = some (.dir a) := by rw [hc.old]; exact ha
    have hxs : x.isSome = true := (hdir a hold).resolve_left (by simp [hm'])
    have hany : ∀ m : Option (Node A C S), RI o P (d ++ [n]) m (incFile P (d ++ [n]) x ++ P.incs0 (d ++ [n])) := by
      intro m
      exact RIx.ri ⟨fun _ _ => .inr hxs, by simp [hold], by simp [hold]⟩
    have hmq : get st.mirror (d ++ [n]) = c.mirror (d ++ [n]) := hF.mirror.eq hm'
    refine clear_safe hB hp (hB.wf.closed.none_below (by rw [← isDirNode_get, hmq]; exact hm')) (by rw [hmq])
      (by rw [hF.incs, hx]; exact hany none) ?_
    intro st₁ hB₁ a1 a2 a3 a4
    have hde : (d ++ [n]).dropLast = d := by simp
    refine eff_safe hB₁ (i := d ++ [n]) (p := d) (v := some (.dir stamp)) ?_ a2 (concat_ne d _)
      (by rw [a4, hF.incs, hx]; exact hany _) ?_
    · have := apply_mkdir stamp st₁ (d ++ [n]) (by simp) (by rw [hde]; exact a2) a1
      rwa [hde] at this
    · intro st₂ hB₂ he
      have hF' : Frm st st₂ (· = d ++ [n]) := (a3.trans (he.frm a2)).mono (by simp)
      refine ⟨hB₂, ?_, ?_, hF', ?_⟩
      · rw [← isDirNode_get, he.at_i]; rfl
      · rw [incsAt_congr he.incs, a4, hF.incs]
      · refine tmpFree_frm htmp hF' ?_
        intro ht
        rw [hc.tree.no_tmp hc.rsv _ ht] at ha; cases ha

/-- ending a directory -/
theorem regFinish_safe (hc : RegOK o rsv c P T0) (hB : BI o P M K st) {i : List α}
    (htmp : TmpFree c st) (hdir : isDirAt st.mirror i = true) (hinc : incsAt st i = incsAt c.st i)
    (hslow : isDirNode (c.mirror i) = true ∨ isDirRec (c.rorp i) = true)
    (hp : i ≠ [] → isDirAt st.mirror i.dropLast = true)
    (hbel : isDirRec (c.rorp i) = false → NoneBelow st i) :
    Safe stamp (BI o P M K) (c.finishSteps o i) st (fun st' => Ev o c P T0 st st' i) := by
  unfold RCtx.finishSteps
  have hdesc := hc.desc i
  by_cases hrd : isDirRec (c.rorp i) = true
  · cases hR : c.rorp i with
    | none => rw [hR] at hrd; cases hrd
    | some m =>
      cases m with
      | dir a =>
        simp only
        rw [hR] at hdesc
        have hT : get T0 i = some (.dir a) := by
          cases hg : get T0 i with
          | none => rw [hg] at hdesc; exact hdesc.elim
          | some k => rw [hg] at hdesc; cases k <;> first | exact hdesc.elim | (cases hdesc; rfl)
        obtain ⟨b, hb⟩ := (isDirAt_iff _ _).mp hdir
        refine chattr_safe hB hb (RI_dir (by rw [← hb]; exact hB.ri i)) ?_
        intro st₁ hB₁ h1 h2 h3 h4
        refine (delInc_safe hc hB₁ ((incsAt_congr h3 _).trans hinc) (by rw [h2, hT]; trivial)).weaken ?_
        rintro st₂ - ⟨g1, g2, g3⟩
        refine ⟨g1, ⟨?_, ?_⟩, ?_⟩
        · intro j hj; left; rw [g2, h1 j hj]
        · intro j hj; rw [g3 j hj]; exact incsAt_congr h3 _
        · intro j hj
          have : j ≠ i := by
            rintro rfl
            rw [hc.tree.no_tmp hc.rsv _ hj] at hT; cases hT
          rw [g2, h1 j this]; exact htmp j hj
      | _ => rw [hR] at hrd; cases hrd
  · have hrd : isDirRec (c.rorp i) = false := by simpa using hrd
    have hcm := hslow.resolve_right (by simp [hrd])
    have hne : i ≠ [] := by
      rintro rfl
      have := isDirRec_of_desc (hc.desc [])
      rw [hrd, hc.tree.root_dir] at this; cases this
    obtain ⟨d, n, rfl⟩ : ∃ d n, i = d ++ [n] := ⟨i.dropLast, i.getLast hne, (List.dropLast_concat_getLast hne).symm⟩
    have hp := hp hne
    rw [List.dropLast_concat] at hp
    have hr : Ready c st d n := ⟨hp, .inr ⟨by rw [isDirNode_get]; exact hdir, hcm⟩, hbel hrd, hinc, htmp⟩
    have hle : looseEq o (c.rorp (d ++ [n])) (c.mirror (d ++ [n])) = false := by
      cases hcm' : c.mirror (d ++ [n]) with
      | none => rw [hcm'] at hcm; cases hcm
      | some k =>
        cases k with
        | dir b =>
          cases hR : c.rorp (d ++ [n]) with
          | none => rfl
          | some m => cases m <;> first | rfl | (rw [hR] at hrd; cases hrd)
        | _ => rw [hcm'] at hcm; cases hcm
    cases hR : c.rorp (d ++ [n]) with
    | none =>
      simp only
      have := other_safe (stamp := stamp) hc hB hr hrd (by simp [hR]) hle
      rw [hR] at this
      exact this.append (fun st₁ hB₁ hw => del_after hc hB₁ hw hinc (.refl _))
    | some m =>
      cases m with
      | dir a => rw [hR] at hrd; cases hrd
      | other a s =>
        simp only
        have := other_safe (stamp := stamp) hc hB hr hrd (by simp [hR]) hle
        rw [hR] at this
        exact this.append (fun st₁ hB₁ hw => del_after hc hB₁ hw hinc (.refl _))
      | reg a sz h =>
        simp only
        rw [hR] at hdesc
        cases hT : get T0 (d ++ [n]) with
        | none => rw [hT] at hdesc; exact hdesc.elim
        | some k =>
          rw [hT] at hdesc
          cases k with
          | reg a' y =>
            obtain ⟨rfl, -⟩ := hdesc
            refine (regfile_safe (stamp := stamp) hc hB hr hT hR hle).append ?_
            intro st₁ hB₁ hw
            exact del_after hc hB₁ hw hinc (by rw [hT]; exact .refl _)
          | _ => exact hdesc.elim

end Verif.Repo
