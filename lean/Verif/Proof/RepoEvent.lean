import Verif.Proof.RepoSession
/- What processing one file or directory does. -/
namespace Verif.Repo
open Verif.Collate Verif.FillIn Verif.TreeReducer Verif.MetaChain Verif.NestingSpec
set_option linter.unusedSectionVars false
variable {α A C S H Δ L : Type} [LinearOrder α] [DecidableEq A] [DecidableEq S] [DecidableEq H]
variable {o : Ops A C H Δ L} {P : Prot α A C S H Δ} {M : Dir (List α) (MRec A S H)} {K : List Nat}
  {st st' : State α A C S H Δ} {stamp : A} {c : Ctx α A C S H Δ}

theorem mkIncDir_safe (hB : BI o P M K st) {i : List α} {ss : List (Step α A C S H Δ)}
    {Q : State α A C S H Δ → Prop}
    (hi : i ≠ []) (hp : i.dropLast ∈ st.incdirs) (hno : i ∉ st.incdirs)
    (hk : ∀ st', BI o P M K st' → st'.mirror = st.mirror → st'.incs = st.incs →
      st'.incdirs = i :: st.incdirs → Safe stamp (BI o P M K) ss st' Q) :
    Safe stamp (BI o P M K) (.mkIncDir i :: ss) st Q := by
  have ha : apply stamp (.mkIncDir i) st = some { st with incdirs := i :: st.incdirs } := by
    rw [apply, if_pos ⟨hi, hp, hno⟩]
  exact .cons hB ha (hk _ ⟨apply_fsWF ha hB.wf, hB.ri, hB.metas, hB.marks⟩ rfl rfl rfl)

/-- after `makeIncrement` -/
structure Incd (o : Ops A C H Δ L) (P : Prot α A C S H Δ) (c : Ctx α A C S H Δ) (st st' : State α A C S H Δ)
    (i : List α) (nd nr : Bool) : Prop where
  mirror : st'.mirror = st.mirror
  incs_i : incsAt st' i = incFile P i (c.incOf o i nr) ++ P.incs0 i
  incs : ∀ j, j ≠ i → incsAt st' j = incsAt st j
  incdirs : ∀ j, j ≠ i → (j ∈ st'.incdirs ↔ j ∈ st.incdirs)
  incmono : ∀ j, j ∈ st.incdirs → j ∈ st'.incdirs
  incdir : c.prev.isSome = true → (nd || isDirNode (c.mirror i)) = true → i ∈ st'.incdirs

theorem Incd.fr {i : List α} {nd nr : Bool} (h : Incd o P c st st' i nd nr) {d : List α}
    (hd : isDirAt st.mirror d = true) : Fr st st' (· = i) d :=
  ⟨fun j _ _ => by rw [h.mirror], h.incs, h.incdirs, by rw [h.mirror]; exact hd, h.incmono⟩

theorem makeIncrement_safe (hc : CtxOK o c P) (hB : BI o P M K st) {i : List α} (hAt : At c st i) {nd nr : Bool}
    (hp : c.prev.isSome = true → i = [] ∨ i.dropLast ∈ st.incdirs)
    (hr : nr = true → ∃ a n, c.patch o i = .done (some (.reg a n))) :
    Safe stamp (BI o P M K) (c.makeIncrement o i nd nr) st (fun st' => Incd o P c st st' i nd nr) := by
  unfold Ctx.makeIncrement
  cases hprev : c.prev with
  | none =>
    refine ⟨hB, rfl, ?_, fun _ _ => rfl, fun _ _ => Iff.rfl, fun _ h => h, by simp [hprev]⟩
    rw [hAt.incs, hc.incs0]; simp [Ctx.incOf, hprev, incFile]
  | some t =>
    obtain ⟨ht, hfresh⟩ := hc.prev t hprev
    have hp' := hp (by simp [hprev])
    have hno : ∀ g ∈ incsAt st i, g.time ≠ P.t0 := by
      rw [hAt.incs]
      intro g hg
      rw [ht]; exact hfresh g (List.mem_filter.mp hg).1
    -- the increment itself, from a state that differs only in incdirs
    have main : ∀ st₁, BI o P M K st₁ → st₁.mirror = st.mirror → st₁.incs = st.incs →
        (∀ j ∈ st.incdirs, j ∈ st₁.incdirs) → (∀ j, j ≠ i → (j ∈ st₁.incdirs ↔ j ∈ st.incdirs)) →
        ((nd || isDirNode (c.mirror i)) = true → i ∈ st₁.incdirs) →
        Safe stamp (BI o P M K) (match c.mirror i with
          | none => [.newInc ⟨i, t, .missing⟩]
          | some (.dir _) => [.newInc ⟨i, t, .dir⟩]
          | some (.reg a old) =>
            if nr then
              match c.patch o i with
              | .done (some (.reg _ new)) =>
                [.newInc ⟨i, t, .diff (c.s.junkInc i)⟩, .fillInc ⟨i, t, .diff (o.delta new old)⟩]
              | _ => []
            else [.newInc ⟨i, t, .snap (.reg c.s.stamp (c.s.junk i))⟩, .fillInc ⟨i, t, .snap (.reg a old)⟩]
          | some (.other a s) =>
            [.newInc ⟨i, t, .snap (.reg c.s.stamp (c.s.junk i))⟩, .fillInc ⟨i, t, .snap (.other a s)⟩])
          st₁ (fun st' => Incd o P c st st' i nd nr) := by
      intro st₁ hB₁ hm hi hmono hoth hin
      have hat₁ : ∀ j, incsAt st₁ j = incsAt st j := incsAt_congr hi
      have hmi : get st₁.mirror i = c.mirror i := by rw [hm, hAt.mirror]
      have hR : ∀ x : Inc A C S Δ, RI o P i (get st₁.mirror i) (⟨i, P.t0, x⟩ :: incsAt st₁ i) := by
        intro x
        rw [hmi, hat₁, hAt.incs, ← hc.incs0]
        exact hc.ri_mirror i (some x)
      have hno₁ : ∀ g ∈ incsAt st₁ i, g.time ≠ P.t0 := by rw [hat₁]; exact hno
      have hp₁ : i = [] ∨ i.dropLast ∈ st₁.incdirs := hp'.imp id (fun h => hmono _ h)
      have fin : ∀ (st₂ : State α A C S H Δ) (y : Inc A C S Δ), c.incOf o i nr = some y →
          st₂.mirror = st₁.mirror → st₂.incdirs = st₁.incdirs →
          (∀ j, j ≠ i → incsAt st₂ j = incsAt st₁ j) → incsAt st₂ i = ⟨i, P.t0, y⟩ :: incsAt st₁ i →
          Incd o P c st st₂ i nd nr := by
        intro st₂ y hy h1 h2 h3 h4
        refine ⟨h1.trans hm, ?_, ?_, ?_, ?_, ?_⟩
        · rw [h4, hy, hat₁, hAt.incs, hc.incs0]; rfl
        · intro j hj; rw [h3 j hj, hat₁]
        · intro j hj; rw [h2, hoth j hj]
        · intro j hj; rw [h2]; exact hmono j hj
        · intro _ h; rw [h2]; exact hin h
      have one : ∀ y : Inc A C S Δ, c.incOf o i nr = some y →
          Safe stamp (BI o P M K) [.newInc ⟨i, t, y⟩] st₁ (fun st' => Incd o P c st st' i nd nr) := by
        intro y hy
        rw [← ht]
        exact newInc_safe hB₁ hp₁ hno₁ (hR y) (fun st₂ hB₂ h1 h2 h3 h4 =>
          ⟨hB₂, fin st₂ y hy h1 h2 h3 h4⟩)
      have two : ∀ y z : Inc A C S Δ, c.incOf o i nr = some y →
          Safe stamp (BI o P M K) [.newInc ⟨i, t, z⟩, .fillInc ⟨i, t, y⟩] st₁
            (fun st' => Incd o P c st st' i nd nr) := by
        intro y z hy
        rw [← ht]
        refine newInc_safe hB₁ hp₁ hno₁ (hR z) (fun st₂ hB₂ h1 h2 h3 h4 => ?_)
        refine fillInc_safe hB₂ h4 hno₁ (by rw [h1]; exact hR y) (fun st₃ hB₃ k1 k2 k3 k4 => ?_)
        exact ⟨hB₃, fin st₃ y hy (k1.trans h1) (k2.trans h2) (fun j hj => (k3 j hj).trans (h3 j hj)) k4⟩
      cases hmir : c.mirror i with
      | none => exact one _ (by simp [Ctx.incOf, hprev, hmir])
      | some n =>
        cases n with
        | dir a => exact one _ (by simp [Ctx.incOf, hprev, hmir])
        | reg a old =>
          by_cases hnr : nr = true
          · obtain ⟨a', n', hn'⟩ := hr hnr
            simp only [hnr, if_true, hn']
            have := two (.diff (o.delta n' old)) (.diff (c.s.junkInc i))
              (by simp [Ctx.incOf, hprev, hmir, hnr, hn'])
            simpa [hnr] using this
          · simp only [hnr]
            have := two (.snap (.reg a old)) (.snap (.reg c.s.stamp (c.s.junk i)))
              (by simp [Ctx.incOf, hprev, hmir, hnr])
            simpa [hnr] using this
        | other a s => exact two _ _ (by simp [Ctx.incOf, hprev, hmir])
    by_cases hmk : ((nd || isDirNode (c.mirror i)) && !(c.st.incdirs.contains i)) = true
    · simp only [hmk, if_true]
      obtain ⟨h1, h2⟩ := (Bool.and_eq_true _ _).mp hmk
      have h3 : i ∉ c.st.incdirs := by simpa using h2
      have hi : i ≠ [] := fun e => h3 (e ▸ hc.wf.incroot)
      have hni : i ∉ st.incdirs := fun h => h3 (hAt.incdirs.mp h)
      have hpd : i.dropLast ∈ st.incdirs := hp'.resolve_left hi
      refine mkIncDir_safe hB hi hpd hni (fun st₁ hB₁ k1 k2 k3 => ?_)
      refine main st₁ hB₁ k1 k2 ?_ ?_ ?_
      · intro j hj; rw [k3]; exact List.mem_cons_of_mem _ hj
      · intro j hj; rw [k3]; simp [hj]
      · intro _; rw [k3]; simp
    · simp only [hmk]
      refine main st hB rfl rfl (fun _ h => h) (fun _ _ => Iff.rfl) ?_
      intro h1
      by_contra h2
      apply hmk
      rw [h1]
      have : i ∉ c.st.incdirs := fun h => h2 (hAt.incdirs.mpr h)
      simp [this]

/-! ### One step in the mirror -/

theorem eff_safe (hB : BI o P M K st) {s : Step α A C S H Δ} {i p : List α} {v : Option (Node A C S)}
    {ss : List (Step α A C S H Δ)} {Q : State α A C S H Δ → Prop}
    (hs : ∃ st', apply stamp s st = some st' ∧ Eff st st' i p v)
    (hp : isDirAt st.mirror p = true) (hne : p ≠ i) (hR : RI o P i v (incsAt st i))
    (hk : ∀ st', BI o P M K st' → Eff st st' i p v → Safe stamp (BI o P M K) ss st' Q) :
    Safe stamp (BI o P M K) (s :: ss) st Q := by
  obtain ⟨st', ha, he⟩ := hs
  exact .cons hB ha (hk st' (hB.eff ha he hp hne hR) he)

theorem chattr_safe (hB : BI o P M K st) {i : List α} {n : Node A C S} {a : A}
    {ss : List (Step α A C S H Δ)} {Q : State α A C S H Δ → Prop}
    (hg : get st.mirror i = some n) (hR : RI o P i (some (n.setAttr a)) (incsAt st i))
    (hk : ∀ st', BI o P M K st' → (∀ j, j ≠ i → get st'.mirror j = get st.mirror j) →
      get st'.mirror i = some (n.setAttr a) → st'.incs = st.incs → st'.incdirs = st.incdirs →
      Safe stamp (BI o P M K) ss st' Q) :
    Safe stamp (BI o P M K) (.chattr i a :: ss) st Q := by
  obtain ⟨st', ha, h1, h2, h3, h4, h5, h6⟩ := apply_chattr stamp st i n a hg
  refine .cons hB ha (hk st' ⟨apply_fsWF ha hB.wf, ?_, h5.trans hB.metas, h6.trans hB.marks⟩ h1 h2 h3 h4)
  intro j
  rw [incsAt_congr h3]
  by_cases hj : j = i
  · subst hj; rw [h2]; exact hR
  · rw [h1 j hj]; exact hB.ri j

theorem rename_safe (hB : BI o P M K st) {d : List α} {m n : α} {x : Node A C S}
    {ss : List (Step α A C S H Δ)} {Q : State α A C S H Δ → Prop}
    (hmn : m ≠ n) (hold : P.old (d ++ [m]) = none)
    (hg : get st.mirror (d ++ [m]) = some x) (hx : x.isDir = false)
    (hp : isDirAt st.mirror d = true) (hd : isDirAt st.mirror (d ++ [n]) = false)
    (hR : RI o P (d ++ [n]) (some x) (incsAt st (d ++ [n])))
    (hk : ∀ st', BI o P M K st' →
      (∀ j, j ≠ d ++ [m] → j ≠ d ++ [n] → j ≠ d → get st'.mirror j = get st.mirror j) →
      get st'.mirror (d ++ [m]) = none → get st'.mirror (d ++ [n]) = some x → isDirAt st'.mirror d = true →
      st'.incs = st.incs → st'.incdirs = st.incdirs →
      Safe stamp (BI o P M K) ss st' Q) :
    Safe stamp (BI o P M K) (.rename (d ++ [m]) (d ++ [n]) :: ss) st Q := by
  obtain ⟨st', ha, h1, h2, h3, h4, h5, h6, h7, h8⟩ := apply_rename stamp st (d ++ [m]) (d ++ [n]) x
    (by simp) (by simp) (by simpa using hmn) (by simp) hg hx (by simpa using hp) hd
  simp only [List.dropLast_concat] at h1 h4
  refine .cons hB ha (hk st' ⟨apply_fsWF ha hB.wf, ?_, h7.trans hB.metas, h8.trans hB.marks⟩
    h1 h2 h3 h4 h5 h6)
  intro j
  rw [incsAt_congr h5]
  by_cases hj : j = d ++ [n]
  · subst hj; rw [h3]; exact hR
  · by_cases hj' : j = d ++ [m]
    · subst hj'; exact RI_free hold (hB.ri _)
    · by_cases hjd : j = d
      · subst hjd; exact RI_parent (hB.ri j) hp h4
      · rw [h1 j hj' hj hjd]; exact hB.ri j

theorem concat_ne (d : List α) (n : α) : d ≠ d ++ [n] := by
  intro h; have := congrArg List.length h; simp at this

/-! ### Writing a temporary file -/

theorem tmpOf_concat (t : α) (d : List α) (n : α) : tmpOf t (d ++ [n]) = d ++ [t] := by
  simp [tmpOf]

/-- only the temporary file of directory `d` differs -/
structure TmpFr (st st' : State α A C S H Δ) (d : List α) (t : α) (v : Option (Node A C S)) : Prop where
  mirror : ∀ j, j ≠ d ++ [t] → j ≠ d → get st'.mirror j = get st.mirror j
  tmp : get st'.mirror (d ++ [t]) = v
  dir : isDirAt st'.mirror d = true
  incs : st'.incs = st.incs
  incdirs : st'.incdirs = st.incdirs

theorem writeTmp_safe (hc : CtxOK o c P) (hB : BI o P M K st) {d : List α} {n : α} {tf : Node A C S}
    (hd : isDirAt st.mirror d = true) (ht : get st.mirror (d ++ [c.s.tmp]) = none) (htf : tf.isDir = false) :
    Safe stamp (BI o P M K) (c.writeTmp (d ++ [n]) (some tf)) st
      (fun st' => TmpFr st st' d c.s.tmp (some tf)) := by
  unfold Ctx.writeTmp
  rw [tmpOf_concat]
  have hold : P.old (d ++ [c.s.tmp]) = none := hc.old_tmp (by simp)
  have hde : (d ++ [c.s.tmp]).dropLast = d := by simp
  refine eff_safe hB (i := d ++ [c.s.tmp]) (p := d) ?_ hd (concat_ne d _)
    (RI_free hold (hB.ri _)) ?_ (v := some (.reg c.s.stamp (c.s.junk (d ++ [n]))))
  · have := apply_write stamp st (d ++ [c.s.tmp]) (.reg c.s.stamp (c.s.junk (d ++ [n]))) (by simp)
      (by rw [hde]; exact hd) (by simp [isDirAt, ht]) rfl
    rwa [hde] at this
  · intro st₁ hB₁ he₁
    refine eff_safe hB₁ (i := d ++ [c.s.tmp]) (p := d) ?_ he₁.parent (concat_ne d _)
      (RI_free hold (hB₁.ri _)) ?_ (v := some tf)
    · have := apply_write stamp st₁ (d ++ [c.s.tmp]) tf (by simp)
        (by rw [hde]; exact he₁.parent) (by simp [isDirAt, he₁.at_i]) htf
      rwa [hde] at this
    · intro st₂ hB₂ he₂
      refine ⟨hB₂, ?_, he₂.at_i, he₂.parent, he₂.incs.trans he₁.incs, he₂.incdirs.trans he₁.incdirs⟩
      intro j h1 h2
      rw [he₂.frame j h1 h2, he₁.frame j h1 h2]

theorem deleteTmp_safe (hc : CtxOK o c P) (hB : BI o P M K st) {d : List α} {tf : Node A C S}
    (hd : isDirAt st.mirror d = true) (ht : get st.mirror (d ++ [c.s.tmp]) = some tf) (htf : tf.isDir = false) :
    Safe stamp (BI o P M K) [.delete (d ++ [c.s.tmp])] st (fun st' => TmpFr st st' d c.s.tmp none) := by
  have hold : P.old (d ++ [c.s.tmp]) = none := hc.old_tmp (by simp)
  have hde : (d ++ [c.s.tmp]).dropLast = d := by simp
  refine eff_safe hB (i := d ++ [c.s.tmp]) (p := d) ?_ hd (concat_ne d _)
    (RI_free hold (hB.ri _)) ?_ (v := none)
  · have := apply_delete_leaf stamp st (d ++ [c.s.tmp]) (by simp)
      (by rw [hde]; exact hd) (by simp [ht]) (hB.wf.closed.none_below (by
        rw [isDirAt, ht]; cases tf <;> simp_all [Node.isDir]))
    rwa [hde] at this
  · intro st₂ hB₂ he₂
    exact ⟨hB₂, he₂.frame, he₂.at_i, he₂.parent, he₂.incs, he₂.incdirs⟩

/-! ### Facts about the patch -/

theorem patch_done {i : List α} {tf : Node A C S} (h : c.patch o i = .done (some tf)) :
    c.src i = some tf ∧ tf.isDir = false := by
  unfold Ctx.patch at h
  split at h
  · simp at h
  · simp at h
  · next a s hs => split at h <;> simp at h; subst h; exact ⟨hs, rfl⟩
  · next a x hs =>
    split at h
    · simp at h
    · split at h
      · simp only at h
        split at h
        · simp at h
        · split at h
          · simp only [Patched.done.injEq, Option.some.injEq] at h; subst h
            rw [hs, o.patch_delta]; exact ⟨rfl, rfl⟩
          · simp at h
      · simp only [Patched.done.injEq, Option.some.injEq] at h; subst h; exact ⟨hs, rfl⟩

theorem patch_done_none {i : List α} (h : c.patch o i = .done none) : c.src i = none := by
  unfold Ctx.patch at h
  split at h
  · assumption
  · simp at h
  · split at h <;> simp at h
  · split at h
    · simp at h
    · split at h
      · simp only at h
        split at h
        · simp at h
        · split at h <;> simp at h
      · simp at h

theorem patch_unchanged {i : List α} {tf : Node A C S} (h : c.patch o i = .unchanged tf) :
    ∃ a x a' sz a'' y, c.src i = some (.reg a x) ∧ tf = .reg a x ∧ c.dst i = some (.reg a' sz (some (o.sha x))) ∧
      c.mirror i = some (.reg a'' y) := by
  unfold Ctx.patch at h
  split at h
  · simp at h
  · simp at h
  · split at h <;> simp at h
  · next a x hs =>
    split at h
    · simp at h
    · split at h
      · next a' sz hh a'' y h1 h2 =>
        simp only [o.patch_delta] at h
        split at h
        · next hcon =>
          simp only [Patched.unchanged.injEq] at h; subst h
          exact ⟨a, x, a', sz, a'', y, hs, rfl, by rw [h1, hcon.2], h2⟩
        · split at h <;> simp at h
      · simp at h

/-- neither source nor destination is a directory -/
def Ctx.isFast (c : Ctx α A C S H Δ) (i : List α) : Bool := !(isDirNode (c.src i) || isDirRec (c.dst i))

/-- what is at path `i` after it has been processed -/
def Ctx.fin (o : Ops A C H Δ L) (c : Ctx α A C S H Δ) (i : List α) : Option (Node A C S) :=
  if c.isFast i then
    match c.patch o i with
    | .failed => c.mirror i
    | .unchanged tf => (c.mirror i).map (·.setAttr tf.attr)
    | .done tf => tf
  else if c.isFiller o i then c.mirror i else c.src i

/-- the increment of path `i` after it has been processed -/
def Ctx.finInc (o : Ops A C H Δ L) (c : Ctx α A C S H Δ) (i : List α) : Option (Inc A C S Δ) :=
  if c.isFast i then
    match c.patch o i with
    | .failed => none
    | .unchanged _ => none
    | .done (some tf) => c.incOf o i tf.isReg
    | .done none => c.incOf o i false
  else c.incOf o i false

theorem RI_of_RF {i : List α} {m : Option (Node A C S)} {x : Option (Inc A C S Δ)}
    (h1 : (P.old i).isSome = true → x.isSome = true)
    (h2 : ∀ a y, P.old i = some (.reg a y) → resolve1 o x m = some y)
    (h3 : ∀ a y a' y', P.old i = some (.reg a y) → m = some (.reg a' y') → o.size y' = o.size y →
      (o.loose a' = o.loose a ∨ o.sha y' = o.sha y) → y' = y) :
    RI o P i m (incFile P i x ++ P.incs0 i) :=
  ⟨x, rfl, fun a h => .inr (h1 (by rw [h]; rfl)), fun a s h => .inr (h1 (by rw [h]; rfl)), fun a y h => ⟨fun a' y' hm => h3 a y a' y' h hm, .inr (.inr (h2 a y h))⟩⟩

/-- the old content is recovered from the increment -/
theorem CtxOK.rf_inc (hc : CtxOK o c P) {i : List α} {m : Option (Node A C S)} {nr : Bool}
    (hm : nr = true → ∃ a y, c.patch o i = .done (some (.reg a y)) ∧ m = some (.reg a y)) :
    ∀ a y, P.old i = some (.reg a y) → resolve1 o (c.incOf o i nr) m = some y := by
  intro a y h
  cases hp : c.prev with
  | none => rw [hc.noprev hp] at h; cases h
  | some t =>
    obtain ⟨a', ha', _⟩ := hc.prot i a y h
    unfold Ctx.incOf
    rw [hp, ha']
    simp only
    by_cases hn : nr = true
    · obtain ⟨a₂, y₂, h1, h2⟩ := hm hn
      rw [if_pos hn, h1, h2]
      simp [resolve1, o.patch_delta]
    · rw [if_neg hn]; simp [resolve1]

theorem CtxOK.inc_isSome (hc : CtxOK o c P) {i : List α} {nr : Bool}
    (hm : nr = true → ∃ a y, c.patch o i = .done (some (.reg a y))) (ho : (P.old i).isSome = true) :
    (c.incOf o i nr).isSome = true := by
  cases hp : c.prev with
  | none => rw [hc.noprev hp] at ho; cases ho
  | some t =>
    unfold Ctx.incOf
    rw [hp]
    cases hmi : c.mirror i with
    | none => simp
    | some n =>
      cases n with
      | dir a => simp
      | other a s => simp
      | reg a y =>
        by_cases hn : nr = true
        · obtain ⟨a₂, y₂, h1⟩ := hm hn
          simp [hn, h1]
        · simp [hn]

/-- what holds after path `i` and everything below it has been processed -/
structure Post (o : Ops A C H Δ L) (P : Prot α A C S H Δ) (c : Ctx α A C S H Δ)
    (st' : State α A C S H Δ) (i : List α) : Prop where
  fin : get st'.mirror i = c.fin o i
  rf : RF o P i (get st'.mirror i) (incsAt st' i)
  inc : incsAt st' i = incFile P i (c.finInc o i) ++ P.incs0 i

theorem fast_safe (hc : CtxOK o c P) (hB : BI o P M K st) {d : List α} {n : α}
    (hAt : At c st (d ++ [n])) (hd : isDirAt st.mirror d = true)
    (ht : get st.mirror (d ++ [c.s.tmp]) = none) (hnt : n ≠ c.s.tmp)
    (hff : c.isFast (d ++ [n]) = true)
    (hinc : c.prev.isSome = true → d ∈ st.incdirs) :
    Safe stamp (BI o P M K) (c.fastSteps o (d ++ [n])) st
      (fun st' => Fr st st' (· = d ++ [n]) d ∧ Post o P c st' (d ++ [n])) := by
  have hfast : isDirNode (c.mirror (d ++ [n])) = false := by
    have hk := hc.kind (d ++ [n])
    simp only [Ctx.isFast, Bool.not_eq_true', Bool.or_eq_false_iff] at hff
    cases h : c.mirror (d ++ [n]) with
    | none => rfl
    | some x =>
      cases x with
      | dir a =>
        rw [h] at hk
        cases h2 : c.dst (d ++ [n]) with
        | none => rw [h2] at hk; exact hk.elim
        | some y => cases y <;> rw [h2] at hk hff <;> first | exact hk.elim | simp [isDirRec, MRec.isDir] at hff
      | _ => rfl
  have hdn : isDirAt st.mirror (d ++ [n]) = false := by
    rw [isDirAt, hAt.mirror]
    cases h : c.mirror (d ++ [n]) with
    | none => rfl
    | some x => cases x <;> simp_all [isDirNode, Node.isDir]
  have hne1 : d ++ [n] ≠ d ++ [c.s.tmp] := by simpa using hnt
  have hdne : d ++ [n] ≠ d := (concat_ne d n).symm
  -- as long as the path itself is untouched
  have hAt' : ∀ {st₁ : State α A C S H Δ} {v}, TmpFr st st₁ d c.s.tmp v → At c st₁ (d ++ [n]) := by
    intro st₁ v h
    refine ⟨by rw [h.mirror _ hne1 hdne, hAt.mirror], by rw [incsAt_congr h.incs, hAt.incs], ?_⟩
    rw [h.incdirs]; exact hAt.incdirs
  have rf0 : ∀ (st₁ : State α A C S H Δ) (a : A), (get st₁.mirror (d ++ [n]) = c.mirror (d ++ [n]) ∨
      get st₁.mirror (d ++ [n]) = (c.mirror (d ++ [n])).map (·.setAttr a)) →
      incsAt st₁ (d ++ [n]) = incsAt c.st (d ++ [n]) →
      RF o P (d ++ [n]) (get st₁.mirror (d ++ [n])) (incsAt st₁ (d ++ [n])) := by
    intro st₁ a h1 h2
    refine ⟨none, by rw [h2, hc.incs0]; rfl, ?_⟩
    intro a' y hy
    obtain ⟨a'', ha, _⟩ := hc.prot _ _ _ hy
    rcases h1 with h1 | h1 <;> rw [h1, ha] <;> rfl
  unfold Ctx.fastSteps
  cases hpat : c.patch o (d ++ [n]) with
  | failed =>
    simp only
    refine (writeTmp_safe hc hB hd ht rfl).append ?_
    intro st₁ hB₁ h₁
    rw [tmpOf_concat]
    refine (deleteTmp_safe hc hB₁ h₁.dir h₁.tmp rfl).weaken ?_
    intro st₂ hB₂ h₂
    have hmir : get st₂.mirror (d ++ [n]) = c.mirror (d ++ [n]) := by
      rw [h₂.mirror _ hne1 hdne, h₁.mirror _ hne1 hdne, hAt.mirror]
    refine ⟨⟨?_, ?_, ?_, h₂.dir, ?_⟩, ⟨by simp [Ctx.fin, hff, hpat, hmir], ?_, ?_⟩⟩
    · intro j hj hjd
      by_cases hjt : j = d ++ [c.s.tmp]
      · subst hjt; rw [h₂.tmp, ht]
      · rw [h₂.mirror _ hjt hjd, h₁.mirror _ hjt hjd]
    · intro j _; rw [incsAt_congr h₂.incs, incsAt_congr h₁.incs]
    · intro j _; rw [h₂.incdirs, h₁.incdirs]
    · intro j hj; rw [h₂.incdirs, h₁.incdirs]; exact hj
    · refine rf0 st₂ stamp (.inl hmir) ?_
      rw [incsAt_congr h₂.incs, incsAt_congr h₁.incs, hAt.incs]
    · rw [incsAt_congr h₂.incs, incsAt_congr h₁.incs, hAt.incs, hc.incs0]
      simp [Ctx.finInc, hff, hpat, incFile]
  | unchanged tf =>
    obtain ⟨a, x, a', sz, a'', y, hs, rfl, hdst, hmi⟩ := patch_unchanged hpat
    simp only
    refine (writeTmp_safe hc hB hd ht rfl).append ?_
    intro st₁ hB₁ h₁
    rw [tmpOf_concat]
    have hAt₁ := hAt' h₁
    have hsha : o.sha x = o.sha y := by
      have := hc.kind (d ++ [n])
      rw [hdst, hmi] at this
      exact this.2 _ rfl
    refine chattr_safe hB₁ (hAt₁.mirror.trans hmi) ?_ ?_
    · rw [hAt₁.incs, ← hc.incs0]
      refine ⟨none, rfl, ?_, ?_, ?_⟩
      · intro b hb; have := hc.prot_dir _ b hb; rw [hmi] at this; cases this
      · intro b z hb; obtain ⟨_, h1, _⟩ := hc.prot_other _ b z hb; rw [hmi] at h1; cases h1
      intro b z hz
      obtain ⟨b', hb', _⟩ := hc.prot _ _ _ hz
      rw [hmi] at hb'; cases hb'
      refine ⟨?_, .inr (.inr rfl)⟩
      intro a₂ c₂ h2; simp only [Node.setAttr, Option.some.injEq, Node.reg.injEq] at h2
      intros; exact h2.2.symm
    · intro st₂ hB₂ k1 k2 k3 k4
      have hd2 : isDirAt st₂.mirror d = true := by
        rw [isDirAt_of_get (k1 d (concat_ne d n))]; exact h₁.dir
      have ht2 : get st₂.mirror (d ++ [c.s.tmp]) = some (.reg a x) := by
        rw [k1 _ hne1.symm]; exact h₁.tmp
      refine (deleteTmp_safe hc hB₂ hd2 ht2 rfl).weaken ?_
      intro st₃ hB₃ h₃
      have hmir : get st₃.mirror (d ++ [n]) = (c.mirror (d ++ [n])).map (·.setAttr a) := by
        rw [h₃.mirror _ hne1 hdne, k2, hmi]; rfl
      refine ⟨⟨?_, ?_, ?_, h₃.dir, ?_⟩, ⟨by simp [Ctx.fin, hff, hpat, hmir, Node.attr], ?_, ?_⟩⟩
      · intro j hj hjd
        by_cases hjt : j = d ++ [c.s.tmp]
        · subst hjt; rw [h₃.tmp, ht]
        · rw [h₃.mirror _ hjt hjd, k1 j hj, h₁.mirror _ hjt hjd]
      · intro j _; rw [incsAt_congr h₃.incs, incsAt_congr k3, incsAt_congr h₁.incs]
      · intro j _; rw [h₃.incdirs, k4, h₁.incdirs]
      · intro j hj; rw [h₃.incdirs, k4, h₁.incdirs]; exact hj
      · refine rf0 st₃ a (.inr hmir) ?_
        rw [incsAt_congr h₃.incs, incsAt_congr k3, incsAt_congr h₁.incs, hAt.incs]
      · rw [incsAt_congr h₃.incs, incsAt_congr k3, incsAt_congr h₁.incs, hAt.incs, hc.incs0]
        simp [Ctx.finInc, hff, hpat, incFile]
  | done tf =>
    cases tf with
    | some tf =>
      obtain ⟨hs, htf⟩ := patch_done hpat
      simp only
      have hr : tf.isReg = true → ∃ a y, c.patch o (d ++ [n]) = .done (some (.reg a y)) ∧
          some tf = some (.reg a y) := by
        intro h
        cases tf with
        | reg a y => exact ⟨a, y, hpat, rfl⟩
        | _ => cases h
      have hr' : tf.isReg = true → ∃ a y, c.patch o (d ++ [n]) = .done (some (.reg a y)) :=
        fun h => let ⟨a, y, h1, _⟩ := hr h; ⟨a, y, h1⟩
      refine ((writeTmp_safe hc hB hd ht htf).append (fun st₁ hB₁ h₁ =>
        (makeIncrement_safe hc hB₁ (hAt' h₁) ?_ hr').weaken
          (fun st₂ _ h₂ => (⟨st₁, h₁, h₂⟩ : ∃ st₁, TmpFr st st₁ d c.s.tmp (some tf) ∧
            Incd o P c st₁ st₂ (d ++ [n]) false tf.isReg)))).append ?_
      · intro h; right; rw [List.dropLast_concat, h₁.incdirs]; exact hinc h
      · rintro st₂ hB₂ ⟨st₁, h₁, h₂⟩
        rw [tmpOf_concat]
        have hold : P.old (d ++ [c.s.tmp]) = none := hc.old_tmp (by simp)
        refine rename_safe hB₂ (Ne.symm hnt) hold (by rw [h₂.mirror]; exact h₁.tmp) htf
          (by rw [h₂.mirror]; exact h₁.dir) ?_ ?_ ?_
        · rw [h₂.mirror, isDirAt_of_get (h₁.mirror _ hne1 hdne)]; exact hdn
        · rw [h₂.incs_i]
          refine RI_of_RF (hc.inc_isSome hr') (hc.rf_inc hr) ?_
          intro a y a' y' h1 h2
          exact hc.honest _ a y a' y' h1 (hs.trans h2)
        · intro st₃ hB₃ k1 k2 k3 k4 k5 k6
          refine ⟨hB₃, ⟨?_, ?_, ?_, k4, ?_⟩, ⟨by simp [Ctx.fin, hff, hpat, k3], ?_, ?_⟩⟩
          · intro j hj hjd
            by_cases hjt : j = d ++ [c.s.tmp]
            · subst hjt; rw [k2, ht]
            · rw [k1 j hjt hj hjd, h₂.mirror, h₁.mirror _ hjt hjd]
          · intro j hj; rw [incsAt_congr k5, h₂.incs j hj, incsAt_congr h₁.incs]
          · intro j hj; rw [k6, h₂.incdirs j hj, h₁.incdirs]
          · intro j hj; rw [k6]; apply h₂.incmono; rw [h₁.incdirs]; exact hj
          · rw [incsAt_congr k5, h₂.incs_i, k3]
            exact ⟨_, rfl, hc.rf_inc hr⟩
          · rw [incsAt_congr k5, h₂.incs_i]
            simp [Ctx.finInc, hff, hpat]
    | none =>
      have hs := patch_done_none hpat
      have hinc' : c.prev.isSome = true → d ++ [n] = [] ∨ (d ++ [n]).dropLast ∈ st.incdirs := by
        intro h; right; rw [List.dropLast_concat]; exact hinc h
      have hmk := makeIncrement_safe (stamp := stamp) (nd := false) (nr := false) hc hB hAt hinc' (by simp)
      simp only
      by_cases hm : (c.mirror (d ++ [n])).isSome = true
      · rw [if_pos hm]
        refine hmk.append ?_
        intro st₁ hB₁ h₁
        have hmg : get st₁.mirror (d ++ [n]) = c.mirror (d ++ [n]) := by rw [h₁.mirror, hAt.mirror]
        refine eff_safe hB₁ (i := d ++ [n]) (p := d) (v := none) ?_ (by rw [h₁.mirror]; exact hd)
          (concat_ne d n) ?_ ?_
        · have := apply_delete_leaf stamp st₁ (d ++ [n]) (by simp)
            (by rw [List.dropLast_concat, h₁.mirror]; exact hd) (by rw [hmg]; exact hm)
            (hB₁.wf.closed.none_below (by rw [h₁.mirror]; exact hdn))
          rwa [List.dropLast_concat] at this
        · rw [h₁.incs_i]
          exact RI_of_RF (hc.inc_isSome (by simp)) (hc.rf_inc (by simp)) (by simp)
        · intro st₂ hB₂ h₂
          refine ⟨hB₂, ((h₁.fr hd).trans h₂.fr).mono (by simp), ⟨by simp [Ctx.fin, hff, hpat, h₂.at_i], ?_, ?_⟩⟩
          · rw [incsAt_congr h₂.incs, h₁.incs_i, h₂.at_i]
            exact ⟨_, rfl, hc.rf_inc (by simp)⟩
          · rw [incsAt_congr h₂.incs, h₁.incs_i]
            simp [Ctx.finInc, hff, hpat]
      · rw [if_neg hm]
        refine hmk.weaken ?_
        intro st₁ hB₁ h₁
        have hmn : c.mirror (d ++ [n]) = none := by simpa using hm
        have hmg : get st₁.mirror (d ++ [n]) = none := by rw [h₁.mirror, hAt.mirror, hmn]
        refine ⟨h₁.fr hd, ⟨by simp [Ctx.fin, hff, hpat, hmg], ?_, ?_⟩⟩
        · rw [h₁.incs_i, hmg]
          exact ⟨_, rfl, hc.rf_inc (by simp)⟩
        · rw [h₁.incs_i]
          simp [Ctx.finInc, hff, hpat]

/-! ### A directory with everything in it -/

theorem RI_inc_any (hc : CtxOK o c P) {i : List α} {m : Option (Node A C S)} (hm : ∀ a y, m ≠ some (.reg a y)) :
    RI o P i m (incFile P i (c.incOf o i false) ++ P.incs0 i) :=
  RI_of_RF (hc.inc_isSome (by simp)) (hc.rf_inc (by simp))
    (fun a y a' y' _ h2 => absurd h2 (hm a' y'))

theorem rf_inc_any (hc : CtxOK o c P) {i : List α} {m : Option (Node A C S)} :
    RF o P i m (incFile P i (c.incOf o i false) ++ P.incs0 i) :=
  ⟨_, rfl, hc.rf_inc (by simp)⟩

/-- the state in which the contents of directory `i` are processed -/
structure Opened (o : Ops A C H Δ L) (P : Prot α A C S H Δ) (c : Ctx α A C S H Δ)
    (st st' : State α A C S H Δ) (d : List α) (n : α) (tmp : Option (Node A C S)) : Prop where
  mirror : ∀ j, j ≠ d ++ [n] → j ≠ d ++ [c.s.tmp] → j ≠ d → get st'.mirror j = get st.mirror j
  tmp : get st'.mirror (d ++ [c.s.tmp]) = tmp
  incs : ∀ j, j ≠ d ++ [n] → incsAt st' j = incsAt st j
  incs_i : incsAt st' (d ++ [n]) = incFile P (d ++ [n]) (c.incOf o (d ++ [n]) false) ++ P.incs0 (d ++ [n])
  incdirs : ∀ j, j ≠ d ++ [n] → (j ∈ st'.incdirs ↔ j ∈ st.incdirs)
  incmono : ∀ j, j ∈ st.incdirs → j ∈ st'.incdirs
  dir : isDirAt st'.mirror d = true
  dir_i : isDirAt st'.mirror (d ++ [n]) = true
  incdir : c.prev.isSome = true → d ++ [n] ∈ st'.incdirs

theorem start_dir_safe (hc : CtxOK o c P) (hB : BI o P M K st) {d : List α} {n : α}
    (hAt : At c st (d ++ [n])) (hd : isDirAt st.mirror d = true)
    (ht : get st.mirror (d ++ [c.s.tmp]) = none) (hnt : n ≠ c.s.tmp)
    (hinc : c.prev.isSome = true → d ∈ st.incdirs)
    (hdir : (if c.isFiller o (d ++ [n]) then isDirNode (c.mirror (d ++ [n])) else isDirNode (c.src (d ++ [n]))) = true) :
    Safe stamp (BI o P M K) (c.startSteps o (d ++ [n])) st
      (fun st' => Opened o P c st st' d n none) := by
  unfold Ctx.startSteps
  simp only [hdir, if_true]
  have hne1 : d ++ [c.s.tmp] ≠ d ++ [n] := by simpa using Ne.symm hnt
  have hdne : d ++ [n] ≠ d := (concat_ne d n).symm
  have hdl : (d ++ [n]).dropLast = d := by simp
  refine (makeIncrement_safe hc hB hAt (fun h => .inr (by rw [hdl]; exact hinc h)) (by simp)).append ?_
  intro st₁ hB₁ h₁
  have hmg : get st₁.mirror (d ++ [n]) = c.mirror (d ++ [n]) := by rw [h₁.mirror, hAt.mirror]
  have hd₁ : isDirAt st₁.mirror d = true := by rw [h₁.mirror]; exact hd
  by_cases hm : isDirNode (c.mirror (d ++ [n])) = true
  · rw [if_pos hm]
    refine ⟨hB₁, fun j _ _ _ => by rw [h₁.mirror], by rw [h₁.mirror]; exact ht, h₁.incs, h₁.incs_i, h₁.incdirs,
      h₁.incmono, hd₁, ?_, fun h => h₁.incdir h (by simp)⟩
    rw [isDirAt, hmg]
    cases hx : c.mirror (d ++ [n]) with
    | none => simp [hx, isDirNode] at hm
    | some x => cases x <;> simp_all [isDirNode, Node.isDir]
  · rw [if_neg hm]
    have hnd : isDirAt st₁.mirror (d ++ [n]) = false := by
      rw [isDirAt, hmg]
      cases hx : c.mirror (d ++ [n]) with
      | none => rfl
      | some x => cases x <;> simp_all [isDirNode, Node.isDir]
    -- the last step
    have last : ∀ st₂, BI o P M K st₂ → Eff st₁ st₂ (d ++ [n]) d none ∨ st₂ = st₁ ∧ c.mirror (d ++ [n]) = none →
        Safe stamp (BI o P M K) [.mkdir (d ++ [n])] st₂ (fun st' => Opened o P c st st' d n none) := by
      intro st₂ hB₂ h₂
      have hn : get st₂.mirror (d ++ [n]) = none := by
        rcases h₂ with h₂ | ⟨rfl, h₂⟩
        · exact h₂.at_i
        · rw [hmg, h₂]
      have hd₂ : isDirAt st₂.mirror d = true := by
        rcases h₂ with h₂ | ⟨rfl, _⟩
        · exact h₂.parent
        · exact hd₁
      have hincs : st₂.incs = st₁.incs := by
        rcases h₂ with h₂ | ⟨rfl, _⟩
        · exact h₂.incs
        · rfl
      have hincd : st₂.incdirs = st₁.incdirs := by
        rcases h₂ with h₂ | ⟨rfl, _⟩
        · exact h₂.incdirs
        · rfl
      have hfr : ∀ j, j ≠ d ++ [n] → j ≠ d → get st₂.mirror j = get st.mirror j := by
        intro j h1 h2
        rw [← h₁.mirror]
        rcases h₂ with h₂ | ⟨rfl, _⟩
        · exact h₂.frame j h1 h2
        · rfl
      refine eff_safe hB₂ (i := d ++ [n]) (p := d) (v := some (.dir stamp)) ?_ hd₂ (concat_ne d n) ?_ ?_
      · have := apply_mkdir stamp st₂ (d ++ [n]) (by simp) (by rw [hdl]; exact hd₂) hn
        rwa [hdl] at this
      · rw [incsAt_congr hincs, h₁.incs_i]; exact RI_inc_any hc (by simp)
      · intro st₃ hB₃ h₃
        refine ⟨hB₃, ?_, ?_, ?_, ?_, ?_, ?_, h₃.parent, ?_, ?_⟩
        · intro j h1 _ h3; rw [h₃.frame j h1 h3, hfr j h1 h3]
        · rw [h₃.frame _ hne1 (concat_ne d _).symm, hfr _ hne1 (concat_ne d _).symm, ht]
        · intro j hj; rw [incsAt_congr h₃.incs, incsAt_congr hincs, h₁.incs j hj]
        · rw [incsAt_congr h₃.incs, incsAt_congr hincs, h₁.incs_i]
        · intro j hj; rw [h₃.incdirs, hincd, h₁.incdirs j hj]
        · intro j hj; rw [h₃.incdirs, hincd]; exact h₁.incmono j hj
        · rw [isDirAt, h₃.at_i]
        · intro h; rw [h₃.incdirs, hincd]; exact h₁.incdir h (by simp)
    by_cases hs : (c.mirror (d ++ [n])).isSome = true
    · rw [if_pos hs]
      refine eff_safe hB₁ (i := d ++ [n]) (p := d) (v := none) ?_ hd₁ (concat_ne d n) ?_ ?_
      · have := apply_delete_leaf stamp st₁ (d ++ [n]) (by simp)
          (by rw [hdl]; exact hd₁) (by rw [hmg]; exact hs) (hB₁.wf.closed.none_below hnd)
        rwa [hdl] at this
      · rw [h₁.incs_i]; exact RI_inc_any hc (by simp)
      · intro st₂ hB₂ h₂; exact last st₂ hB₂ (.inl h₂)
    · rw [if_neg hs]
      exact last st₁ hB₁ (.inr ⟨rfl, by simpa using hs⟩)

theorem start_nondir_safe (hc : CtxOK o c P) (hB : BI o P M K st) {d : List α} {n : α}
    (hAt : At c st (d ++ [n])) (hd : isDirAt st.mirror d = true)
    (ht : get st.mirror (d ++ [c.s.tmp]) = none) (hnt : n ≠ c.s.tmp)
    (hinc : c.prev.isSome = true → d ∈ st.incdirs)
    (hfil : c.isFiller o (d ++ [n]) = false) (hsrc : isDirNode (c.src (d ++ [n])) = false)
    (hmir : isDirNode (c.mirror (d ++ [n])) = true) :
    Safe stamp (BI o P M K) (c.startSteps o (d ++ [n])) st
      (fun st' => Opened o P c st st' d n (c.src (d ++ [n]))) := by
  unfold Ctx.startSteps
  simp only [hfil, hsrc, Bool.false_eq_true, if_false]
  have hne1 : d ++ [n] ≠ d ++ [c.s.tmp] := by simpa using hnt
  have hdne : d ++ [n] ≠ d := (concat_ne d n).symm
  have hdl : (d ++ [n]).dropLast = d := by simp
  have step1 : Safe stamp (BI o P M K) (c.writeTmp (d ++ [n]) (c.src (d ++ [n]))) st
      (fun st' => TmpFr st st' d c.s.tmp (c.src (d ++ [n]))) := by
    cases hs : c.src (d ++ [n]) with
    | none => exact ⟨hB, fun _ _ _ => rfl, ht, hd, rfl, rfl⟩
    | some tf => exact writeTmp_safe hc hB hd ht (by simpa [isDirNode, hs] using hsrc)
  refine step1.append ?_
  intro st₁ hB₁ h₁
  have hAt₁ : At c st₁ (d ++ [n]) := by
    refine ⟨by rw [h₁.mirror _ hne1 hdne, hAt.mirror], by rw [incsAt_congr h₁.incs, hAt.incs], ?_⟩
    rw [h₁.incdirs]; exact hAt.incdirs
  refine (makeIncrement_safe hc hB₁ hAt₁ (fun h => .inr ?_) (by simp)).weaken ?_
  · rw [hdl, h₁.incdirs]; exact hinc h
  · intro st₂ hB₂ h₂
    refine ⟨?_, ?_, ?_, h₂.incs_i, ?_, ?_, ?_, ?_, fun h => h₂.incdir h (by simp [hmir])⟩
    · intro j _ h2 h3; rw [h₂.mirror, h₁.mirror j h2 h3]
    · rw [h₂.mirror, h₁.tmp]
    · intro j hj; rw [h₂.incs j hj, incsAt_congr h₁.incs]
    · intro j hj; rw [h₂.incdirs j hj, h₁.incdirs]
    · intro j hj; apply h₂.incmono; rw [h₁.incdirs]; exact hj
    · rw [h₂.mirror]; exact h₁.dir
    · rw [h₂.mirror, isDirAt, hAt₁.mirror]
      cases hx : c.mirror (d ++ [n]) with
      | none => simp [hx, isDirNode] at hmir
      | some x => cases x <;> simp_all [isDirNode, Node.isDir]

end Verif.Repo
