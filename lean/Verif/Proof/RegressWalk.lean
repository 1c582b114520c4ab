import Verif.Proof.RegressEvent
/- All the events of a regress, one after the other. -/
namespace Verif.Repo
open Verif.Collate Verif.FillIn Verif.TreeReducer Verif.MetaChain Verif.JoinSpec Verif.NestingSpec
set_option linter.unusedSectionVars false
variable {α A C S H Δ L : Type} [LinearOrder α] [DecidableEq A] [DecidableEq S] [DecidableEq H] [DecidableEq L]
variable {o : Ops A C H Δ L} {rsv : α → Prop} {P : Prot α A C S H Δ} {st st' : State α A C S H Δ}
  {T0 : Files α (Node A C S)} {c : RCtx α A C S H Δ} {M : Dir (List α) (MRec A S H)} {K : List Nat} {stamp : A}

/-- What is known about the events within a directory `d`. -/
structure RWalk (c : RCtx α A C S H Δ) (d : List α) (ev : List (Event α)) : Prop where
  fast : ∀ i ∈ fasts ev, isDirNode (c.mirror i) = false ∧ isDirRec (c.rorp i) = false
  slow : ∀ i ∈ starts ev, isDirNode (c.mirror i) = true ∨ isDirRec (c.rorp i) = true
  par : ∀ i ∈ processed ev, (c.mirror i).isSome = true ∨ (c.rorp i).isSome = true →
    i.dropLast = d ∨ i.dropLast ∈ starts ev
  all : ∀ i ∈ starts ev, ∀ j, Below i j → (c.mirror j).isSome = true → j ∈ processed ev
  sorted : (processed ev).Pairwise (· < ·)

theorem below_ne_nil {d i : List α} (h : Below d i) : i ≠ [] := by
  rintro rfl
  exact h.2 (List.prefix_nil.mp h.1)

theorem dropLast_le (i : List α) : i.dropLast ≤ i := prefix_le (List.dropLast_prefix i)

theorem Done.same {i : List α} {X : List α → Prop} (h : Done o P T0 st i) (hf : Frm st st' X) (hi : ¬ X i) :
    Done o P T0 st' i :=
  ⟨(hf.mirror i hi).loose h.mirror, (hf.incs i hi).trans h.incs⟩

theorem Fresh.same {i : List α} {X : List α → Prop} (h : Fresh c st i) (hf : Frm st st' X) (hi : ¬ X i) :
    Fresh c st' i :=
  ⟨(hf.mirror i hi).trans h.mirror, (hf.incs i hi).trans h.incs⟩

theorem Frm.isDirAt {i : List α} {X : List α → Prop} (hf : Frm st st' X) (hi : ¬ X i) (h : isDirAt st.mirror i = true) :
    isDirAt st'.mirror i = true := by
  rw [← isDirNode_get, (hf.mirror i hi).dir, isDirNode_get]; exact h

theorem active_of_slow {i : List α} (h : isDirNode (c.mirror i) = true ∨ isDirRec (c.rorp i) = true) :
    (c.mirror i).isSome = true ∨ (c.rorp i).isSome = true := by
  rcases h with h | h
  · left; cases hm : c.mirror i with
    | none => rw [hm] at h; cases h
    | some _ => rfl
  · right; cases hm : c.rorp i with
    | none => rw [hm] at h; cases h
    | some _ => rfl

theorem looseNode_none {m : Option (Node A C S)} (h : LooseNode o m none) : m = none := by
  cases m with
  | none => rfl
  | some k => cases k <;> exact h.elim

theorem regWalk_safe (hc : RegOK o rsv c P T0) {d : List α} {ev : List (Event α)} (hn : Nested d ev) :
    ∀ {st : State α A C S H Δ}, BI o P M K st → RWalk c d ev → isDirAt st.mirror d = true → TmpFree c st →
    (∀ i ∈ processed ev, ∀ j, i <+: j → Fresh c st j) →
    Safe stamp (BI o P M K) (ev.flatMap (c.eventSteps o)) st (fun st' =>
      Frm st st' (· ∈ processed ev) ∧ (∀ i ∈ processed ev, Done o P T0 st' i) ∧ TmpFree c st') := by
  induction hn with
  | nil =>
    intro st hB _ _ ht _
    exact ⟨hB, .refl _ _, by simp [processed], ht⟩
  | @file d i r hb hr ih =>
    intro st hB hW hd ht hF
    have hsr : (i :: processed r).Pairwise (· < ·) := hW.sorted
    obtain ⟨hlt, hsr'⟩ := List.pairwise_cons.mp hsr
    have hnd := nested_below hr
    obtain ⟨f1, f2⟩ := hW.fast i (by simp [fasts])
    rw [List.flatMap_cons]
    have hF' := hF
    have hfr : Fresh c st i := hF i (by simp [processed]) i (List.prefix_refl _)
    refine (regFast_safe hc hB hfr ht f1 f2 ?_).append ?_
    · intro hact
      refine ⟨(below_ne_nil hb), ?_⟩
      rcases hW.par i (by simp [processed]) hact with h | h
      · rw [h]; exact hd
      · exfalso
        have := hlt _ (starts_subset h)
        exact absurd this (not_lt.mpr (dropLast_le i))
    · intro st₁ hB₁ h₁
      refine (ih hB₁ ⟨fun j hj => hW.fast j (by simp [fasts, hj]), fun j hj => hW.slow j (by simpa [starts] using hj), ?_, ?_, hsr'⟩
        (h₁.frm.isDirAt hb.2 hd) h₁.tmp ?_).weaken ?_
      · intro j hj hact
        simpa [starts] using hW.par j (by simp [processed, hj]) hact
      · intro i' hi' j hbj hm
        have := hW.all i' (by simpa [starts] using hi') j hbj hm
        simp only [processed, List.mem_cons] at this
        rcases this with rfl | h
        · exact absurd (hlt _ (starts_subset hi')) (not_lt.mpr (prefix_le hbj.1))
        · exact h
      · intro k hk j hkj
        refine (hF k (by simp [processed, hk]) j hkj).same h₁.frm ?_
        rintro rfl
        exact absurd (hlt k hk) (not_lt.mpr (prefix_le hkj))
      · rintro st₂ hB₂ ⟨g1, g2, g3⟩
        refine ⟨(h₁.frm.trans g1).mono (by intro j hj; simpa [processed] using hj), ?_, g3⟩
        intro k hk
        simp only [processed, List.mem_cons] at hk
        rcases hk with rfl | hk
        · exact h₁.done.same g1 (fun hm => absurd (hlt _ hm) (lt_irrefl _))
        · exact g2 k hk
  | @dir d i inner r hb hin hr hnp ih1 ih2 =>
    intro st hB hW hd ht hF
    have hpe : processed (.start i :: (inner ++ .finish i :: r)) = i :: (processed inner ++ processed r) := by
      simp [processed, C13.processed_append]
    have hse : starts (.start i :: (inner ++ .finish i :: r)) = i :: (starts inner ++ starts r) := by
      simp [starts, starts_append]
    have hfe : fasts (.start i :: (inner ++ .finish i :: r)) = fasts inner ++ fasts r := by
      simp [fasts, fasts_append]
    obtain ⟨w1, w2, w3, w4, w5⟩ := hW
    rw [hpe] at hF w3 w4 w5 ⊢
    rw [hse] at w2 w3 w4
    rw [hfe] at w1
    obtain ⟨hlt, hsr⟩ := List.pairwise_cons.mp w5
    obtain ⟨hsi, hsr', hir⟩ := List.pairwise_append.mp hsr
    have hbi := nested_below hin
    have hbr := nested_below hr
    have hfr : Fresh c st i := hF i (by simp) i (List.prefix_refl _)
    have hslow := w2 i (by simp)
    have hpar : i.dropLast = d := by
      rcases w3 i (by simp) (active_of_slow hslow) with h | h
      · exact h
      · exfalso
        simp only [List.mem_cons, List.mem_append] at h
        rcases h with h | h | h
        · exact dropLast_ne (below_ne_nil hb) h
        · exact absurd (hlt _ (by simp [starts_subset h])) (not_lt.mpr (dropLast_le i))
        · exact absurd (hlt _ (by simp [starts_subset h])) (not_lt.mpr (dropLast_le i))
    have hdi : ¬ d = i := hb.2
    have hdin : d ∉ processed inner := by
      intro h
      have h1 := (hbi d h).1.length_le
      have h2 := hb.1.length_le
      exact hb.2 (hb.1.eq_of_length_le h1)
    have hii : i ∉ processed inner := fun h => (hbi i h).2 rfl
    have hWi : RWalk c i inner := by
      refine ⟨fun j hj => w1 j (by simp [hj]), fun j hj => w2 j (by simp [hj]), ?_, ?_, hsi⟩
      · intro j hj hact
        have h := w3 j (by simp [hj]) hact
        simp only [List.mem_cons, List.mem_append] at h
        rcases h with h | h | h | h
        · exfalso
          obtain ⟨k1, k2⟩ := hbi j hj
          have e1 : i.length < j.length := by
            rcases Nat.lt_or_ge i.length j.length with h | h
            · exact h
            · exact absurd (k1.eq_of_length_le h) k2
          have e2 : d.length < i.length := by
            rcases Nat.lt_or_ge d.length i.length with h | h
            · exact h
            · exact absurd (hb.1.eq_of_length_le h) hb.2
          have e3 := congrArg List.length h
          rw [List.length_dropLast] at e3
          omega
        · exact .inl h
        · exact .inr h
        · exact absurd (hir j hj _ (starts_subset h)) (not_lt.mpr (dropLast_le j))
      · intro i' hi' j hbj hm
        have h := w4 i' (by simp [hi']) j hbj hm
        have hbi' := hbi i' (starts_subset hi')
        simp only [List.mem_cons, List.mem_append] at h
        rcases h with rfl | h | h
        · exact absurd (hbi'.1.eq_of_length_le hbj.1.length_le) hbi'.2
        · exact h
        · exact absurd (hbi'.1.trans hbj.1) (hnp j h)
    have hWr : RWalk c d r := by
      refine ⟨fun j hj => w1 j (by simp [hj]), fun j hj => w2 j (by simp [hj]), ?_, ?_, hsr'⟩
      · intro j hj hact
        have h := w3 j (by simp [hj]) hact
        have hnj := hnp j hj
        simp only [List.mem_cons, List.mem_append] at h
        rcases h with h | h | h | h
        · exact .inl h
        · exact absurd (h ▸ List.dropLast_prefix j) hnj
        · exact absurd ((hbi _ (starts_subset h)).1.trans (List.dropLast_prefix j)) hnj
        · exact .inr h
      · intro i' hi' j hbj hm
        have h := w4 i' (by simp [hi']) j hbj hm
        have hii' := starts_subset hi'
        simp only [List.mem_cons, List.mem_append] at h
        rcases h with rfl | h | h
        · exact absurd (hlt i' (by simp [hii'])) (not_lt.mpr (prefix_le hbj.1))
        · exact absurd (hir j h i' hii') (not_lt.mpr (prefix_le hbj.1))
        · exact h
    have hsplit : (Event.start i :: (inner ++ .finish i :: r)).flatMap (c.eventSteps o) =
        c.startSteps i ++ (inner.flatMap (c.eventSteps o) ++ (c.finishSteps o i ++ r.flatMap (c.eventSteps o))) := by
      simp [List.flatMap_cons, List.flatMap_append, RCtx.eventSteps]
    rw [hsplit]
    refine (regStart_safe hc hB hfr ht hslow (fun _ => by rw [hpar]; exact hd)).append ?_
    intro st₁ hB₁ h₁
    refine (ih1 hB₁ hWi h₁.dir h₁.tmp ?_).append ?_
    · intro k hk j hkj
      refine (hF i (by simp) j ((hbi k hk).1.trans hkj)).same h₁.frm ?_
      rintro rfl
      exact (hbi k hk).2 ((hbi k hk).1.eq_of_length_le hkj.length_le)
    rintro st₂ hB₂ ⟨g1, g2, g3⟩
    refine (regFinish_safe hc hB₂ g3 (g1.isDirAt hii h₁.dir) ((g1.incs i hii).trans h₁.incs) hslow ?_ ?_).append ?_
    · intro _
      rw [hpar]
      exact g1.isDirAt hdin (h₁.frm.isDirAt hdi hd)
    · intro hrd j hij hne
      have hT : isDirNode (get T0 i) = false := by rw [← isDirRec_of_desc (hc.desc i)]; exact hrd
      by_cases hji : j ∈ processed inner
      · have h := (g2 j hji).mirror
        rw [hc.below_none hT hij hne] at h
        exact looseNode_none h
      · have h := ((hF i (by simp) j hij).same h₁.frm hne).same g1 hji
        have hnone : c.mirror j = none := by
          by_contra hcon
          have h := w4 i (by simp) j ⟨hij, Ne.symm hne⟩ (by simpa [Option.isSome_iff_ne_none] using hcon)
          simp only [List.mem_cons, List.mem_append] at h
          rcases h with h | h | h
          · exact hne h
          · exact hji h
          · exact hnp j h hij
        have h' := h.mirror
        rw [hnone] at h'
        exact h'.eq rfl
    intro st₃ hB₃ h₃
    have hpre : ∀ j ∈ i :: processed inner, i <+: j := by
      intro j hj
      rcases List.mem_cons.mp hj with rfl | hj
      · exact List.prefix_refl _
      · exact (hbi j hj).1
    have hF03 : Frm st st₃ (· ∈ i :: processed inner) :=
      ((h₁.frm.trans g1).trans h₃.frm).mono (by intro j hj; simp only [List.mem_cons]; tauto)
    refine (ih2 hB₃ hWr (h₃.frm.isDirAt hdi (g1.isDirAt hdin (h₁.frm.isDirAt hdi hd))) h₃.tmp ?_).weaken ?_
    · intro k hk j hkj
      refine (hF k (by simp [hk]) j hkj).same hF03 ?_
      intro hm
      have := hpre j hm
      rcases List.prefix_or_prefix_of_prefix this hkj with h | h
      · exact hnp k hk h
      · exact absurd (hlt k (by simp [hk])) (not_lt.mpr (prefix_le h))
    · rintro st₄ hB₄ ⟨e1, e2, e3⟩
      refine ⟨(hF03.trans e1).mono (by
        intro j hj; simp only [List.mem_cons, List.mem_append] at hj ⊢; tauto), ?_, e3⟩
      intro k hk
      have hk' : k ∈ i :: processed inner ∨ k ∈ processed r := by
        simp only [List.mem_cons, List.mem_append] at hk ⊢; tauto
      rcases hk' with hk' | hk'
      · have hnr : k ∉ processed r := fun h => hnp k h (hpre k hk')
        refine Done.same ?_ e1 hnr
        rcases List.mem_cons.mp hk' with rfl | hk''
        · exact h₃.done
        · exact (g2 k hk'').same h₃.frm (by rintro rfl; exact hii hk'')
      · exact e2 k hk'

end Verif.Repo
