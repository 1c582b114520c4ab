import Verif.Proof.RepoEvent
/- The walk over all changed files: induction over the (tight) trace of the tree reducer. -/
namespace Verif.Repo
open Verif.Collate Verif.FillIn Verif.TreeReducer Verif.MetaChain Verif.NestingSpec
set_option linter.unusedSectionVars false
variable {α A C S H Δ L : Type} [LinearOrder α] [DecidableEq A] [DecidableEq S] [DecidableEq H]
variable {o : Ops A C H Δ L} {P : Prot α A C S H Δ} {M : Dir (List α) (MRec A S H)} {K : List Nat}
  {st st' : State α A C S H Δ} {stamp : A} {c : Ctx α A C S H Δ}

/-- files processed in a trace -/
def fasts : List (Event α) → List (List α)
  | [] => []
  | .fast i :: r => i :: fasts r
  | .start _ :: r => fasts r
  | .finish _ :: r => fasts r

theorem fasts_append (a b : List (Event α)) : fasts (a ++ b) = fasts a ++ fasts b := by
  induction a with
  | nil => rfl
  | cons e a ih => cases e <;> simp [fasts, ih]

/-- what the walk relies on, about the elements to be processed -/
structure WalkOK (o : Ops A C H Δ L) (c : Ctx α A C S H Δ) (ev : List (Event α)) : Prop where
  fast : ∀ i ∈ fasts ev, c.isFast i = true
  start : ∀ i ∈ starts ev, c.isFast i = false
  cover : ∀ i ∈ starts ev, isDirNode (c.src i) = false → ∀ j, Below i j → (c.mirror j).isSome = true →
    j ∈ processed ev
  notmp : ∀ i ∈ processed ev, c.s.tmp ∉ i

theorem CtxOK.fin_none (hfil : ∀ i, c.isFiller o i = true → isDirNode (c.src i) = true) {i : List α}
    (hs : c.src i = none) : c.fin o i = none := by
  unfold Ctx.fin
  split
  · have : c.patch o i = .done none := by simp [Ctx.patch, hs]
    rw [this]
  · split
    · next h => have := hfil i h; rw [hs] at this; cases this
    · exact hs

theorem CtxOK.src_none_below (hc : CtxOK o c P) {i j : List α} (h : isDirNode (c.src i) = false)
    (hb : Below i j) : c.src j = none := by
  obtain ⟨⟨t, rfl⟩, hne⟩ := hb
  induction t using List.reverseRecOn with
  | nil => simp at hne
  | append_singleton t x ih =>
    by_contra hcon
    have h1 := hc.src_closed (i ++ (t ++ [x])) (by simp) (by simpa [Option.isSome_iff_ne_none] using hcon)
    rw [← List.append_assoc, List.dropLast_concat] at h1
    by_cases ht : t = []
    · subst ht; simp only [List.append_nil] at h1; rw [h] at h1; cases h1
    · have := ih (by simpa using ht)
      rw [this] at h1; cases h1

theorem CtxOK.mirror_dir_of_slow (hc : CtxOK o c P) {i : List α} (hf : c.isFast i = false)
    (hs : isDirNode (c.src i) = false) : isDirNode (c.mirror i) = true := by
  have hk := hc.kind i
  have hd : isDirRec (c.dst i) = true := by
    simpa [Ctx.isFast, hs] using hf
  cases h : c.dst i with
  | none => rw [h] at hd; cases hd
  | some x =>
    rw [h] at hk hd
    cases x with
    | dir a =>
      cases h2 : c.mirror i with
      | none => rw [h2] at hk; exact hk.elim
      | some y =>
        rw [h2] at hk
        cases y with
        | dir b => rfl
        | _ => exact hk.elim
    | _ => cases hd

theorem prefix_concat_cases {d i : List α} {n : α} (hb : Below d i) (h : i <+: d ++ [n]) : i = d ++ [n] := by
  apply h.eq_of_length_le
  obtain ⟨h1, h2⟩ := hb
  have h3 : d.length < i.length := by
    rcases lt_or_eq_of_le h1.length_le with h | h
    · exact h
    · exact absurd (h1.eq_of_length h) h2
  simp; omega

theorem below_not_mem {d i j : List α} {n : α} (hi : Below d i) (hn : ¬ d ++ [n] <+: i) (hij : i <+: j) :
    ¬ d ++ [n] <+: j := by
  intro h
  rcases List.prefix_or_prefix_of_prefix hij h with h1 | h1
  · exact hn (prefix_concat_cases hi h1 ▸ List.prefix_refl _)
  · exact hn h1

theorem walk_safe (hc : CtxOK o c P)
    (hfil : ∀ i, c.isFiller o i = true → isDirNode (c.src i) = true ∧ isDirNode (c.mirror i) = true)
    {d : List α} {ev : List (Event α)} (hT : Tight d ev) :
    ∀ st, BI o P M K st → WalkOK o c ev →
    isDirAt st.mirror d = true → get st.mirror (d ++ [c.s.tmp]) = none →
    (c.prev.isSome = true → d ∈ st.incdirs) →
    (∀ i ∈ processed ev, ∀ j, i <+: j → At c st j) →
    Safe stamp (BI o P M K) (ev.flatMap (c.eventSteps o)) st
      (fun st' => Fr st st' (· ∈ processed ev) d ∧ ∀ i ∈ processed ev, Post o P c st' i) := by
  induction hT with
  | @nil d =>
    intro st hB _ hd _ _ _
    exact ⟨hB, ⟨fun _ _ _ => rfl, fun _ _ => rfl, fun _ _ => Iff.rfl, hd, fun _ h => h⟩, by simp [processed]⟩
  | @file d n r hr hnp ih =>
    intro st hB hW hd ht hinc hAt
    have hnt : n ≠ c.s.tmp := by
      rintro rfl; exact hW.notmp (d ++ [c.s.tmp]) (by simp [processed]) (by simp)
    have hbr := tight_below hr
    rw [List.flatMap_cons]
    refine (fast_safe hc hB (hAt _ (by simp [processed]) _ (List.prefix_refl _)) hd ht hnt
      (hW.fast _ (by simp [fasts])) hinc).append ?_
    rintro st₁ hB₁ ⟨hF₁, hP₁⟩
    have hW' : WalkOK o c r := by
      refine ⟨fun i hi => hW.fast i (by simp [fasts, hi]), fun i hi => hW.start i (by simp [starts, hi]), ?_,
        fun i hi => hW.notmp i (by simp [processed, hi])⟩
      intro i hi hs j hb hm
      have h1 := hW.cover i (by simp [starts, hi]) hs j hb hm
      rcases List.mem_cons.mp (show j ∈ (d ++ [n]) :: processed r from h1) with rfl | h1
      · exact absurd (prefix_concat_cases (hbr i (starts_subset hi)) hb.1) hb.2
      · exact h1
    refine (ih st₁ hB₁ hW' hF₁.dir ?_ (fun h => hF₁.incmono _ (hinc h)) ?_).weaken ?_
    · rw [hF₁.mirror _ (by simpa using Ne.symm hnt) (concat_ne d _).symm, ht]
    · intro i hi j hij
      have hx : j ≠ d ++ [n] := by
        rintro rfl; exact below_not_mem (hbr i hi) (hnp i hi) hij (List.prefix_refl _)
      have hxd : j ≠ d := by
        rintro rfl
        obtain ⟨h1, h2⟩ := hbr i hi
        exact h2 (h1.eq_of_length_le hij.length_le)
      have := hAt i (by simp [processed, hi]) j hij
      exact ⟨by rw [hF₁.mirror j hx hxd, this.mirror], by rw [hF₁.incs j hx, this.incs],
        by rw [hF₁.incdirs j hx, this.incdirs]⟩
    · rintro st₂ hB₂ ⟨hF₂, hP₂⟩
      have hni : d ++ [n] ∉ processed r := fun h => hnp _ h (List.prefix_refl _)
      refine ⟨(hF₁.trans hF₂).mono (by
        intro j hj
        show j ∈ (d ++ [n]) :: processed r
        rcases hj with rfl | hj
        · simp
        · simp [hj]), ?_⟩
      intro i hi
      rcases List.mem_cons.mp (show i ∈ (d ++ [n]) :: processed r from hi) with rfl | hi
      · have hg := hF₂.mirror (d ++ [n]) hni (concat_ne d n).symm
        exact ⟨by rw [hg]; exact hP₁.fin, by rw [hg, hF₂.incs _ hni]; exact hP₁.rf, by rw [hF₂.incs _ hni]; exact hP₁.inc⟩
      · exact hP₂ i hi
  | @dir d n inner r hin hr hnp ih1 ih2 =>
    intro st hB hW hd ht hinc hAt
    have hpe : processed (.start (d ++ [n]) :: (inner ++ .finish (d ++ [n]) :: r)) =
        (d ++ [n]) :: (processed inner ++ processed r) := by
      simp [processed, C13.processed_append]
    have hse : starts (.start (d ++ [n]) :: (inner ++ .finish (d ++ [n]) :: r)) =
        (d ++ [n]) :: (starts inner ++ starts r) := by
      simp [starts, starts_append]
    have hfe : fasts (.start (d ++ [n]) :: (inner ++ .finish (d ++ [n]) :: r)) =
        fasts inner ++ fasts r := by
      simp [fasts, fasts_append]
    rw [hpe] at hAt ⊢
    obtain ⟨w1, w2, w3, w4⟩ := hW
    rw [hpe] at w3 w4
    rw [hse] at w2 w3
    rw [hfe] at w1
    have hnt : n ≠ c.s.tmp := by
      rintro rfl; exact w4 (d ++ [c.s.tmp]) (by simp) (by simp)
    have hbr := tight_below hr
    have hbi := tight_below hin
    have hne1 : d ++ [c.s.tmp] ≠ d ++ [n] := by simpa using Ne.symm hnt
    have hAti : At c st (d ++ [n]) := hAt _ (by simp) _ (List.prefix_refl _)
    have hslow := w2 (d ++ [n]) (by simp)
    have hnbi : ∀ j, Below (d ++ [n]) j → j ≠ d ++ [c.s.tmp] ∧ j ≠ d ∧ j ≠ d ++ [n] := by
      intro j hj
      refine ⟨?_, ?_, fun e => hj.2 e.symm⟩
      · rintro rfl
        exact hj.2 (hj.1.eq_of_length (by simp))
      · rintro rfl
        have := hj.1.length_le; simp at this; omega
    have hWi : WalkOK o c inner := by
      refine ⟨fun i hi => w1 i (by simp [hi]), fun i hi => w2 i (by simp [hi]), ?_, fun i hi => w4 i (by simp [hi])⟩
      intro i hi hs j hb hm
      have h1 := w3 i (by simp [hi]) hs j hb hm
      have hbi' := hbi i (starts_subset hi)
      simp only [List.mem_cons, List.mem_append] at h1
      rcases h1 with rfl | h1 | h1
      · exact absurd (hbi'.1.eq_of_length_le hb.1.length_le) hbi'.2
      · exact h1
      · exact absurd (hbi'.1.trans hb.1) (hnp j h1)
    have hWr : WalkOK o c r := by
      refine ⟨fun i hi => w1 i (by simp [hi]), fun i hi => w2 i (by simp [hi]), ?_, fun i hi => w4 i (by simp [hi])⟩
      intro i hi hs j hb hm
      have h1 := w3 i (by simp [hi]) hs j hb hm
      have hii := starts_subset hi
      have hnj := below_not_mem (hbr i hii) (hnp i hii) hb.1
      simp only [List.mem_cons, List.mem_append] at h1
      rcases h1 with rfl | h1 | h1
      · exact absurd (List.prefix_refl _) hnj
      · exact absurd (hbi j h1).1 hnj
      · exact h1
    -- start and inner part
    have part1 : ∀ tmp, Safe stamp (BI o P M K) (c.startSteps o (d ++ [n])) st
        (fun st' => Opened o P c st st' d n tmp) →
        Safe stamp (BI o P M K) (c.startSteps o (d ++ [n]) ++ inner.flatMap (c.eventSteps o)) st
          (fun st' => ∃ st₁, Opened o P c st st₁ d n tmp ∧ Fr st₁ st' (· ∈ processed inner) (d ++ [n]) ∧
            ∀ i ∈ processed inner, Post o P c st' i) := by
      intro tmp hS
      refine hS.append ?_
      intro st₁ hB₁ h₁
      refine (ih1 st₁ hB₁ hWi h₁.dir_i ?_ h₁.incdir ?_).weaken ?_
      · have hb : Below (d ++ [n]) (d ++ [n] ++ [c.s.tmp]) := ⟨List.prefix_append _ _, concat_ne _ _⟩
        obtain ⟨k1, k2, k3⟩ := hnbi _ hb
        rw [h₁.mirror _ k3 k1 k2, (hAt _ (by simp) _ hb.1).mirror]
        exact hc.mir_tmp _ (by simp)
      · intro i hi j hij
        have hb : Below (d ++ [n]) j := by
          obtain ⟨k1, k2⟩ := hbi i hi
          refine ⟨k1.trans hij, ?_⟩
          rintro rfl
          exact k2 (k1.eq_of_length_le hij.length_le)
        obtain ⟨k1, k2, k3⟩ := hnbi _ hb
        have := hAt _ (by simp) j hb.1
        exact ⟨by rw [h₁.mirror j k3 k1 k2, this.mirror], by rw [h₁.incs j k3, this.incs],
          by rw [h₁.incdirs j k3, this.incdirs]⟩
      · rintro st₂ hB₂ ⟨hF₂, hP₂⟩
        exact ⟨st₁, h₁, hF₂, hP₂⟩
    have hbi_ne : ∀ j ∈ processed inner, j ≠ d ++ [c.s.tmp] ∧ j ≠ d ∧ j ≠ d ++ [n] :=
      fun j hj => hnbi j (hbi j hj)
    -- the whole block
    have block : Safe stamp (BI o P M K)
        (c.startSteps o (d ++ [n]) ++ inner.flatMap (c.eventSteps o) ++ c.finishSteps o (d ++ [n])) st
        (fun st' => Fr st st' (· ∈ (d ++ [n]) :: processed inner) d ∧
          ∀ i ∈ (d ++ [n]) :: processed inner, Post o P c st' i) := by
      by_cases hdir : (if c.isFiller o (d ++ [n]) then isDirNode (c.mirror (d ++ [n]))
          else isDirNode (c.src (d ++ [n]))) = true
      · refine (part1 none (start_dir_safe hc hB hAti hd ht hnt hinc hdir)).append ?_
        rintro st₂ hB₂ ⟨st₁, h₁, hF₂, hP₂⟩
        have hfin : ∃ a, (if c.isFiller o (d ++ [n]) then c.mirror (d ++ [n]) else c.src (d ++ [n])) =
            some (.dir a) := by
          by_cases hf : c.isFiller o (d ++ [n]) = true
          · rw [if_pos hf] at hdir ⊢
            cases hx : c.mirror (d ++ [n]) with
            | none => rw [hx] at hdir; cases hdir
            | some x => cases x <;> simp_all [isDirNode, Node.isDir]
          · rw [if_neg hf] at hdir ⊢
            cases hx : c.src (d ++ [n]) with
            | none => rw [hx] at hdir; cases hdir
            | some x => cases x <;> simp_all [isDirNode, Node.isDir]
        obtain ⟨a, ha⟩ := hfin
        have hfs : c.finishSteps o (d ++ [n]) = [.chattr (d ++ [n]) a] := by
          unfold Ctx.finishSteps; rw [ha]
        rw [hfs]
        obtain ⟨b, hb⟩ := (isDirAt_iff _ _).mp hF₂.dir
        have hni : d ++ [n] ∉ processed inner := fun h => (hbi_ne _ h).2.2 rfl
        have hinc_i : incsAt st₂ (d ++ [n]) =
            incFile P (d ++ [n]) (c.incOf o (d ++ [n]) false) ++ P.incs0 (d ++ [n]) := by
          rw [hF₂.incs _ hni, h₁.incs_i]
        have hdi : d ∉ processed inner := fun h => (hbi_ne _ h).2.1 rfl
        refine chattr_safe hB₂ hb ?_ ?_
        · rw [hinc_i]; exact RI_inc_any hc (by simp [Node.setAttr])
        · intro st₃ hB₃ k1 k2 k3 k4
          refine ⟨hB₃, ⟨?_, ?_, ?_, ?_, ?_⟩, ?_⟩
          · intro j hj hjd
            simp only [List.mem_cons, not_or] at hj
            rw [k1 j hj.1, hF₂.mirror j hj.2 hj.1]
            by_cases hjt : j = d ++ [c.s.tmp]
            · subst hjt; rw [h₁.tmp, ht]
            · rw [h₁.mirror j hj.1 hjt hjd]
          · intro j hj
            simp only [List.mem_cons, not_or] at hj
            rw [incsAt_congr k3, hF₂.incs j hj.2, h₁.incs j hj.1]
          · intro j hj
            simp only [List.mem_cons, not_or] at hj
            rw [k4, hF₂.incdirs j hj.2, h₁.incdirs j hj.1]
          · rw [isDirAt_of_get (k1 d (concat_ne d n)), isDirAt_of_get (hF₂.mirror d hdi (concat_ne d n))]
            exact h₁.dir
          · intro j hj; rw [k4]; exact hF₂.incmono j (h₁.incmono j hj)
          · intro i hi
            rcases List.mem_cons.mp hi with rfl | hi
            · refine ⟨?_, ?_, ?_⟩
              · rw [k2]; simp only [Ctx.fin, hslow, Node.setAttr]; exact ha.symm
              · rw [incsAt_congr k3, hinc_i]; exact rf_inc_any hc
              · rw [incsAt_congr k3, hinc_i]; simp [Ctx.finInc, hslow]
            · have hne := (hbi_ne i hi).2.2
              have := hP₂ i hi
              exact ⟨by rw [k1 i hne]; exact this.fin, by rw [k1 i hne, incsAt_congr k3]; exact this.rf,
                by rw [incsAt_congr k3]; exact this.inc⟩
      · have hf : c.isFiller o (d ++ [n]) = false := by
          by_contra h
          have h' : c.isFiller o (d ++ [n]) = true := by simpa using h
          rw [if_pos h'] at hdir
          exact hdir (hfil _ h').2
        have hs : isDirNode (c.src (d ++ [n])) = false := by
          rw [hf] at hdir; simpa using hdir
        have hm := hc.mirror_dir_of_slow hslow hs
        refine (part1 _ (start_nondir_safe hc hB hAti hd ht hnt hinc hf hs hm)).append ?_
        rintro st₂ hB₂ ⟨st₁, h₁, hF₂, hP₂⟩
        have hni : d ++ [n] ∉ processed inner := fun h => (hbi_ne _ h).2.2 rfl
        have hdi : d ∉ processed inner := fun h => (hbi_ne _ h).2.1 rfl
        have hti : d ++ [c.s.tmp] ∉ processed inner := fun h => (hbi_ne _ h).1 rfl
        have hinc_i : incsAt st₂ (d ++ [n]) =
            incFile P (d ++ [n]) (c.incOf o (d ++ [n]) false) ++ P.incs0 (d ++ [n]) := by
          rw [hF₂.incs _ hni, h₁.incs_i]
        have hd₂ : isDirAt st₂.mirror d = true := by
          rw [isDirAt_of_get (hF₂.mirror d hdi (concat_ne d n))]; exact h₁.dir
        have ht₂ : get st₂.mirror (d ++ [c.s.tmp]) = c.src (d ++ [n]) := by
          rw [hF₂.mirror _ hti hne1]; exact h₁.tmp
        have hempty : ∀ j, d ++ [n] <+: j → j ≠ d ++ [n] → get st₂.mirror j = none := by
          intro j hj hjne
          have hb : Below (d ++ [n]) j := ⟨hj, Ne.symm hjne⟩
          by_cases hji : j ∈ processed inner
          · rw [(hP₂ j hji).fin]
            exact CtxOK.fin_none (fun i h => (hfil i h).1) (hc.src_none_below hs hb)
          · obtain ⟨k1, k2, k3⟩ := hnbi j hb
            rw [hF₂.mirror j hji hjne, h₁.mirror j k3 k1 k2, (hAt _ (by simp) j hj).mirror]
            by_contra hcon
            have h1 := w3 (d ++ [n]) (by simp) hs j hb (by simpa [Option.isSome_iff_ne_none] using hcon)
            simp only [List.mem_cons, List.mem_append] at h1
            rcases h1 with h1 | h1 | h1
            · exact hjne h1
            · exact hji h1
            · exact hnp j h1 hj
        have hrm : ∃ st', apply stamp (.rmdir (d ++ [n])) st₂ = some st' ∧ Eff st₂ st' (d ++ [n]) d none := by
          have := apply_rmdir stamp st₂ (d ++ [n]) (by simp) (by rw [List.dropLast_concat]; exact hd₂)
            hF₂.dir hempty
          rwa [List.dropLast_concat] at this
        have hfin : c.fin o (d ++ [n]) = c.src (d ++ [n]) := by simp [Ctx.fin, hslow, hf]
        cases hsrc : c.src (d ++ [n]) with
        | none =>
          have hfs : c.finishSteps o (d ++ [n]) = [.rmdir (d ++ [n])] := by
            unfold Ctx.finishSteps
            rw [hf, hsrc]; rfl
          rw [hfs]
          refine eff_safe hB₂ hrm hd₂ (concat_ne d n) (by rw [hinc_i]; exact RI_inc_any hc (by simp)) ?_
          intro st₃ hB₃ h₃
          refine ⟨hB₃, ⟨?_, ?_, ?_, h₃.parent, ?_⟩, ?_⟩
          · intro j hj hjd
            simp only [List.mem_cons, not_or] at hj
            rw [h₃.frame j hj.1 hjd, hF₂.mirror j hj.2 hj.1]
            by_cases hjt : j = d ++ [c.s.tmp]
            · subst hjt; rw [h₁.tmp, ht, hsrc]
            · rw [h₁.mirror j hj.1 hjt hjd]
          · intro j hj
            simp only [List.mem_cons, not_or] at hj
            rw [incsAt_congr h₃.incs, hF₂.incs j hj.2, h₁.incs j hj.1]
          · intro j hj
            simp only [List.mem_cons, not_or] at hj
            rw [h₃.incdirs, hF₂.incdirs j hj.2, h₁.incdirs j hj.1]
          · intro j hj; rw [h₃.incdirs]; exact hF₂.incmono j (h₁.incmono j hj)
          · intro i hi
            rcases List.mem_cons.mp hi with rfl | hi
            · exact ⟨by rw [h₃.at_i, hfin, hsrc], by rw [incsAt_congr h₃.incs, hinc_i]; exact rf_inc_any hc,
                by rw [incsAt_congr h₃.incs, hinc_i]; simp [Ctx.finInc, hslow]⟩
            · obtain ⟨_, k2, k3⟩ := hbi_ne i hi
              have := hP₂ i hi
              exact ⟨by rw [h₃.frame i k3 k2]; exact this.fin,
                by rw [h₃.frame i k3 k2, incsAt_congr h₃.incs]; exact this.rf, by rw [incsAt_congr h₃.incs]; exact this.inc⟩
        | some x =>
          rw [hsrc] at ht₂ hs
          have hxd : x.isDir = false := by simpa [isDirNode] using hs
          have hfs : c.finishSteps o (d ++ [n]) = [.rmdir (d ++ [n]), .rename (d ++ [c.s.tmp]) (d ++ [n])] := by
            unfold Ctx.finishSteps
            rw [hf, hsrc]
            cases x with
            | dir a => cases hxd
            | reg a y => simp [tmpOf]
            | other a y => simp [tmpOf]
          rw [hfs]
          refine eff_safe hB₂ hrm hd₂ (concat_ne d n) (by rw [hinc_i]; exact RI_inc_any hc (by simp)) ?_
          intro st₃ hB₃ h₃
          have hold : P.old (d ++ [c.s.tmp]) = none := hc.old_tmp (by simp)
          refine rename_safe hB₃ (Ne.symm hnt) hold
            (by rw [h₃.frame _ hne1 (concat_ne d _).symm]; exact ht₂) hxd h₃.parent (by rw [isDirAt, h₃.at_i]) ?_ ?_
          · rw [incsAt_congr h₃.incs, hinc_i]
            refine RI_of_RF (hc.inc_isSome (by simp)) (hc.rf_inc (by simp)) ?_
            intro a y a' y' h1 h2
            exact hc.honest _ a y a' y' h1 (hsrc.trans h2)
          · intro st₄ hB₄ k1 k2 k3 k4 k5 k6
            refine ⟨hB₄, ⟨?_, ?_, ?_, k4, ?_⟩, ?_⟩
            · intro j hj hjd
              simp only [List.mem_cons, not_or] at hj
              by_cases hjt : j = d ++ [c.s.tmp]
              · subst hjt; rw [k2, ht]
              · rw [k1 j hjt hj.1 hjd, h₃.frame j hj.1 hjd, hF₂.mirror j hj.2 hj.1, h₁.mirror j hj.1 hjt hjd]
            · intro j hj
              simp only [List.mem_cons, not_or] at hj
              rw [incsAt_congr k5, incsAt_congr h₃.incs, hF₂.incs j hj.2, h₁.incs j hj.1]
            · intro j hj
              simp only [List.mem_cons, not_or] at hj
              rw [k6, h₃.incdirs, hF₂.incdirs j hj.2, h₁.incdirs j hj.1]
            · intro j hj; rw [k6, h₃.incdirs]; exact hF₂.incmono j (h₁.incmono j hj)
            · intro i hi
              rcases List.mem_cons.mp hi with rfl | hi
              · exact ⟨by rw [k3, hfin, hsrc],
                  by rw [incsAt_congr k5, incsAt_congr h₃.incs, hinc_i]; exact rf_inc_any hc,
                  by rw [incsAt_congr k5, incsAt_congr h₃.incs, hinc_i]; simp [Ctx.finInc, hslow]⟩
              · obtain ⟨e1, e2, e3⟩ := hbi_ne i hi
                have := hP₂ i hi
                exact ⟨by rw [k1 i e1 e3 e2, h₃.frame i e3 e2]; exact this.fin,
                  by rw [k1 i e1 e3 e2, h₃.frame i e3 e2, incsAt_congr k5, incsAt_congr h₃.incs]; exact this.rf,
                  by rw [incsAt_congr k5, incsAt_congr h₃.incs]; exact this.inc⟩
    have hsplit : (Event.start (d ++ [n]) :: (inner ++ .finish (d ++ [n]) :: r)).flatMap (c.eventSteps o) =
        (c.startSteps o (d ++ [n]) ++ inner.flatMap (c.eventSteps o) ++ c.finishSteps o (d ++ [n])) ++
          r.flatMap (c.eventSteps o) := by
      simp [List.flatMap_cons, List.flatMap_append, Ctx.eventSteps]
    rw [hsplit]
    refine block.append ?_
    rintro st₁ hB₁ ⟨hF₁, hP₁⟩
    have hpre : ∀ j ∈ (d ++ [n]) :: processed inner, d ++ [n] <+: j := by
      intro j hj
      rcases List.mem_cons.mp hj with rfl | hj
      · exact List.prefix_refl _
      · exact (hbi j hj).1
    refine (ih2 st₁ hB₁ hWr hF₁.dir ?_ (fun h => hF₁.incmono _ (hinc h)) ?_).weaken ?_
    · rw [hF₁.mirror _ ?_ (concat_ne d _).symm, ht]
      intro h
      have := (hpre _ h).eq_of_length (by simp)
      exact hne1 this.symm
    · intro i hi j hij
      have hx : j ∉ (d ++ [n]) :: processed inner := by
        intro h; exact below_not_mem (hbr i hi) (hnp i hi) hij (hpre j h)
      have hxd : j ≠ d := by
        rintro rfl
        obtain ⟨h1, h2⟩ := hbr i hi
        exact h2 (h1.eq_of_length_le hij.length_le)
      have := hAt i (by simp [hi]) j hij
      exact ⟨by rw [hF₁.mirror j hx hxd, this.mirror], by rw [hF₁.incs j hx, this.incs],
        by rw [hF₁.incdirs j hx, this.incdirs]⟩
    · rintro st₂ hB₂ ⟨hF₂, hP₂⟩
      refine ⟨(hF₁.trans hF₂).mono (by
        intro j hj
        simp only [List.mem_cons, List.mem_append] at hj ⊢
        tauto), ?_⟩
      intro i hi
      have hi' : i ∈ (d ++ [n]) :: processed inner ∨ i ∈ processed r := by
        simp only [List.mem_cons, List.mem_append] at hi ⊢; tauto
      rcases hi' with hi' | hi'
      · have hni : i ∉ processed r := fun h => hnp i h (hpre i hi')
        have hid : i ≠ d := by
          rintro rfl
          have := (hpre _ hi').length_le; simp at this; omega
        have hg := hF₂.mirror i hni hid
        exact ⟨by rw [hg]; exact (hP₁ i hi').fin, by rw [hg, hF₂.incs _ hni]; exact (hP₁ i hi').rf, by rw [hF₂.incs _ hni]; exact (hP₁ i hi').inc⟩
      · exact hP₂ i hi'

end Verif.Repo
