import Verif.Props.C04
/-
C55  A forced regress undoes exactly the last backup.
-/
set_option linter.unusedSectionVars false
namespace Verif.C55
open Verif.Repo
variable {α A C S H Δ L : Type} [LinearOrder α] [DecidableEq A] [DecidableEq S] [DecidableEq H] [DecidableEq L]
variable {o : Ops A C H Δ L} {rsv : α → Prop} {st st' : State α A C S H Δ} {hist : Hist α A C S}

theorem action_eq (h : Reach o rsv false st hist) (hne : hist ≠ []) (force : Bool) (r : RSess α A C) :
    regressAction o force st r = if force then (match forceRegress st with
      | some st' => regress o st' r
      | none => some st) else some st := by
  unfold regressAction
  rcases C06.no_false_alarm h hne with h | h <;> simp only [h] <;> rfl

theorem validRegress_congr {st₁ : State α A C S H Δ} {r : RSess α A C} (hm : st₁.mirror = st.mirror)
    (h : ValidRegress o rsv hist st r) : ValidRegress o rsv hist st₁ r :=
  ⟨h.tmp, by rw [hm]; exact h.unused, h.stamp, h.junk⟩

/-- `regress --force` in a repository with at least two backups: it succeeds, the newest backup is gone, all others are
exactly as before: each is restored exactly, and restoring as of any time before the removed backup gives what it gave before. -/
theorem force_undoes {x y : Nat × Files α (Node A C S)} (h : Reach o rsv false st (x :: y :: hist)) {r : RSess α A C}
    (hv : ValidRegress o rsv (y :: hist) st r) :
    ∃ st', regressAction o true st r = some st' ∧ Reach o rsv false st' (y :: hist) ∧ st'.marks = [y.1] ∧
      (∀ t T, (t, T) ∈ y :: hist → restore o st' t [] = some T) ∧
      (∀ t sub, t < x.1 → restore o st' t sub = restore o st t sub) ∧
      ∀ t sub, y.1 ≤ t → restore o st' t sub = restore o st y.1 sub := by
  obtain ⟨st1, h1, h2, h3⟩ := force_rep ((reach_inv h).1 rfl)
  have hc : Reach o rsv true st1 (y :: hist) := .force h (by simp) h1
  have hv1 : ValidRegress o rsv (y :: hist) st1 r := validRegress_congr h3 hv
  obtain ⟨ss, st₂, e1, e2, -, -⟩ := regress_ci h2 hv1
  have e3 : regress o st1 r = some st₂ := by unfold regress; rw [e1]; exact e2
  have hr : Reach o rsv false st₂ (y :: hist) := .regress hc hv1 e3
  have hyx : y.1 < x.1 := by
    have := ((reach_inv h).1 rfl).times
    exact (List.pairwise_cons.mp this).1 y.1 (by simp)
  refine ⟨st₂, by rw [action_eq h (by simp)]; simp only [if_true, h1]; exact e3, hr, ?_, fun t T hm => C01.restore_exact hr hm, ?_, ?_⟩
  · rw [C06.complete_one_marker hr]; rfl
  · intro t sub ht
    obtain ⟨u, hu1, hu2⟩ := ((reach_inv h).1 rfl).restore (by simp) t sub
    obtain ⟨v, hv1, hv2⟩ := ((reach_inv hr).1 rfl).restore (by simp) t sub
    have : chosen (x :: y :: hist) t = chosen (y :: hist) t := by
      unfold chosen
      rw [List.find?_cons, show (decide (x.1 ≤ t)) = false by simp; omega]
      cases (y :: hist).find? (fun x => decide (x.1 ≤ t)) <;> rfl
    rw [this, hv1] at hu1
    cases hu1
    rw [hu2, hv2]
  · intro t sub ht
    obtain ⟨u, hu1, hu2⟩ := ((reach_inv h).1 rfl).restore (by simp) y.1 sub
    obtain ⟨v, hv1, hv2⟩ := ((reach_inv hr).1 rfl).restore (by simp) t sub
    have e1 : chosen (x :: y :: hist) y.1 = some y :=
      chosen_exact ((reach_inv h).1 rfl).times (t := y.1) (T := y.2) (by simp)
    have e2 : chosen (y :: hist) t = some y := by
      unfold chosen
      rw [List.find?_cons, show (decide (y.1 ≤ t)) = true by simpa using ht]
    rw [e1] at hu1; cases hu1
    rw [e2] at hv1; cases hv1
    rw [hu2, hv2]

/-- A backup and then `regress --force`: the repository is as it was before the backup. -/
theorem backup_then_force (h : Reach o rsv false st hist) (hne : hist ≠ []) {s : Sess α A C S H Δ} (hv : ValidSess o rsv hist s)
    (hb : backup o st s = some st') {r : RSess α A C} (hvr : ValidRegress o rsv hist st' r) :
    ∃ st'', regressAction o true st' r = some st'' ∧ SameRepo o st'' st := by
  obtain ⟨T, hT⟩ := recorded_exists (lastTree hist) s hv.tree.ordered
  have hr := Reach.backup h hv hb hT
  rcases (reach_inv h).1 rfl with ⟨rfl, -⟩ | ⟨P, T0, rest, L0, mrest, rfl, hs, hc⟩
  · exact absurd rfl hne
  obtain ⟨work, st₂, e1, e2, e3, e4, -⟩ := session_next hs hc hv
  have hst : st' = st₂ := by
    unfold backup at hb
    rw [e1, Option.bind_some, e2] at hb
    exact (Option.some.inj hb).symm
  subst hst
  -- the increments of the new state
  have hincs : ∀ i, (incsAt st' i).filter (fun f => f.time < P.t0) = P.incs0 i := by
    intro i
    rw [exec] at e2
    cases hm : apply s.stamp (.mark s.now) st with
    | none => rw [hm] at e2; cases e2
    | some sm =>
      rw [hm, Option.bind_some, exec_append] at e2
      cases hw : exec s.stamp work sm with
      | none => rw [hw] at e2; cases e2
      | some sw =>
        rw [hw, Option.bind_some] at e2
        have hwi := e4 work.length sw (le_refl _) (by rw [List.take_of_length_le (le_refl _), exec, hm, Option.bind_some]; exact hw)
        simp only [exec, apply, Option.bind_some, Option.some.injEq] at e2
        obtain ⟨z, hz, -⟩ := hwi.ri i
        have : incsAt st' i = incsAt sw i := by rw [← e2]; rfl
        have hold : (P.incs0 i).filter (fun f => f.time < P.t0) = P.incs0 i :=
          List.filter_eq_self.mpr (fun f hf => by simpa using (hs.incs i f hf).2.1)
        rw [this, hz, List.filter_append, hold]
        cases z <;> simp [incFile]
  rcases e3 T hT with ⟨h0, -⟩ | ⟨P', T0', rest', L0', mrest', he0, hs', hc'⟩
  · cases h0
  · obtain ⟨he1, rfl⟩ := List.cons.inj he0
    obtain ⟨L1, mrest1, rfl⟩ := hs'.mrest_cons
    obtain ⟨f1, f2, f3, f4⟩ := force_wi hs' hc'
    have hv1 : ValidRegress o rsv ((P.t0, T0) :: rest) { st' with marks := [P'.t0, P.t0] } r := ⟨hvr.tmp, hvr.unused, hvr.stamp, hvr.junk⟩
    obtain ⟨ss, st₃, g1, g2, g3, -⟩ := regress_wi f2 f3 f4 hv1
    have g4 : regress o { st' with marks := [P'.t0, P.t0] } r = some st₃ := by unfold regress; rw [g1]; exact g2
    refine ⟨st₃, ?_, ?_⟩
    · rw [action_eq hr (by simp)]; simp only [if_true, f1]; exact g4
    · refine ⟨g3.marks.trans hc.marks.symm, fun i => C05.sameFile_of (g3.mirror i) (hc.mirror i), fun i => ?_, fun t sub => ?_⟩
      · show incsAt st₃ i = incsAt st i
        rw [g3.incs, hc.incs]
        show (P'.incs0 i).filter _ = _
        rw [← hc'.incs]; exact hincs i
      · obtain ⟨u, u1, u2⟩ := restore_clean f2 g3 t sub
        obtain ⟨v, v1, v2⟩ := restore_clean hs hc t sub
        have : (P'.prev P.t0 T0 L1).t0 = P.t0 := rfl
        rw [this] at u1
        rw [u1] at v1; cases v1
        rw [u2, v2]

/-- With a single backup, and without `force`, nothing is changed. -/
theorem force_refused {x : Nat × Files α (Node A C S)} (h : Reach o rsv false st [x]) (r : RSess α A C) :
    regressAction o true st r = some st := by
  rw [action_eq h (by simp)]
  have := force_rep ((reach_inv h).1 rfl)
  simp only at this
  simp [this]

theorem unforced_unchanged (h : Reach o rsv false st hist) (hne : hist ≠ []) (r : RSess α A C) : regressAction o false st r = some st := by
  rw [action_eq h hne]; simp

/-- A forced regress interrupted after any number of operations, any number of times: as long as there is something in
`increments`, the next `regress`, forced or not, finds that and completes it, with the same result as without interruption.
Missing: with nothing in `increments`, see `force_stuck`. -/
theorem force_interrupted_partial {x y : Nat × Files α (Node A C S)} (h : Reach o rsv false st (x :: y :: hist)) {st1 st2 : State α A C S H Δ}
    (h1 : forceRegress st = some st1) (hr : Retried o rsv (y :: hist) st1 st2) {r r' : RSess α A C}
    (hv : ValidRegress o rsv (y :: hist) st r) (hv' : ValidRegress o rsv (y :: hist) st2 r')
    (hinc : st2.incs ≠ [] ∨ ∃ d ∈ st2.incdirs, d ≠ []) (force : Bool) :
    ∃ stA stB, regressAction o true st r = some stA ∧ regressAction o force st2 r' = some stB ∧ SameRepo o stB stA ∧
      Reach o rsv false stB (y :: hist) := by
  have hc : Reach o rsv true st1 (y :: hist) := .force h (by simp) h1
  have hm : st1.mirror = st.mirror := by
    obtain ⟨st1', e1, -, e3⟩ := force_rep ((reach_inv h).1 rfl)
    rw [h1] at e1; cases e1; exact e3
  have h2 := C05.retried_reach hc hr
  obtain ⟨stA, stB, a1, a2, a3⟩ := C05.regress_restartable hc hr (validRegress_congr hm hv) hv'
  refine ⟨stA, stB, ?_, ?_, a3, .regress h2 hv' a2⟩
  · rw [action_eq h (by simp)]; simp only [if_true, h1]; exact a1
  · unfold regressAction
    rw [C06.detected_partial h2 hinc]; exact a2

/-- Several forced regresses, one after the other -/
inductive Forced (o : Ops A C H Δ L) (rsv : α → Prop) : Nat → Hist α A C S → State α A C S H Δ → State α A C S H Δ → Prop
  | none {hist : Hist α A C S} {st : State α A C S H Δ} : Forced o rsv 0 hist st st
  | step {k : Nat} {x : Nat × Files α (Node A C S)} {hist : Hist α A C S} {st st1 st2 : State α A C S H Δ} {r : RSess α A C} : ValidRegress o rsv hist st r → regressAction o true st r = some st1 →
      Forced o rsv k hist st1 st2 → Forced o rsv (k + 1) (x :: hist) st st2

/-- `k` forced regresses remove the `k` newest backups (never the last one). -/
theorem force_many {k : Nat} (h : Reach o rsv false st hist) (hk : k < hist.length) (hf : Forced o rsv k hist st st') :
    Reach o rsv false st' (hist.drop k) ∧ ∀ t T, (t, T) ∈ hist.drop k → restore o st' t [] = some T ∧ restore o st t [] = some T := by
  have key : Reach o rsv false st' (hist.drop k) := by
    induction hf with
    | none => exact h
    | @step k x hist st st1 st2 r hv hs _ ih =>
      cases hist with
      | nil => simp at hk
      | cons y hist =>
        obtain ⟨st'', e1, e2, -⟩ := force_undoes h hv
        rw [hs] at e1; cases e1
        exact ih e2 (by simpa using hk)
  exact ⟨key, fun t T hm => ⟨C01.restore_exact key hm, C01.restore_exact h (List.mem_of_mem_drop hm)⟩⟩

end Verif.C55

namespace Verif.C55
open Verif.Repo Verif.Repo.Demo

theorem reg_valid3 : ValidRegress ops Demo.rsv [(20, src2), (10, src1)] st3 reg :=
  ⟨rfl, by decide +kernel, reg_valid.stamp, reg_valid.junk⟩

/-- not vacuous: three backups, the third is undone -/
example : ∃ st', regressAction ops true st3 reg = some st' ∧ restore ops st' 20 [] = some src2 ∧ restore ops st' 10 [] = some src1 ∧
    restore ops st' 35 [] = some src2 := by
  obtain ⟨st', h1, -, -, h4, h5, h6⟩ := force_undoes reach3 reg_valid3
  exact ⟨st', h1, h4 20 src2 (by simp), h4 10 src1 (by simp), by rw [h6 35 [] (by simp)]; exact C01.restore_exact reach3 (by simp)⟩

example : ∃ st'', regressAction ops true st3 reg = some st'' ∧ SameRepo ops st'' st2 :=
  backup_then_force reach2 (by simp) valid3 (by simp [st3]) reg_valid3

example : regressAction ops true st1 reg = some st1 := force_refused reach1 reg

/-- the forced regress of the third backup, stopped after 5 operations -/
def forced := (forceRegress st3).get (by decide +kernel)
def forced5 := (exec 999 (((regressSteps ops forced reg).get (by decide +kernel)).take 5) forced).get (by decide +kernel)

example : ∃ stA stB, regressAction ops true st3 reg = some stA ∧ regressAction ops false forced5 reg = some stB ∧ SameRepo ops stB stA ∧
    Reach ops Demo.rsv false stB [(20, src2), (10, src1)] :=
  force_interrupted_partial reach3 (st1 := forced) (by simp [forced])
    (.once .none (r := reg) ⟨rfl, by decide +kernel, reg_valid.stamp, reg_valid.junk⟩ (steps := (regressSteps ops forced reg).get (by decide +kernel))
      (n := 5) (by simp) (by decide +kernel) (by simp [forced5, reg]))
    (r' := reg) reg_valid3 ⟨rfl, by decide +kernel, reg_valid.stamp, reg_valid.junk⟩ (.inl (by rw [← List.length_pos_iff]; decide +kernel)) false

/-- a single file, and its next version -/
def srcA : Files Nat (Node Nat Nat Nat) := [([], .dir 6), ([1], .reg 2 3)]
def srcB : Files Nat (Node Nat Nat Nat) := [([], .dir 7), ([1], .reg 3 4)]
def stA := (backup ops Demo.empty (sess 10 srcA)).get (by decide +kernel)
def stB := (backup ops stA (sess 20 srcB)).get (by decide +kernel)

theorem validA : ValidSess ops Demo.rsv [] (sess 10 srcA) :=
  ⟨⟨by decide +kernel, ⟨6, by decide +kernel⟩, by
      intro x hx hne
      simp only [sess, srcA, List.mem_cons, List.not_mem_nil, or_false] at hx
      rcases hx with rfl | rfl
      · exact absurd rfl hne
      · exact ⟨6, by decide +kernel⟩, by unfold Demo.rsv; decide +kernel⟩, by simp, rfl, honest_any _ _⟩
theorem validB : ValidSess ops Demo.rsv [(10, srcA)] (sess 20 srcB) :=
  ⟨⟨by decide +kernel, ⟨7, by decide +kernel⟩, by
      intro x hx hne
      simp only [sess, srcB, List.mem_cons, List.not_mem_nil, or_false] at hx
      rcases hx with rfl | rfl
      · exact absurd rfl hne
      · exact ⟨7, by decide +kernel⟩, by unfold Demo.rsv; decide +kernel⟩, by decide +kernel, rfl, honest_any _ _⟩
theorem reachA : Reach ops Demo.rsv false stA [(10, srcA)] :=
  .backup (.init 5) validA (by simp [stA, Demo.empty]) (recorded_src _ _ validA.tree.ordered (fun _ => rfl))
theorem reachB : Reach ops Demo.rsv false stB [(20, srcB), (10, srcA)] :=
  .backup reachA validB (by simp [stB]) (recorded_src _ _ validB.tree.ordered (fun _ => rfl))

/-- Without something in `increments` an interruption is not found (see F3, C06): a forced regress to the first backup, stopped before
the last operation (the removal of the marker).  `regress` does nothing, and further backups are refused. -/
theorem force_stuck : ∃ st1 st2 : State Nat Nat Nat Nat Nat (Nat × Nat), ∃ steps n, forceRegress stB = some st1 ∧
    regressSteps ops st1 reg = some steps ∧ n < steps.length ∧ exec reg.stamp (steps.take n) st1 = some st2 ∧
    Reach ops Demo.rsv true st2 [(10, srcA)] ∧ (∀ r, regressAction ops false st2 r = some st2) ∧ ∀ r s, backupAction ops st2 r s = none := by
  let st1 := (forceRegress stB).get (by decide +kernel)
  let steps := (regressSteps ops st1 reg).get (by decide +kernel)
  let stc := (exec reg.stamp (steps.take (steps.length - 1)) st1).get (by decide +kernel)
  have h1 : forceRegress stB = some st1 := by simp [st1]
  have hv : ValidRegress ops Demo.rsv [(10, srcA)] st1 reg :=
    ⟨rfl, by decide +kernel, by
      refine noReg (p := fun a _ => ops.loose reg.stamp ≠ ops.loose a) ?_
      simp only [lastTree, srcA, List.mem_cons, List.not_mem_nil, or_false]
      rintro y (rfl | rfl) <;> trivial, by
      intro i a x _ he
      exact he⟩
  have hlen : steps.length - 1 < steps.length := by decide +kernel
  have hr : Reach ops Demo.rsv true stc [(10, srcA)] :=
    .recrash (.force reachB (by simp) h1) hv (steps := steps) (by simp [steps]) hlen (by simp [stc])
  have hn : needsRegress stc = .unknown := by decide +kernel
  refine ⟨st1, stc, steps, _, h1, by simp [steps], hlen, by simp [stc], hr, ?_, ?_⟩
  · intro r; simp [regressAction, hn]
  · intro r s
    unfold backupAction operateRegress
    rw [hn]
    exact C06.interrupted_refused hr s

end Verif.C55
