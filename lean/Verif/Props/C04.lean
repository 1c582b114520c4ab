import Verif.Props.C01
import Verif.Model.Action
/-
C04  Interrupted backup is undone by regress at every crash point.
C05  Regress can itself be interrupted and repeated.
C06  An interrupted incremental backup is always detected.
-/
set_option linter.unusedSectionVars false
namespace Verif.C04
open Verif.Repo
variable {α A C S H Δ L : Type} [LinearOrder α] [DecidableEq A] [DecidableEq S] [DecidableEq H] [DecidableEq L]
variable {o : Ops A C H Δ L} {rsv : α → Prop} {st st' : State α A C S H Δ} {hist : Hist α A C S}

theorem exec_take {stamp : A} {ss : List (Step α A C S H Δ)} {n : Nat} (h : exec stamp ss st = some st') :
    ∃ st₁, exec stamp (ss.take n) st = some st₁ := by
  rw [← List.take_append_drop n ss, exec_append] at h
  cases he : exec stamp (ss.take n) st with
  | none => rw [he] at h; cases h
  | some x => exact ⟨x, rfl⟩

/-- The next session stops after any number `n` of its file system operations: the regress succeeds, and then every
restore, as of any time, of everything or of a part, gives what it gave before that session. -/
theorem crash_regress (h : Reach o rsv false st hist) (hne : hist ≠ []) {s : Sess α A C S H Δ}
    (hv : ValidSess o rsv hist s) :
    ∃ steps, sessionSteps o st s = some steps ∧ ∀ n, 0 < n → n < steps.length →
      ∃ st₁, exec s.stamp (steps.take n) st = some st₁ ∧ ∀ r, ValidRegress o rsv hist st₁ r →
        ∃ st₂, regress o st₁ r = some st₂ ∧ Reach o rsv false st₂ hist ∧
          ∀ t sub, restore o st₂ t sub = restore o st t sub := by
  have hr := (reach_inv h).1 rfl
  obtain ⟨stf, hb, -⟩ := backup_rep hr hv
  unfold backup at hb
  cases hs : sessionSteps o st s with
  | none => rw [hs] at hb; cases hb
  | some steps =>
    rw [hs, Option.bind_some] at hb
    refine ⟨steps, rfl, ?_⟩
    intro n hn hn'
    obtain ⟨st₁, h1⟩ := exec_take (n := n) hb
    refine ⟨st₁, h1, ?_⟩
    intro r hvr
    have hc := Reach.crash h hne hv hs hn hn' h1
    obtain ⟨ss, st₂, e1, e2, -, -⟩ := regress_ci ((reach_inv hc).2 rfl) hvr
    have e3 : regress o st₁ r = some st₂ := by unfold regress; rw [e1]; exact e2
    have hreach := Reach.regress hc hvr e3
    refine ⟨st₂, e3, hreach, ?_⟩
    intro t sub
    obtain ⟨x, hx1, hx2⟩ := hr.restore hne t sub
    obtain ⟨y, hy1, hy2⟩ := ((reach_inv hreach).1 rfl).restore hne t sub
    rw [hx1] at hy1; cases hy1
    rw [hx2, hy2]

/-- In every state left by interruptions the regress succeeds, and every backup the repository contained can be
restored exactly. -/
theorem interrupted_recovers (h : Reach o rsv true st hist) {r : RSess α A C} (hv : ValidRegress o rsv hist st r) :
    ∃ st', regress o st r = some st' ∧ ∀ t T, (t, T) ∈ hist → restore o st' t [] = some T := by
  obtain ⟨ss, st₂, e1, e2, -, -⟩ := regress_ci ((reach_inv h).2 rfl) hv
  have e3 : regress o st r = some st₂ := by unfold regress; rw [e1]; exact e2
  exact ⟨st₂, e3, fun t T hm => C01.restore_exact (.regress h hv e3) hm⟩

/-- What the user does: running the backup again after an interruption (which is detected, see C06) first undoes the
interrupted session, then makes the backup; everything can be restored. -/
theorem backup_again (h : Reach o rsv true st hist) (hinc : st.incs ≠ []) {r : RSess α A C}
    (hv : ValidRegress o rsv hist st r) {s : Sess α A C S H Δ} (hs : ValidSess o rsv hist s) :
    ∃ st' T, backupAction o st r s = some st' ∧ Recorded (lastTree hist) s T ∧
      restore o st' s.now [] = some T ∧ ((∀ i, s.fails i = false) → T = s.src) ∧
      ∀ t U, (t, U) ∈ hist → restore o st' t [] = some U := by
  obtain ⟨P, T0, rest, L0, mrest, bad, rfl, hst, hbad, hw⟩ := (reach_inv h).2 rfl
  have hn : needsRegress st = .yes := by
    unfold needsRegress
    rw [if_neg (by simp [hinc]), hw.marks]
  obtain ⟨ss, st₂, e1, e2, -, -⟩ := regress_ci ((reach_inv h).2 rfl) hv
  have e3 : regress o st r = some st₂ := by unfold regress; rw [e1]; exact e2
  obtain ⟨st', T, h1, h2⟩ := C01.backup_then_restore (.regress h hv e3) hs
  refine ⟨st', T, ?_, h2⟩
  unfold backupAction operateRegress
  rw [hn]; simp only
  rw [e3, Option.bind_some, h1]

end Verif.C04

namespace Verif.Repo.Demo
/-- the session at 30 stopped after 12 of its operations -/
def crashed := (exec 99 (((sessionSteps ops st2 (sess 30 src3)).get (by decide +kernel)).take 12) st2).get (by decide +kernel)

def reg : RSess Nat Nat Nat := ⟨999, fun _ => 777, 1000⟩

theorem crashed_reach : Reach ops rsv true crashed [(20, src2), (10, src1)] :=
  .crash (n := 12) reach2 (by simp) valid3 (steps := (sessionSteps ops st2 (sess 30 src3)).get (by decide +kernel)) (by simp) (by simp) (by decide +kernel)
    (by simp [crashed, sess])

theorem noReg {T : Files Nat (Node Nat Nat Nat)} {p : Nat → Nat → Prop}
    (h : ∀ y ∈ T, match y.2 with
      | .reg a x => p a x
      | _ => True) : ∀ i a x, get T i = some (.reg a x) → p a x := by
  intro i a x hg
  have : ∃ y ∈ T, y.2 = .reg a x := by
    clear h
    induction T with
    | nil => cases hg
    | cons z T ih =>
      obtain ⟨k, v⟩ := z
      rw [get] at hg
      split at hg
      · exact ⟨(k, v), by simp, by simpa using hg⟩
      · obtain ⟨y, hy, he⟩ := ih hg
        exact ⟨y, by simp [hy], he⟩
  obtain ⟨y, hy, he⟩ := this
  have := h y hy
  rw [he] at this
  exact this

theorem reg_valid : ValidRegress ops rsv [(20, src2), (10, src1)] crashed reg :=
  ⟨rfl, by decide +kernel,
   by
    refine noReg (p := fun a _ => ops.loose reg.stamp ≠ ops.loose a) ?_
    simp only [lastTree, src2, List.mem_cons, List.not_mem_nil, or_false]
    rintro y (rfl | rfl | rfl | rfl | rfl) <;> first | trivial | (simp only; decide +kernel),
   by
    intro i a x _ he
    exact he⟩

/-- the regress stopped after 5 of its operations -/
def crashed2 := (exec 999 (((regressSteps ops crashed reg).get (by decide +kernel)).take 5) crashed).get (by decide +kernel)
theorem crashed2_reach : Reach ops rsv true crashed2 [(20, src2), (10, src1)] :=
  .recrash (n := 5) crashed_reach reg_valid (steps := (regressSteps ops crashed reg).get (by decide +kernel)) (by simp) (by decide +kernel)
    (by simp [crashed2, reg])

end Verif.Repo.Demo

namespace Verif.C04
open Verif.Repo Verif.Repo.Demo

/-- not vacuous: a session which stops in the middle -/
example : ∃ st', regress ops crashed reg = some st' ∧ restore ops st' 10 [] = some src1 ∧ restore ops st' 20 [] = some src2 := by
  obtain ⟨st', h1, h2⟩ := interrupted_recovers crashed_reach reg_valid
  exact ⟨st', h1, h2 10 src1 (by simp), h2 20 src2 (by simp)⟩

/-- without regress the interrupted state is not right -/
example : restore ops ⟨crashed.mirror, crashed.incs, crashed.incdirs, crashed.metas, [30]⟩ 30 [] ≠ some src3 := by decide +kernel

example : ∃ st' T, backupAction ops crashed reg (sess 30 src3) = some st' ∧ Recorded src2 (sess 30 src3) T ∧
    restore ops st' 30 [] = some T ∧ ((∀ i, (sess 30 src3).fails i = false) → T = src3) ∧
    ∀ t U, (t, U) ∈ [(20, src2), (10, src1)] → restore ops st' t [] = some U :=
  backup_again crashed_reach (by rw [← List.length_pos_iff]; decide +kernel) reg_valid valid3

end Verif.C04

namespace Verif.C05
open Verif.Repo
variable {α A C S H Δ L : Type} [LinearOrder α] [DecidableEq A] [DecidableEq S] [DecidableEq H] [DecidableEq L]
variable {o : Ops A C H Δ L} {rsv : α → Prop} {st st' : State α A C S H Δ} {hist : Hist α A C S}

theorem sameFile_of {x y z : Option (Node A C S)} (h1 : LooseNode o x z) (h2 : LooseNode o y z) : SameFile o x y := by
  cases z with
  | none =>
    cases x with
    | none =>
      cases y with
      | none => trivial
      | some n => cases n <;> exact h2.elim
    | some n => cases n <;> exact h1.elim
  | some z =>
    cases x with
    | none => cases z <;> exact h1.elim
    | some x =>
      cases y with
      | none => cases z <;> exact h2.elim
      | some y =>
        cases z <;> cases x <;> first | exact h1.elim | skip
        all_goals (cases y <;> first | exact h2.elim | skip)
        · trivial
        · exact ⟨h1.1.trans h2.1.symm, h1.2.trans h2.2.symm⟩
        · exact ⟨h1.1.trans h2.1.symm, h1.2.trans h2.2.symm⟩

theorem clean_same {P : Prot α A C S H Δ} {T0 rest L0 mrest} (hs : Static o rsv P T0 rest L0 mrest)
    (h1 : Clean o P T0 L0 mrest st) (h2 : Clean o P T0 L0 mrest st') : SameRepo o st st' := by
  refine ⟨h1.marks.trans h2.marks.symm, fun i => sameFile_of (h1.mirror i) (h2.mirror i),
    fun i => (h1.incs i).trans (h2.incs i).symm, fun t sub => ?_⟩
  obtain ⟨x, e1, e2⟩ := restore_clean hs h1 t sub
  obtain ⟨y, e3, e4⟩ := restore_clean hs h2 t sub
  rw [e1] at e3; cases e3
  rw [e2, e4]

/-- After any number of interrupted attempts, the regress succeeds and gives the same repository as a regress
which is not interrupted (which succeeds too). -/
theorem regress_restartable (h : Reach o rsv true st hist) {st₁} (hr : Retried o rsv hist st st₁)
    {r r' : RSess α A C} (hv : ValidRegress o rsv hist st r) (hv' : ValidRegress o rsv hist st₁ r') :
    ∃ stA stB, regress o st r = some stA ∧ regress o st₁ r' = some stB ∧ SameRepo o stB stA := by
  obtain ⟨P, T0, rest, L0, mrest, bad, rfl, hs, hbad, hw⟩ := (reach_inv h).2 rfl
  have hw₁ : WI o P [bad, P.t0] bad ((P.t0, L0) :: mrest) st₁ := by
    clear hv hv' h
    induction hr with
    | none => exact hw
    | once _ hv h1 h2 h3 ih =>
      obtain ⟨steps, st', e1, -, -, e4⟩ := regress_wi hs hbad ih hv
      rw [e1] at h1; cases h1
      obtain ⟨st'', e5, e6⟩ := e4 _ h2
      rw [e5] at h3; cases h3
      exact e6
  obtain ⟨ssA, stA, a1, a2, a3, -⟩ := regress_wi hs hbad hw hv
  obtain ⟨ssB, stB, b1, b2, b3, -⟩ := regress_wi hs hbad hw₁ hv'
  refine ⟨stA, stB, ?_, ?_, clean_same hs b3 a3⟩
  · unfold regress; rw [a1]; exact a2
  · unfold regress; rw [b1]; exact b2

/-- Every interrupted attempt leaves a repository from which all backups can still be recovered: it is again a
reachable interrupted state. -/
theorem retried_reach (h : Reach o rsv true st hist) {st₁} (hr : Retried o rsv hist st st₁) : Reach o rsv true st₁ hist := by
  induction hr with
  | none => exact h
  | once _ hv h1 h2 h3 ih => exact .recrash ih hv h1 h2 h3

open Verif.Repo.Demo in
/-- not vacuous: the regress stops in the middle, and is started again -/
example : ∃ stA stB, regress ops crashed reg = some stA ∧ regress ops crashed2 reg = some stB ∧ SameRepo ops stB stA :=
  regress_restartable crashed_reach
    (.once .none reg_valid (steps := (regressSteps ops crashed reg).get (by decide +kernel)) (n := 5) (by simp)
      (by decide +kernel) (by simp [crashed2, reg]))
    reg_valid ⟨reg_valid.tmp, by decide +kernel, reg_valid.stamp, reg_valid.junk⟩

end Verif.C05

namespace Verif.C06
open Verif.Repo
variable {α A C S H Δ L : Type} [LinearOrder α] [DecidableEq A] [DecidableEq S] [DecidableEq H] [DecidableEq L]
variable {o : Ops A C H Δ L} {rsv : α → Prop} {st st' : State α A C S H Δ} {hist : Hist α A C S}

/-- During a session (not the first), after any number of operations but before the end, there are exactly two markers:
its own time, and the time of the last complete backup; at the end there is exactly one. -/
theorem markers {T : Files α (Node A C S)} {t : Nat} (h : Reach o rsv false st ((t, T) :: hist)) {s : Sess α A C S H Δ}
    (hv : ValidSess o rsv ((t, T) :: hist) s) {steps} (hs : sessionSteps o st s = some steps) {n : Nat} {st₁}
    (he : exec s.stamp (steps.take n) st = some st₁) :
    (n = 0 → st₁.marks = [t]) ∧ (0 < n → n < steps.length → st₁.marks = [s.now, t]) ∧
      (steps.length ≤ n → st₁.marks = [s.now]) := by
  rcases (reach_inv h).1 rfl with ⟨h0, -⟩ | ⟨P, T0, rest, L0, mrest, he0, hst, hc⟩
  · cases h0
  · cases he0
    obtain ⟨work, st₂, e1, e2, e3, e4, -⟩ := session_next hst hc hv
    rw [hs] at e1; cases e1
    refine ⟨?_, ?_, ?_⟩
    · rintro rfl
      simp only [List.take_zero, exec, Option.some.injEq] at he
      subst he; exact hc.marks
    · intro hn hl
      obtain ⟨k, rfl⟩ : ∃ k, n = k + 1 := ⟨n - 1, by omega⟩
      simp only [List.length_cons, List.length_append, List.length_nil] at hl
      rw [List.take_succ_cons, List.take_append_of_le_length (by omega)] at he
      exact (e4 k st₁ (by omega) he).marks
    · intro hl
      rw [List.take_of_length_le hl] at he
      rw [he] at e2; cases e2
      obtain ⟨U, hU⟩ := recorded_exists (lastTree ((P.t0, T) :: hist)) s hv.tree.ordered
      rcases e3 U hU with ⟨h0, -⟩ | ⟨P', T0', rest', L0', mrest', he0, hst', hc'⟩
      · cases h0
      · obtain ⟨h1, -⟩ := List.cons.inj he0
        rw [hc'.marks, show P'.t0 = s.now from (congrArg Prod.fst h1).symm]

/-- An interrupted state has exactly two markers; the older one is the last complete backup. -/
theorem interrupted_two_markers (h : Reach o rsv true st hist) :
    ∃ bad t T rest, hist = (t, T) :: rest ∧ t < bad ∧ st.marks = [bad, t] := by
  obtain ⟨P, T0, rest, L0, mrest, bad, rfl, hs, hbad, hw⟩ := (reach_inv h).2 rfl
  exact ⟨bad, P.t0, T0, rest, rfl, hbad, hw.marks⟩

/-- Otherwise there is exactly one, the time of the last complete backup (none before the first). -/
theorem complete_one_marker (h : Reach o rsv false st hist) : st.marks = (hist.map Prod.fst).take 1 := by
  rcases (reach_inv h).1 rfl with ⟨rfl, a, rfl⟩ | ⟨P, T0, rest, L0, mrest, rfl, hs, hc⟩
  · rfl
  · exact hc.marks

/-- In an interrupted state no further backup session is run before a regress. -/
theorem interrupted_refused (h : Reach o rsv true st hist) (s : Sess α A C S H Δ) : backup o st s = none := by
  obtain ⟨bad, t0, T, rest, -, -, hm⟩ := interrupted_two_markers h
  have : mirrorTime st = none := by simp [mirrorTime, hm]
  simp [backup, sessionSteps, this]

/-- The check made before a backup finds the interruption if there is anything in `increments`, and never
reports one in a complete repository.  Missing: see `not_always_detected`. -/
theorem detected_partial (h : Reach o rsv true st hist) (hinc : st.incs ≠ [] ∨ ∃ d ∈ st.incdirs, d ≠ []) :
    needsRegress st = .yes := by
  obtain ⟨bad, t0, T, rest, -, -, hm⟩ := interrupted_two_markers h
  unfold needsRegress
  rw [if_neg, hm]
  rcases hinc with hinc | ⟨d, hd, hne⟩
  · simp [hinc]
  · intro hcon
    simp only [Bool.and_eq_true, List.all_eq_true] at hcon
    exact hne (by simpa using hcon.2 d hd)

theorem no_false_alarm (h : Reach o rsv false st hist) (hne : hist ≠ []) :
    needsRegress st = .no ∨ needsRegress st = .unknown := by
  cases hist with
  | nil => exact absurd rfl hne
  | cons x xs =>
    have hm := complete_one_marker h
    unfold needsRegress
    split
    · exact .inr rfl
    · left; rw [hm]; rfl

open Verif.Repo.Demo in
example : needsRegress crashed = .yes := detected_partial crashed_reach (.inl (by rw [← List.length_pos_iff]; decide +kernel))

open Verif.Repo.Demo in
/-- Finding F3: the second backup is interrupted before the first increment is written; `needs_regress` answers `None`
because `increments` is empty, so that nothing is regressed, and the backup is then refused because of the
two markers: the repository is stuck (for every later attempt). -/
theorem not_always_detected : ∃ st : State Nat Nat Nat Nat Nat (Nat × Nat), Reach ops Demo.rsv true st [(10, src1)] ∧
    needsRegress st = .unknown ∧ ∀ r s, backupAction ops st r s = none := by
  let steps := (sessionSteps ops st1 (sess 20 src2)).get (by decide +kernel)
  let stc := (exec 99 (steps.take 1) st1).get (by decide +kernel)
  have hr : Reach ops Demo.rsv true stc [(10, src1)] :=
    .crash (n := 1) (steps := steps) reach1 (by simp) valid2 (by simp [steps]) (by simp) (by decide +kernel) (by simp [stc, sess])
  have hn : needsRegress stc = .unknown := by decide +kernel
  refine ⟨stc, hr, hn, ?_⟩
  intro r s
  unfold backupAction operateRegress
  rw [hn]
  exact interrupted_refused hr s

/-- In a repository with complete backups, or an empty one, the command makes the backup and nothing else. -/
theorem complete_only_backup (h : Reach o rsv false st hist) (r : RSess α A C) (s : Sess α A C S H Δ) : backupAction o st r s = backup o st s := by
  unfold backupAction operateRegress
  by_cases hne : hist = []
  · subst hne
    rcases (reach_inv h).1 rfl with ⟨-, a, rfl⟩ | ⟨P, T0, rest, L0, mrest, he, -, -⟩
    · rfl
    · cases he
  · rcases no_false_alarm h hne with h' | h' <;> rw [h'] <;> rfl

/-- If there are increments, but no marker or more than two (no history leads to this), nothing is done by a backup. -/
theorem unclear_refused (hinc : st.incs ≠ []) (h0 : st.marks.length = 0 ∨ 2 < st.marks.length) (r : RSess α A C) (s : Sess α A C S H Δ) :
    backupAction o st r s = none := by
  have : needsRegress st = .error := by
    unfold needsRegress
    rw [if_neg (by simp [hinc])]
    match hm : st.marks with
    | [] => rfl
    | [_] => rw [hm] at h0; simp at h0
    | [_, _] => rw [hm] at h0; simp at h0
    | _ :: _ :: _ :: _ => rfl
  unfold backupAction operateRegress
  rw [this]; rfl

open Verif.Repo.Demo in
example (r : RSess Nat Nat Nat) : backupAction ops st2 r (sess 30 src3) = backup ops st2 (sess 30 src3) := complete_only_backup reach2 r _

open Verif.Repo.Demo in
example (r : RSess Nat Nat Nat) : backupAction ops { st2 with marks := [] } r (sess 30 src3) = none :=
  unclear_refused (by rw [← List.length_pos_iff]; decide +kernel) (.inl rfl) r _

end Verif.C06
