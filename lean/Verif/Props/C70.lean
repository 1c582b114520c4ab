import Verif.Spec.ExitStatus
import Mathlib.Order.MinMax
/-
C70: The exit status tells what happened. Model: Verif.Model.ExitStatus; specification: Verif.Spec.ExitStatus.
-/
namespace Verif.C70
open Verif.ExitStatus

/-- **C70 (status).** The statuses are the numbers below 16; different combinations of error, warning, file error and file warning have different numbers; nothing is 0. -/
theorem status_told (c d : Code) : c.status < 16 ∧ (c.status = d.status → c = d) ∧ (c.status = 0 ↔ c = OK) := by
  rcases c with ⟨a1, a2, a3, a4⟩
  rcases d with ⟨b1, b2, b3, b4⟩
  cases a1 <;> cases a2 <;> cases a3 <;> cases a4 <;> cases b1 <;> cases b2 <;> cases b3 <;> cases b4 <;> decide

/-- `run` is reached -/
def Runs (w : World) (a : Action) : Prop :=
  w.args = true ∧ w.verbosity = true ∧ w.preCheck = true ∧ w.connected.all id = true ∧ (check w a).err = false ∧ (setup w a).err = false

/-- either `run` is reached, or there is an error and nothing but checks and preparations has been done -/
theorem main_cases (w : World) (a : Action) :
    (Runs w a ∧ (mainRun w a).1 = .check :: .setup :: .run :: (run w a).1 ∧
      exitCode w a = match (run w a).2 with | .raised => ERR | .code c => ((check w a).or (setup w a)).or c) ∨
    (¬ Runs w a ∧ (∀ v ∈ (mainRun w a).1, ¬ v.acts) ∧ (exitCode w a).err = true) := by
  have key : (Runs w a ∧ mainRun w a = (.check :: .setup :: .run :: (run w a).1, match (run w a).2 with | .raised => .raised | .code c => .code (((check w a).or (setup w a)).or c))) ∨
      (¬ Runs w a ∧ (∀ v ∈ (mainRun w a).1, ¬ v.acts) ∧ ∃ c, (mainRun w a).2 = .code c ∧ c.err = true) := by
    unfold mainRun Runs
    by_cases h1 : w.args = true
    swap
    · right; simp [h1, ERR]
    by_cases h2 : w.verbosity = true
    swap
    · right; simp [h2, ERR]
    by_cases h3 : w.preCheck = true
    swap
    · right; simp [h2, h3, ERR]
    by_cases h4 : w.connected.all id = true
    swap
    · right
      rw [if_neg (by simp [h1]), if_neg (by simp [h2]), if_neg (by simp [h3]), if_pos (by simpa using h4)]
      exact ⟨fun h => h4 h.2.2.2.1, by simp, ERR, rfl, rfl⟩
    rw [if_neg (by simp [h1]), if_neg (by simp [h2]), if_neg (by simp [h3]), if_neg (by simp [h4])]
    simp only []
    by_cases h5 : (check w a).err = true
    · right
      rw [if_pos h5]
      exact ⟨fun h => by rw [h5] at h; simp at h, by simp [Event.acts], _, rfl, h5⟩
    rw [if_neg h5]
    simp only [Bool.not_eq_true] at h5
    by_cases h6 : (setup w a).err = true
    · right
      rw [if_pos (by simp [Code.or, h6])]
      exact ⟨fun h => by rw [h6] at h; simp at h, by simp [Event.acts], _, rfl, by simp [Code.or, h6]⟩
    simp only [Bool.not_eq_true] at h6
    rw [if_neg (by simp [Code.or, h5, h6])]
    left
    refine ⟨⟨h1, h2, h3, h4, h5, h6⟩, ?_⟩
    cases hr : run w a with
    | mk l o => cases o <;> rfl
  unfold exitCode
  rcases key with ⟨h, e⟩ | ⟨h, h', c, e, hc⟩
  · left
    refine ⟨h, by rw [e], ?_⟩
    rw [e]
    cases (run w a).2 <;> rfl
  · right
    exact ⟨h, h', by rw [e]; exact hc⟩

theorem acts_deed (a : Action) : (deed a).acts := by cases a <;> simp [deed, Event.acts]

theorem done_iff {w : World} {a : Action} : Done w a ↔ Runs w a ∧ deed a ∈ (run w a).1 := by
  unfold Done
  rcases main_cases w a with ⟨h, e, _⟩ | ⟨h, e, _⟩
  · rw [e]
    have := acts_deed a
    simp only [List.mem_cons, h, true_and]
    constructor
    · rintro (h | h | h | h)
      · rw [h] at this; exact absurd this (by simp [Event.acts])
      · rw [h] at this; exact absurd this (by simp [Event.acts])
      · rw [h] at this; exact absurd this (by simp [Event.acts])
      · exact h
    · exact fun h => .inr (.inr (.inr h))
  · simp only [h, false_and, iff_false]
    exact fun hd => e _ hd (acts_deed a)

theorem good_err (b : Bool) : (good b).err = !b := by cases b <;> rfl

/-- **C70 (nothing before the checks).** Whatever an action does to a repository or directory, it does only if all its conditions are met. (`compare` goes on without a time, but then it fails: `compare_without_time`.) -/
theorem acts_only_ready {w : World} {a : Action} {v : Event} (hv : v ∈ (mainRun w a).1) (ha : v.acts) : Ready w a := by
  rcases main_cases w a with ⟨⟨h1, h2, h3, h4, h5, h6⟩, e, _⟩ | ⟨_, e, _⟩
  · have hr : v ∈ (run w a).1 := by
      rw [e] at hv
      simp only [List.mem_cons] at hv
      rcases hv with rfl | rfl | rfl | h
      · exact absurd ha (by simp [Event.acts])
      · exact absurd ha (by simp [Event.acts])
      · exact absurd ha (by simp [Event.acts])
      · exact h
    have h4' : ∀ c ∈ w.connected, c = true := by simpa using h4
    have conds : (a.usesRepo → w.repoOk = true ∧ w.repoSetup = true) ∧ (a.usesDir → w.dirOk = true ∧ w.dirSetup = true) ∧ (a.hasOptions → w.options = true) ∧ (a.needsTime → w.time = true) := by
      cases a <;> simp only [check, setup, Code.or, good_err, Action.usesRepo, Action.usesDir, Action.hasOptions, Action.needsTime, run] at h5 h6 hr ⊢ <;> revert h5 h6 hr <;>
        cases w.dirOk <;> cases w.repoOk <;> cases w.options <;> cases w.dirSetup <;> cases w.repoSetup <;> cases w.time <;> simp [OK, ERR, WARN]
    exact ⟨h1, h2, h3, h4', conds.1, conds.2.1, conds.2.2.1, conds.2.2.2⟩
  · exact absurd ha (e v hv)

theorem verifyCode_eq (l : List (Option Bool)) : verifyCode l = { fileErr := l.any (· = some false), fileWarn := l.any (· = none) } := by
  unfold verifyCode
  have : ∀ (l : List (Option Bool)) (c : Code), l.foldl verifyStep c =
      ⟨c.err, c.warn, c.fileErr || l.any (· = some false), c.fileWarn || l.any (· = none)⟩ := by
    intro l
    induction l with
    | nil => intro c; simp
    | cons d l ih =>
      intro c
      rw [List.foldl_cons, ih]
      rcases d with _ | d
      · simp [verifyStep, Code.or, FILE_WARN]
      · cases d <;> simp [verifyStep, Code.or, FILE_ERR]
  simpa [OK] using this l OK

/-- **C70 (verify).** A verification which comes to its end tells a file error exactly if a digest doesn't match, and a file warning exactly if one is missing; otherwise nothing. If it doesn't come to its end, it tells an error. -/
theorem verify_exact (w : World) :
    (Done w .verify → (exitCode w .verify).err = false ∧ (exitCode w .verify).warn = false ∧ ((exitCode w .verify).fileErr = true ↔ some false ∈ w.digests) ∧ ((exitCode w .verify).fileWarn = true ↔ none ∈ w.digests)) ∧
    (¬ Done w .verify → (exitCode w .verify).err = true) := by
  refine ⟨fun hd => ?_, fun hd => ?_⟩
  · obtain ⟨hr, hd⟩ := done_iff.1 hd
    rcases main_cases w .verify with ⟨⟨_, _, _, _, h5, h6⟩, _, ex⟩ | ⟨h, _⟩
    swap
    · exact absurd hr h
    simp only [run, deed] at hd ex
    split at hd
    · next hw =>
      rw [if_pos hw] at ex
      rw [ex, verifyCode_eq]
      simp only [check, setup, good] at h5 h6 ⊢
      revert h5 h6
      cases w.repoOk <;> cases w.repoSetup <;> cases w.time <;> simp [Code.or, OK, ERR]
    · simp at hd
  · rcases main_cases w .verify with ⟨h, _, ex⟩ | ⟨_, _, h⟩
    · have hd' : ¬ deed .verify ∈ (run w .verify).1 := fun h' => hd (done_iff.2 ⟨h, h'⟩)
      simp only [run, deed] at hd' ex
      split at hd'
      · simp at hd'
      · next hw => rw [if_neg hw] at ex; rw [ex]; rfl
    · exact h

/-- **C70 (compare).** A comparison which comes to its end tells a file warning exactly if there are differences, otherwise nothing; if it doesn't come to its end, an error. -/
theorem compare_exact (w : World) :
    (Done w .compare → exitCode w .compare = if w.reports = [] then OK else FILE_WARN) ∧ (¬ Done w .compare → (exitCode w .compare).err = true) := by
  refine ⟨fun hd => ?_, fun hd => ?_⟩
  · obtain ⟨hr, hd⟩ := done_iff.1 hd
    rcases main_cases w .compare with ⟨⟨_, _, _, _, h5, h6⟩, _, ex⟩ | ⟨h, _⟩
    swap
    · exact absurd hr h
    simp only [run, deed] at hd ex
    split at hd
    · next hw =>
      rw [if_pos hw] at ex
      rw [ex]
      simp only [check, setup, good, compareCode, List.length_eq_zero_iff] at h5 h6 ⊢
      revert h5 h6
      cases w.repoOk <;> cases w.repoSetup <;> cases w.dirOk <;> cases w.dirSetup <;> by_cases hq : w.reports = [] <;> simp [Code.or, OK, ERR, FILE_WARN, hq]
    · simp at hd
  · rcases main_cases w .compare with ⟨h, _, ex⟩ | ⟨_, _, h⟩
    · have hd' : ¬ deed .compare ∈ (run w .compare).1 := fun h' => hd (done_iff.2 ⟨h, h'⟩)
      simp only [run, deed] at hd' ex
      split at hd'
      · simp at hd'
      · next hw => rw [if_neg hw] at ex; rw [ex]; rfl
    · exact h

/-- the actions which tell an error exactly if they haven't come to their end -/
def plain : Action → Prop
  | .backup | .restore | .verify | .compare | .listIncrements | .listFiles | .calculateAverage => True
  | _ => False

/-- **C70 (errors).** A backup, a restore, a verification, a comparison, a listing tells an error exactly if it hasn't come to its end. -/
theorem error_iff_not_done (w : World) (a : Action) (ha : plain a) : (exitCode w a).err = true ↔ ¬ Done w a := by
  rw [done_iff]
  rcases main_cases w a with ⟨h, _, ex⟩ | ⟨h, _, h'⟩
  swap
  · simp [h, h']
  simp only [h, true_and]
  obtain ⟨_, _, _, _, h5, h6⟩ := h
  cases a <;> simp only [plain] at ha
  case backup =>
    rw [ex]
    simp only [run, operateRegress, deed]
    cases w.needsRegress with
    | none => simp [ERR]
    | some b => cases b <;> cases w.regressWorks <;> cases w.past <;> cases w.works <;> simp [Code.or, OK, ERR, WARN, h5, h6]
  case restore =>
    rw [ex]
    simp only [run, operateRegress, deed]
    cases w.needsRegress with
    | none => simp [ERR]
    | some b => cases b <;> cases w.works <;> simp [Code.or, OK, ERR, h5, h6]
  case verify =>
    rw [ex]
    simp only [run, deed, verifyCode_eq]
    cases w.works <;> simp [Code.or, OK, ERR, h5, h6]
  case compare =>
    rw [ex]
    simp only [run, deed, compareCode]
    cases w.works <;> cases w.time <;> by_cases hq : w.reports.length = 0 <;> simp [Code.or, OK, ERR, FILE_WARN, h5, h6, hq]
  case listIncrements =>
    rw [ex]
    simp only [run, deed]
    cases w.works <;> simp [Code.or, OK, ERR, h5, h6]
  case listFiles =>
    rw [ex]
    simp only [run, deed]
    cases w.works <;> simp [Code.or, OK, ERR, h5, h6]
  case calculateAverage =>
    rw [ex]
    simp only [run, deed]
    cases w.works <;> simp [Code.or, OK, ERR, h5, h6]

/-- **C70 (success).** Status 0 means that the action has done what it is for (or that nothing needed to be regressed). -/
theorem zero_means_done (w : World) (a : Action) (h0 : (exitCode w a).status = 0) : Done w a ∨ (a = .regress false ∧ w.needsRegress = some false) := by
  have hz : exitCode w a = OK := (status_told _ OK).2.2.1 h0
  by_cases hp : plain a
  · left
    by_contra hd
    have := (error_iff_not_done w a hp).2 hd
    rw [hz] at this
    simp [OK] at this
  rcases main_cases w a with ⟨h, -, ex⟩ | ⟨-, -, h'⟩
  swap
  · rw [hz] at h'; simp [OK] at h'
  rw [done_iff]
  simp only [h, true_and]
  obtain ⟨-, -, -, -, h5, h6⟩ := h
  rw [hz] at ex
  cases a <;> simp only [plain, not_true_eq_false] at hp
  case regress force =>
    revert ex
    simp only [run, operateRegress, deed]
    cases w.needsRegress with
    | none => simp [OK, ERR]
    | some b => cases b <;> cases force <;> cases w.regressWorks <;> cases w.canForce <;> simp [Code.or, OK, ERR, WARN]
  case removeIncrements =>
    revert ex
    simp only [run, deed]
    cases w.removal <;> cases w.works <;> simp [Code.or, OK, ERR, WARN]
  case removeFile =>
    revert ex
    simp only [run, deed]
    cases w.removed <;> cases w.works <;> simp [Code.or, OK, ERR, WARN]
  case calculateStatistics =>
    revert ex
    simp only [run, deed]
    cases w.statistics <;> cases w.works <;> simp [Code.or, OK, ERR, WARN]
  case test =>
    left
    revert ex
    simp only [run, deed]
    by_cases hf : (testCode w).fileErr = true
    · simp [Code.or, OK, hf]
    · simp [hf]

/-- **C70 (nothing found).** A removal and a calculation of statistics which haven't done anything tell an error or a warning, and only then. -/
theorem nothing_found (w : World) (a : Action) (ha : a = .removeIncrements ∨ a = .removeFile ∨ a = .calculateStatistics) :
    ((exitCode w a).err = true ∨ (exitCode w a).warn = true) ↔ ¬ Done w a := by
  rw [done_iff]
  rcases main_cases w a with ⟨h, _, ex⟩ | ⟨h, _, h'⟩
  swap
  · simp [h, h']
  simp only [h, true_and]
  obtain ⟨_, _, _, _, h5, h6⟩ := h
  rw [ex]
  have w5 : (check w a).warn = false := by rcases ha with rfl | rfl | rfl <;> simp only [check, good] <;> cases w.repoOk <;> cases w.options <;> rfl
  have w6 : (setup w a).warn = false := by rcases ha with rfl | rfl | rfl <;> simp only [setup, good] <;> cases w.repoSetup <;> rfl
  rcases ha with rfl | rfl | rfl
  · simp only [run, deed]
    cases w.removal <;> cases w.works <;> simp [Code.or, OK, ERR, WARN, h5, h6, w5, w6]
  · simp only [run, deed]
    cases w.removed <;> cases w.works <;> simp [Code.or, OK, ERR, WARN, h5, h6, w5, w6]
  · simp only [run, deed]
    cases w.statistics <;> cases w.works <;> simp [Code.or, OK, ERR, WARN, h5, h6, w5, w6]

theorem ready_runs {w : World} {a : Action} (h : Ready w a) : Runs w a := by
  have hc : w.connected.all id = true := by simpa using h.connected
  have h5 := h.repo
  have h6 := h.dir
  have h7 := h.options
  have h8 := h.time
  refine ⟨h.args, h.verbosity, h.values, hc, ?_, ?_⟩
  · cases a <;> simp_all [check, good, Action.usesRepo, Action.usesDir, Action.hasOptions, Action.needsTime, OK, Code.or]; split <;> simp [WARN]
  · cases a <;> simp_all [setup, good, Action.usesRepo, Action.usesDir, Action.hasOptions, Action.needsTime, OK]; split <;> simp [WARN]

/-- nothing is in the way of an action which has been started -/
def Possible (w : World) : Action → Prop
  | .backup => (w.needsRegress = some false ∨ w.needsRegress = some true ∧ w.regressWorks = true) ∧ w.past = true ∧ w.works = true
  | .restore => w.needsRegress = some false ∧ w.works = true
  | .regress force => (w.needsRegress = some true ∨ force = true ∧ w.needsRegress = some false ∧ w.canForce = true) ∧ w.regressWorks = true
  | .removeIncrements => w.removal = .some ∧ w.works = true
  | .removeFile => w.removed = true ∧ w.works = true
  | .calculateStatistics => w.statistics = .found ∧ w.works = true
  | .test => w.connected ≠ [] ∧ w.connections = w.connected.length + 1
  | .verify | .compare | .listIncrements | .listFiles | .calculateAverage => w.works = true

/-- **C70 (what's possible is done).** If all conditions for an action are met and nothing is in the way, it does what it is for. -/
theorem possible_done (w : World) (a : Action) (h : Ready w a) (hp : Possible w a) : Done w a := by
  rw [done_iff]
  refine ⟨ready_runs h, ?_⟩
  cases a
  case backup =>
    obtain ⟨h1 | ⟨h1, h2⟩, h3, h4⟩ := hp <;> simp [run, operateRegress, deed, *, Code.or, OK, ERR, WARN]
  case restore =>
    obtain ⟨h1, h4⟩ := hp; simp [run, operateRegress, deed, *, Code.or, OK, ERR, WARN]
  case regress force =>
    obtain ⟨h1 | ⟨h1, h2, h3⟩, h4⟩ := hp <;> simp [run, operateRegress, deed, *, Code.or, OK, ERR, WARN]
  case removeIncrements => obtain ⟨h1, h4⟩ := hp; simp [run, deed, *]
  case removeFile => obtain ⟨h1, h4⟩ := hp; simp [run, deed, *]
  case calculateStatistics => obtain ⟨h1, h4⟩ := hp; simp [run, deed, *]
  case test =>
    obtain ⟨h1, h2⟩ := hp
    have h3 : w.connected.length ≠ 0 := by simpa using h1
    have h4 : testCode w = if w.answers.all id then OK else ERR := by
      unfold testCode
      rw [if_neg (by omega), if_neg (by omega)]
    have h5 : (testCode w).fileErr = false := by rw [h4]; split <;> rfl
    simp [run, h5, deed]
  case compare => have := h.time trivial; simp only [Possible] at hp; simp [run, deed, *]
  all_goals simp only [Possible] at hp; simp [run, deed, *]

/-- **C70 (warnings).** A finished backup warns exactly if the repository seems to be in the source or the last backup had to be regressed first; a finished restore exactly if files may have been overwritten by force. There is nothing
else which they tell. -/
theorem warnings_exact (w : World) :
    (Done w .backup → ((exitCode w .backup).warn = true ↔ w.inside = true ∨ w.needsRegress = some true) ∧ (exitCode w .backup).fileErr = false ∧ (exitCode w .backup).fileWarn = false) ∧
    (Done w .restore → ((exitCode w .restore).warn = true ↔ w.targetForced = true) ∧ (exitCode w .restore).fileErr = false ∧ (exitCode w .restore).fileWarn = false) := by
  refine ⟨fun hd => ?_, fun hd => ?_⟩
  · obtain ⟨hr, hd⟩ := done_iff.1 hd
    rcases main_cases w .backup with ⟨⟨_, _, _, _, h5, h6⟩, _, ex⟩ | ⟨h, _⟩
    swap
    · exact absurd hr h
    rw [ex]
    revert hd h5 h6
    simp only [run, operateRegress, deed, check, setup, good]
    cases w.needsRegress with
    | none => simp
    | some b =>
      cases b <;> cases w.regressWorks <;> cases w.past <;> cases w.works <;> cases w.inside <;> cases w.dirOk <;> cases w.repoOk <;> cases w.options <;> cases w.dirSetup <;> cases w.repoSetup <;> simp [Code.or, OK, ERR, WARN]
  · obtain ⟨hr, hd⟩ := done_iff.1 hd
    rcases main_cases w .restore with ⟨⟨_, _, _, _, h5, h6⟩, _, ex⟩ | ⟨h, _⟩
    swap
    · exact absurd hr h
    rw [ex]
    revert hd h5 h6
    simp only [run, operateRegress, deed, check, setup, good]
    cases w.needsRegress with
    | none => simp
    | some b =>
      cases b <;> cases w.works <;> cases w.targetForced <;> cases w.dirOk <;> cases w.repoOk <;> cases w.options <;> cases w.dirSetup <;> cases w.repoSetup <;> cases w.time <;> simp [Code.or, OK, ERR, WARN]

/-- **C70 (connections).** A test of connections has status 0 exactly if all locations were connected and all answered, and an error if one did not. One location which can't be connected is an error even if others can:
the warning which `check` prepares (test.py 76-80) is never given (F93). -/
theorem test_exact (w : World) (ha : w.args = true) (hv : w.verbosity = true) (hp : w.preCheck = true) (hc : w.connections = w.connected.length + 1) (hn : w.connected ≠ []) :
    ((exitCode w .test).status = 0 ↔ (∀ c ∈ w.connected, c = true) ∧ ∀ c ∈ w.answers, c = true) ∧ ((exitCode w .test).err = true ∨ (exitCode w .test).status = 0) ∧ (exitCode w .test).warn = false := by
  have h1 : w.connections ≠ 1 := by
    have : w.connected.length ≠ 0 := by simpa using hn
    omega
  by_cases h4 : w.connected.all id = true
  · have h4' : ∀ c ∈ w.connected, c = true := by simpa using h4
    by_cases h5 : w.answers.all id = true
    · have h5' : ∀ c ∈ w.answers, c = true := by simpa using h5
      have : exitCode w .test = OK := by
        simp [exitCode, mainRun, ha, hv, hp, h4, check, setup, run, testCode, hc, h5, hn, OK, Code.or]
      rw [this]
      exact ⟨⟨fun _ => ⟨h4', h5'⟩, fun _ => rfl⟩, .inr rfl, rfl⟩
    · have h5' : ¬ ∀ c ∈ w.answers, c = true := by simpa using h5
      have : exitCode w .test = ERR := by
        simp [exitCode, mainRun, ha, hv, hp, h4, check, setup, run, testCode, hc, h5, hn, OK, ERR, Code.or]
      rw [this]
      exact ⟨⟨fun h => by simp [Code.status, ERR] at h, fun h => absurd h.2 h5'⟩, .inl rfl, rfl⟩
  · have h4' : ¬ ∀ c ∈ w.connected, c = true := by simpa using h4
    have : exitCode w .test = ERR := by
      simp only [Bool.not_eq_true] at h4
      simp [exitCode, mainRun, ha, hv, hp, h4]
    rw [this]
    exact ⟨⟨fun h => by simp [Code.status, ERR] at h, fun h => absurd h.1 h4'⟩, .inl rfl, rfl⟩

/-! ### what isn't told -/

/-- a world in which everything is all right -/
def fine : World :=
  { args := true, verbosity := true, preCheck := true, connected := [true, true], dirOk := true, repoOk := true, targetForced := false, options := true, dirSetup := true, repoSetup := true, inside := false, time := true,
    needsRegress := some false, regressWorks := true, canForce := true, past := true, works := true, fileErrors := 0, removal := .some, removed := true, digests := [some true, some true], reports := [], statistics := .found,
    connections := 3, answers := [true, true] }

/-- **C70 (F91).** The exit status doesn't depend on how many files failed, whatever the action: a backup in which files failed, which are now missing or old in the backup, has status 0. -/
theorem file_errors_not_told (w : World) (a : Action) (n : Nat) : exitCode { w with fileErrors := n } a = exitCode w a := by
  have hr : ∀ a, run { w with fileErrors := n } a = run w a := by intro a; cases a <;> rfl
  have hm : ∀ a, mainRun { w with fileErrors := n } a = mainRun w a := by
    intro a
    unfold mainRun
    rw [hr]
    cases a <;> rfl
  unfold exitCode
  rw [hm]

theorem failed_backup_zero : (exitCode { fine with fileErrors := 3 } .backup).status = 0 := by decide

/-- **C70 (F92).** `compare` with a time which can't be parsed goes on to `run` (compare.py 109 has `&` for `|`) and ends with an exception. -/
theorem compare_without_time : Event.run ∈ (mainRun { fine with time := false } .compare).1 ∧ (mainRun { fine with time := false } .compare).2 = .raised ∧
    Event.run ∉ (mainRun { fine with time := false } .verify).1 := by decide

example : ∀ a ∈ [Action.backup, .restore, .removeIncrements, .removeFile, .verify, .compare, .listIncrements, .listFiles, .calculateStatistics, .calculateAverage, .test], Ready fine a ∧ Possible fine a := by
  intro a ha
  refine ⟨⟨rfl, rfl, rfl, by decide, fun _ => ⟨rfl, rfl⟩, fun _ => ⟨rfl, rfl⟩, fun _ => rfl, fun _ => rfl⟩, ?_⟩
  simp only [List.mem_cons, List.not_mem_nil, or_false] at ha
  rcases ha with rfl | rfl | rfl | rfl | rfl | rfl | rfl | rfl | rfl | rfl | rfl <;> simp [Possible, fine]

/-- **C70 (F94).** `calculate statistics` doesn't look at the repository before: one which doesn't exist isn't an error, only a warning that there are no statistics. -/
theorem calculate_unchecked : exitCode { fine with repoOk := false, repoSetup := false, statistics := .empty } .calculateStatistics = WARN ∧ (exitCode { fine with repoOk := false } .verify).err = true := by decide

/-! ### examples -/

example : Done fine .backup ∧ (exitCode fine .backup).status = 0 ∧ Done fine .restore ∧ Done fine .verify ∧ (exitCode fine .verify).status = 0 ∧ (exitCode fine .test).status = 0 := by unfold Done; decide
/-- `verify_exact`, `compare_exact`: statuses 12 and 8 -/
example : (exitCode { fine with digests := [some true, none, some false] } .verify).status = 12 ∧ Done { fine with digests := [some true, none, some false] } .verify ∧
    (exitCode { fine with reports := [true] } .compare).status = 8 := by unfold Done; decide
/-- `error_iff_not_done`, `nothing_found`, `warnings_exact`: 1 and 3, and 2 -/
example : (exitCode { fine with works := false } .restore).status = 1 ∧ (exitCode { fine with targetForced := true, works := false } .restore).status = 3 ∧ (exitCode { fine with removal := .none } .removeIncrements).status = 2 ∧
    (exitCode { fine with needsRegress := some true } .backup).status = 2 ∧ Done { fine with needsRegress := some true } .backup := by unfold Done; decide
/-- `acts_only_ready`: nothing is done -/
example : (mainRun { fine with repoOk := false } .backup).1 = [.check] ∧ Ready fine .backup := by
  refine ⟨by decide, acts_only_ready (v := .backedUp) (by decide) trivial⟩
/-- `zero_means_done`, second case -/
example : (exitCode fine (.regress false)).status = 0 ∧ ¬ Done fine (.regress false) ∧ Done fine (.regress true) := by unfold Done; decide
/-- `test_exact` (F93): one of two locations can't be connected -/
example : (exitCode { fine with connected := [true, false] } .test).status = 1 ∧ check { fine with connected := [true, false] } .test = WARN := by decide
end Verif.C70
