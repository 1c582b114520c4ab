import Verif.Model.Lock
import Mathlib.Order.MinMax
/-! # C32: only one writer at a time -/
namespace Verif.C32
open Verif.Lock
variable {P : Type} [DecidableEq P]
set_option linter.unusedSectionVars false

/-- no process is running yet; the files may be anything, except that there is no lock file without a directory -/
structure Initial (s : State P) : Prop where
  idle : ∀ p, s.proc p = .idle
  free : ∀ p, s.held p = none
  inodes : ∀ i, s.lock = some i → i < s.fresh
  dir : s.lock.isSome = true → s.data = true

/-- process `p` has been let into the repository, to write -/
def Writes (s : State P) (p : P) (force : Bool) : Prop := ∃ l, s.proc p = .active ⟨true, force⟩ l
/-- process `p` has been let into the repository, to read, and has got the lock -/
def ReadsLocked (s : State P) (p : P) : Prop := ∃ force i, s.proc p = .active ⟨false, force⟩ (some i)
/-- process `p` has been let into the repository, to read, without a lock -/
def ReadsUnlocked (s : State P) (p : P) : Prop := ∃ force, s.proc p = .active ⟨false, force⟩ none

/-- the invariant -/
structure Inv (s : State P) : Prop where
  opened : ∀ p a i, s.proc p = .opened a i → s.lock = some i
  active : ∀ p a i, s.proc p = .active a (some i) → s.held p = some (i, a.writer)
  held : ∀ p i e, s.held p = some (i, e) → s.lock = some i
  excl : ∀ p q i j e, p ≠ q → s.held p = some (i, true) → s.held q = some (j, e) → False
  unforced : ∀ p, s.proc p ≠ .active ⟨true, false⟩ none

theorem inv_initial {s : State P} (h : Initial s) : Inv s := by
  constructor <;> intros <;> simp_all [h.idle, h.free]

theorem inv_step {s t : State P} (hi : Inv s) (h : Step false s t) : Inv t := by
  cases h with
  | unlink h => exact absurd h (by simp)
  | creates hp hl hd =>
    have hnone : ∀ q, s.held q = none := fun q => by
      cases hq : s.held q with
      | none => rfl
      | some x => exact absurd (hi.held q x.1 x.2 hq) (by simp [hl])
    have hno : ∀ q a i, s.proc q ≠ .opened a i := fun q a i h => by simpa [hl] using hi.opened q a i h
    constructor
    · intro q a i h
      simp only [State.goto] at h ⊢
      split at h
      · cases h; rfl
      · exact absurd h (hno q a i)
    · intro q a i h
      simp only [State.goto] at h ⊢
      split at h
      · cases h
      · exact hi.active q a i h
    · intro q i e h; simp [State.goto, hnone] at h
    · intro q r i j e _ h; simp [State.goto, hnone] at h
    · intro q h
      simp only [State.goto] at h
      split at h
      · cases h
      · exact hi.unforced q h
  | @locks p a i hp hg =>
    have hl := hi.opened p a i hp
    constructor
    · intro q b j h
      simp only [State.goto, State.hold] at h ⊢
      split at h
      · cases h
      · exact hi.opened q b j h
    · intro q b j h
      simp only [State.goto, State.hold] at h ⊢
      split at h
      · cases h; simp_all
      · rename_i hq; rw [if_neg hq]; exact hi.active q b j h
    · intro q j e h
      simp only [State.goto, State.hold] at h ⊢
      split at h
      · cases h; exact hl
      · exact hi.held q j e h
    · intro q r j k e hqr h1 h2
      simp only [State.goto, State.hold] at h1 h2
      split at h1
      · rename_i hq
        rw [if_neg (fun h => hqr (hq.trans h.symm))] at h2
        obtain ⟨rfl, hw⟩ : i = j ∧ a.writer = true := by simpa using h1
        have : k = i := by have := hi.held r k e h2; rw [hl] at this; simpa using this.symm
        subst this
        have := hg r (fun h => hqr (hq.trans h.symm)) e h2
        simp_all
      · rename_i hq
        split at h2
        · obtain ⟨rfl, hw⟩ : i = k ∧ a.writer = e := by simpa using h2
          have : j = i := by have := hi.held q j true h1; rw [hl] at this; simpa using this.symm
          subst this
          have := hg q hq true h1
          simp_all
        · exact hi.excl q r j k e hqr h1 h2
    · intro q h
      simp only [State.goto, State.hold] at h
      split at h
      · cases h
      · exact hi.unforced q h
  | @exit p a l hp =>
    constructor
    · intro q b j h
      simp only [State.goto, State.hold] at h ⊢
      split at h
      · cases h
      · exact hi.opened q b j h
    · intro q b j h
      simp only [State.goto, State.hold] at h ⊢
      split at h
      · cases h
      · rename_i hq; rw [if_neg hq]; exact hi.active q b j h
    · intro q j e h
      simp only [State.goto, State.hold] at h ⊢
      split at h
      · cases h
      · exact hi.held q j e h
    · intro q r j k e hqr h1 h2
      simp only [State.goto, State.hold] at h1 h2
      split at h1
      · cases h1
      · split at h2
        · cases h2
        · exact hi.excl q r j k e hqr h1 h2
    · intro q h
      simp only [State.goto, State.hold] at h
      split at h
      · cases h
      · exact hi.unforced q h
  | @dies p =>
    constructor
    · intro q b j h
      simp only [State.goto, State.hold] at h ⊢
      split at h
      · cases h
      · exact hi.opened q b j h
    · intro q b j h
      simp only [State.goto, State.hold] at h ⊢
      split at h
      · cases h
      · rename_i hq; rw [if_neg hq]; exact hi.active q b j h
    · intro q j e h
      simp only [State.goto, State.hold] at h ⊢
      split at h
      · cases h
      · exact hi.held q j e h
    · intro q r j k e hqr h1 h2
      simp only [State.goto, State.hold] at h1 h2
      split at h1
      · cases h1
      · split at h2
        · cases h2
        · exact hi.excl q r j k e hqr h1 h2
    · intro q h
      simp only [State.goto, State.hold] at h
      split at h
      · cases h
      · exact hi.unforced q h
  | _ =>
    constructor
    · intro q b j h
      simp only [State.goto] at h ⊢
      first
        | exact hi.opened q b j h
        | (split at h
           · first
               | (cases h; assumption)
               | (split at h <;> cases h)
               | cases h
           · exact hi.opened q b j h)
    · intro q b j h
      simp only [State.goto] at h ⊢
      first
        | exact hi.active q b j h
        | (split at h
           · first
               | (split at h <;> cases h)
               | cases h
           · exact hi.active q b j h)
    · exact hi.held
    · exact hi.excl
    · intro q h
      simp only [State.goto] at h
      first
        | exact hi.unforced q h
        | (split at h
           · first
               | (split at h <;> cases h)
               | simp_all
           · exact hi.unforced q h)

theorem inv_steps {s t : State P} (hi : Inv s) (h : Steps false s t) : Inv t := by
  induction h with
  | refl => exact hi
  | step _ hs ih => exact inv_step ih hs

/-- a process on its way to remove the repository's data -/
def Removes (c : Pc) : Prop := (∃ a, c = .failed a) ∨ (∃ a, c = .remove a) ∨ (∃ a, c = .rmdir a)

/-- With a `current_mirror` file nothing is ever removed. -/
theorem marked_stays {s t : State P} (hm : s.marker = true) (hn : ∀ p, ¬ Removes (s.proc p)) (h : Steps true s t) :
    Steps false s t ∧ t.marker = true ∧ ∀ p, ¬ Removes (t.proc p) := by
  induction h with
  | refl => exact ⟨.refl _, hm, hn⟩
  | @step t u _ hs ih =>
    obtain ⟨h1, h2, h3⟩ := ih
    have key : ∀ (q p : P) (c : Pc), ¬ Removes c → ¬ Removes (if q = p then c else t.proc q) := fun q p c hc => by
      split
      · exact hc
      · exact h3 q
    cases hs with
    | unlink _ hp => exact absurd (Or.inr (Or.inl ⟨_, hp⟩)) (h3 _)
    | rmdir hp => exact absurd (Or.inr (Or.inr ⟨_, hp⟩)) (h3 _)
    | refuse hp => exact absurd (Or.inl ⟨_, hp⟩) (h3 _)
    | clean hp => exact absurd (Or.inl ⟨_, hp⟩) (h3 _)
    | unsound hp hd hm' => simp [h2] at hm'
    | @begin p a hp =>
      refine ⟨.step h1 (.begin a hp), h2, fun q => key q p _ ?_⟩
      rintro (⟨b, h⟩ | ⟨b, h⟩ | ⟨b, h⟩) <;> split at h <;> cases h
    | sound hp => exact ⟨.step h1 (.sound hp), h2, fun q => key q _ _ (by simp [Removes])⟩
    | mkdir hp => exact ⟨.step h1 (.mkdir hp), h2, fun q => key q _ _ (by simp [Removes])⟩
    | lstat hp h => exact ⟨.step h1 (.lstat hp h), h2, fun q => key q _ _ (by simp [Removes])⟩
    | unlocked hp h h' => exact ⟨.step h1 (.unlocked hp h h'), h2, fun q => key q _ _ (by simp [Removes])⟩
    | opens hp h => exact ⟨.step h1 (.opens hp h), h2, fun q => key q _ _ (by simp [Removes])⟩
    | creates hp h h' => exact ⟨.step h1 (.creates hp h h'), h2, fun q => key q _ _ (by simp [Removes])⟩
    | locks hp h => exact ⟨.step h1 (.locks hp h), h2, fun q => key q _ _ (by simp [Removes])⟩
    | blocked hp h h' => exact ⟨.step h1 (.blocked hp h h'), h2, fun q => key q _ _ (by simp [Removes])⟩
    | forced hp h h' => exact ⟨.step h1 (.forced hp h h'), h2, fun q => key q _ _ (by simp [Removes])⟩
    | mark hp h h' => exact ⟨.step h1 (.mark hp h h'), rfl, h3⟩
    | exit hp => exact ⟨.step h1 (.exit hp), h2, fun q => key q _ _ (by simp [Removes])⟩
    | dies => exact ⟨.step h1 .dies, h2, fun q => key q _ _ (by simp [Removes])⟩

/-- In every execution in which no failed initial backup is removed, of any number of processes, some of which may die: there are never two
processes writing to the repository without `--force`, -/
theorem one_writer_partial {s t : State P} (h0 : Initial s) (h : Steps false s t) {p q : P} (hp : Writes t p false) (hq : Writes t q false) :
    p = q := by
  have hi := inv_steps (inv_initial h0) h
  obtain ⟨l, hp⟩ := hp
  obtain ⟨m, hq⟩ := hq
  cases l with
  | none => exact absurd hp (hi.unforced p)
  | some i =>
    cases m with
    | none => exact absurd hq (hi.unforced q)
    | some j =>
      by_contra hne
      exact hi.excl p q i j true hne (hi.active p _ _ hp) (hi.active q _ _ hq)

/-- nor a writer without `--force` together with a reader which has the lock. -/
theorem no_reader_with_writer_partial {s t : State P} (h0 : Initial s) (h : Steps false s t) {p q : P} (hp : Writes t p false)
    (hq : ReadsLocked t q) : False := by
  have hi := inv_steps (inv_initial h0) h
  obtain ⟨l, hp⟩ := hp
  obtain ⟨f, j, hq⟩ := hq
  cases l with
  | none => exact absurd hp (hi.unforced p)
  | some i =>
    have hne : p ≠ q := fun h => by subst h; rw [hp] at hq; cases hq
    exact hi.excl p q i j false hne (hi.active p _ _ hp) (hi.active q _ _ hq)

/-- The same once the first backup has been finished (or at least got to the point of writing `current_mirror`): then nothing needs to be assumed
about the execution. -/
theorem one_writer {s t : State P} (h0 : Initial s) (hm : s.marker = true) (h : Steps true s t) {p q : P} (hp : Writes t p false)
    (hq : Writes t q false) : p = q :=
  one_writer_partial h0 (marked_stays hm (fun p => by simp [h0.idle, Removes]) h).1 hp hq

theorem no_reader_with_writer {s t : State P} (h0 : Initial s) (hm : s.marker = true) (h : Steps true s t) {p q : P} (hp : Writes t p false)
    (hq : ReadsLocked t q) : False :=
  no_reader_with_writer_partial h0 (marked_stays hm (fun p => by simp [h0.idle, Removes]) h).1 hp hq

/-! ### a lock is given back -/

/-- who has a lock is in the repository -/
def HeldActive (s : State P) : Prop := ∀ p i e, s.held p = some (i, e) → ∃ a, s.proc p = .active a (some i)

theorem heldActive_initial {s : State P} (h : Initial s) : HeldActive s := fun p i e he => by simp [h.free] at he

theorem heldActive_step {rm : Bool} {s t : State P} (hi : HeldActive s) (h : Step rm s t) : HeldActive t := by
  intro q i e he
  cases h with
  | locks hp hg =>
    simp only [State.goto, State.hold] at he ⊢
    split at he
    · rename_i hq; cases he; exact ⟨_, by rw [if_pos hq]⟩
    · rename_i hq; rw [if_neg hq]; exact hi q i e he
  | exit hp =>
    simp only [State.goto, State.hold] at he ⊢
    split at he
    · cases he
    · rename_i hq; rw [if_neg hq]; exact hi q i e he
  | dies =>
    simp only [State.goto, State.hold] at he ⊢
    split at he
    · cases he
    · rename_i hq; rw [if_neg hq]; exact hi q i e he
  | mark => exact hi q i e he
  | _ =>
    simp only [State.goto] at he ⊢
    obtain ⟨a, ha⟩ := hi q i e he
    split
    · simp_all
    · exact ⟨a, ha⟩

theorem heldActive_steps {rm : Bool} {s t : State P} (hi : HeldActive s) (h : Steps rm s t) : HeldActive t := by
  induction h with
  | refl => exact hi
  | step _ hs ih => exact heldActive_step ih hs

/-- If nobody is in the repository any more, e.g. because all have finished or died, a writer gets in, and with the lock. -/
theorem lock_available {s t : State P} (h0 : Initial s) (h : Steps false s t) {p : P} (hp : t.proc p = .idle)
    (hn : ∀ q a l, t.proc q ≠ .active a l) :
    ∃ u, Steps false t u ∧ Writes u p false ∧ ∃ i, u.held p = some (i, true) := by
  have s1 := Step.begin (rm := false) ⟨true, false⟩ hp
  have s2 : Step false _ _ := Step.sound (rm := false) (s := t.goto p (.start ⟨true, false⟩)) (p := p) (a := ⟨true, false⟩) (by simp [State.goto])
  have s3 : Step false _ _ := Step.mkdir (rm := false) (s := (t.goto p (.start ⟨true, false⟩)).goto p (.mkdir ⟨true, false⟩)) (p := p) (a := ⟨true, false⟩)
    (by simp [State.goto])
  have s4 : Step false _ _ := Step.lstat (rm := false)
    (s := { ((t.goto p (.start ⟨true, false⟩)).goto p (.mkdir ⟨true, false⟩)) with data := true }.goto p (.lock ⟨true, false⟩)) (p := p) (a := ⟨true, false⟩)
    (by simp [State.goto]) (Or.inl rfl)
  have r4 := (((Steps.refl t).step s1).step s2).step s3 |>.step s4
  have hh : ∀ q, t.held q = none := fun q => by
    cases hq : t.held q with
    | none => rfl
    | some x =>
      obtain ⟨a, ha⟩ := (heldActive_steps (heldActive_initial h0) h) q x.1 x.2 hq
      exact absurd ha (hn q _ _)
  cases hl : t.lock with
  | none =>
    have s5 := Step.creates (rm := false) (s := _) (p := p) (a := ⟨true, false⟩) (by simp [State.goto, hl]) (by simp [State.goto, hl])
      (by rfl) |> (r4.step ·)
    have s6 := Step.locks (rm := false) (s := _) (p := p) (a := ⟨true, false⟩) (i := t.fresh) (by simp [State.goto])
      (fun q _ e he => by simp [State.goto, hh] at he) |> (s5.step ·)
    exact ⟨_, s6, ⟨some t.fresh, by simp [State.goto]⟩, t.fresh, by simp [State.goto, State.hold]⟩
  | some i =>
    have s5 := Step.opens (rm := false) (s := _) (p := p) (a := ⟨true, false⟩) (e := true) (i := i) (by simp [State.goto, hl]) (by simp [State.goto, hl])
      |> (r4.step ·)
    have s6 := Step.locks (rm := false) (s := _) (p := p) (a := ⟨true, false⟩) (i := i) (by simp [State.goto])
      (fun q _ e he => by simp [State.goto, hh] at he) |> (s5.step ·)
    exact ⟨_, s6, ⟨some i, by simp [State.goto]⟩, i, by simp [State.goto, State.hold]⟩

/-! ### examples and counterexamples -/

/-- an initialised repository, which has been locked before; processes are numbers -/
def initialised : State Nat := ⟨true, true, some 3, 4, fun _ => .idle, fun _ => none⟩

theorem initialised_initial : Initial initialised := ⟨fun _ => rfl, fun _ => rfl, by simp [initialised], fun _ => rfl⟩

/-- a process gets in alone -/
theorem initialised_writer : ∃ t, Steps true initialised t ∧ Writes t 1 false ∧ ∃ i, t.held 1 = some (i, true) := by
  obtain ⟨u, h1, h2, h3⟩ := lock_available initialised_initial (.refl _) (p := 1) rfl (by simp [initialised])
  refine ⟨u, ?_, h2, h3⟩
  clear h2 h3
  induction h1 with
  | refl => exact .refl _
  | step _ h ih =>
    refine .step ih ?_
    cases h with
    | unlink h => simp at h
    | begin a h => exact .begin a h
    | sound h => exact .sound h
    | unsound h h' h'' => exact .unsound h h' h''
    | refuse h h' h'' => exact .refuse h h' h''
    | clean h h' => exact .clean h h'
    | rmdir h h' h'' => exact .rmdir h h' h''
    | mkdir h => exact .mkdir h
    | lstat h h' => exact .lstat h h'
    | unlocked h h' h'' => exact .unlocked h h' h''
    | opens h h' => exact .opens h h'
    | creates h h' h'' => exact .creates h h' h''
    | locks h h' => exact .locks h h'
    | blocked h h' h'' => exact .blocked h h' h''
    | forced h h' h'' => exact .forced h h' h''
    | mark h h' h'' => exact .mark h h' h''
    | exit h => exact .exit h
    | dies => exact .dies

/-- writer, without `--force` -/
def W : Args := ⟨true, false⟩

/-- an empty directory to back up to -/
def new : State Nat := ⟨false, false, none, 0, fun _ => .idle, fun _ => none⟩

theorem new_initial : Initial new := ⟨fun _ => rfl, fun _ => rfl, by simp [new], by simp [new]⟩

/-- Finding F27: two initial backups started at the same time can both get in, without `--force`: the second one takes the first one's
directory, in which there is no lock file yet, for a failed backup, and removes it with the lock file which has appeared in the meantime. -/
theorem two_initial_backups : ∃ t, Steps true new t ∧ Writes t 1 false ∧ Writes t 2 false := by
  have h := Steps.refl (rm := true) new
  have h := h.step (Step.begin (p := 1) W rfl)
  have h := h.step (Step.sound (p := 1) (a := W) rfl)
  have h := h.step (Step.mkdir (p := 1) (a := W) rfl)
  have h := h.step (Step.begin (p := 2) W rfl)
  have h := h.step (Step.unsound (p := 2) (a := W) rfl rfl rfl)
  have h := h.step (Step.clean (p := 2) (a := W) rfl (Or.inl rfl))
  have h := h.step (Step.lstat (p := 1) (a := W) rfl (Or.inl rfl))
  have h := h.step (Step.creates (p := 1) (a := W) rfl rfl rfl)
  have h := h.step (Step.locks (p := 1) (a := W) (i := 0) rfl (fun q _ e he => by simp [State.goto, new] at he))
  have h := h.step (Step.unlink (p := 2) (a := W) rfl rfl)
  have h := h.step (Step.rmdir (p := 2) (a := W) rfl rfl rfl)
  have h := h.step (Step.mkdir (p := 2) (a := W) rfl)
  have h := h.step (Step.lstat (p := 2) (a := W) rfl (Or.inl rfl))
  have h := h.step (Step.creates (p := 2) (a := W) rfl rfl rfl)
  have h := h.step (Step.locks (p := 2) (a := W) (i := 1) rfl (fun q _ e he => by
    by_cases hq : q = 1 <;> simp [State.goto, State.hold, new, hq] at he))
  exact ⟨_, h, ⟨_, rfl⟩, ⟨_, rfl⟩⟩

/-- Finding F5: a reader which finds no lock file goes on without a lock, and a writer comes in while it is at work. -/
theorem reader_without_lock : ∃ t, Steps true { new with data := true, marker := true } t ∧ ReadsUnlocked t 1 ∧ Writes t 2 false := by
  have h := Steps.refl (rm := true) { new with data := true, marker := true }
  have h := h.step (Step.begin (p := 1) ⟨false, false⟩ rfl)
  have h := h.step (Step.unlocked (p := 1) (a := ⟨false, false⟩) rfl rfl rfl)
  have h := h.step (Step.begin (p := 2) W rfl)
  have h := h.step (Step.sound (p := 2) (a := W) rfl)
  have h := h.step (Step.mkdir (p := 2) (a := W) rfl)
  have h := h.step (Step.lstat (p := 2) (a := W) rfl (Or.inl rfl))
  have h := h.step (Step.creates (p := 2) (a := W) rfl rfl rfl)
  have h := h.step (Step.locks (p := 2) (a := W) (i := 0) rfl (fun q _ e he => by simp [State.goto, new] at he))
  exact ⟨_, h, ⟨false, rfl⟩, ⟨_, rfl⟩⟩

/-- That is the only way: where there is a lock file from the start, a reader without `--force` has a lock. -/
theorem reader_has_lock {s t : State P} (h0 : Initial s) (hl : s.lock.isSome = true) (h : Steps false s t) {p : P} :
    t.lock.isSome = true ∧ t.proc p ≠ .active ⟨false, false⟩ none := by
  have : t.lock.isSome = true ∧ ∀ p, t.proc p ≠ .active ⟨false, false⟩ none := by
    induction h with
    | refl => exact ⟨hl, fun p => by simp [h0.idle]⟩
    | step _ hs ih =>
      cases hs with
      | unlink h => simp at h
      | begin a _ =>
        refine ⟨ih.1, fun q h => ?_⟩
        simp only [State.goto] at h
        split at h
        · split at h <;> cases h
        · exact ih.2 q h
      | mark => exact ih
      | creates => refine ⟨rfl, fun q h => ?_⟩; simp only [State.goto] at h; split at h; cases h; exact ih.2 q h
      | _ =>
        refine ⟨ih.1, fun q h => ?_⟩
        simp only [State.goto, State.hold] at h
        split at h
        · simp_all
        · exact ih.2 q h
  exact ⟨this.1, this.2 p⟩

/-- readers do not keep each other out -/
theorem two_readers : ∃ t, Steps true initialised t ∧ ReadsLocked t 1 ∧ ReadsLocked t 2 := by
  have h := Steps.refl (rm := true) initialised
  have h := h.step (Step.begin (p := 1) ⟨false, false⟩ rfl)
  have h := h.step (Step.lstat (p := 1) (a := ⟨false, false⟩) rfl (Or.inr rfl))
  have h := h.step (Step.opens (p := 1) (a := ⟨false, false⟩) (i := 3) rfl rfl)
  have h := h.step (Step.locks (p := 1) (a := ⟨false, false⟩) (i := 3) rfl (fun q _ e he => by simp [State.goto, initialised] at he))
  have h := h.step (Step.begin (p := 2) ⟨false, false⟩ rfl)
  have h := h.step (Step.lstat (p := 2) (a := ⟨false, false⟩) rfl (Or.inr rfl))
  have h := h.step (Step.opens (p := 2) (a := ⟨false, false⟩) (i := 3) rfl rfl)
  have h := h.step (Step.locks (p := 2) (a := ⟨false, false⟩) (i := 3) rfl (fun q _ e he => by
    by_cases hq : q = 1
    · simp [State.goto, State.hold, initialised, hq] at he; exact ⟨rfl, he⟩
    · simp [State.goto, State.hold, initialised, hq] at he))
  exact ⟨_, h, ⟨_, _, rfl⟩, ⟨_, _, rfl⟩⟩

end Verif.C32
