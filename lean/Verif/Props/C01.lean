import Verif.Proof.RepoReach
/-
C01  Restore returns exactly what was backed up.
C02  Restore time selection.
C03  A backup never changes what older backups restore to.
-/
namespace Verif.Repo.Demo
/-! A concrete repository, used in the examples of C01-C06, C09 and C10. -/

/-- contents are numbers with themselves as size and hash; names are numbers, 1000 is reserved -/
def ops : Ops Nat Nat Nat (Nat × Nat) Nat := ⟨id, id, fun b n => (b, n), fun _ d => d.2, fun _ _ => rfl, id⟩
def rsv (n : Nat) : Prop := n = 1000
def sess (now : Nat) (src : Files Nat (Node Nat Nat Nat)) : Sess Nat Nat Nat Nat Nat (Nat × Nat) :=
  ⟨now, src, fun _ => false, fun _ => false, 99, fun _ => 77, fun _ => (7, 7), [], 1000⟩
def empty : State Nat Nat Nat Nat Nat (Nat × Nat) := ⟨[([], .dir 5)], [], [[]], [], []⟩
/-- a file, a directory with a link -/
def src1 : Files Nat (Node Nat Nat Nat) := [([], .dir 6), ([1], .reg 2 3), ([2], .dir 1), ([2, 5], .other 1 8)]
/-- the file is modified, the directory has become a file, a new directory -/
def src2 : Files Nat (Node Nat Nat Nat) := [([], .dir 7), ([1], .reg 3 4), ([2], .reg 1 9), ([3], .dir 1), ([3, 1], .reg 2 2)]
/-- a file is gone, one has become a link -/
def src3 : Files Nat (Node Nat Nat Nat) := [([], .dir 8), ([1], .other 3 4), ([3], .dir 2), ([3, 1], .reg 4 5)]

def st1 := (backup ops empty (sess 10 src1)).get (by decide +kernel)
def st2 := (backup ops st1 (sess 20 src2)).get (by decide +kernel)
def st3 := (backup ops st2 (sess 30 src3)).get (by decide +kernel)

theorem valid1 : ValidSess ops rsv [] (sess 10 src1) :=
  ⟨⟨by decide +kernel, ⟨6, by decide +kernel⟩, by
      intro x hx hne
      simp only [sess, src1, List.mem_cons, List.not_mem_nil, or_false] at hx
      rcases hx with rfl | rfl | rfl | rfl
      · exact absurd rfl hne
      · exact ⟨6, by decide +kernel⟩
      · exact ⟨6, by decide +kernel⟩
      · exact ⟨1, by decide +kernel⟩, by unfold rsv; decide +kernel⟩, by simp, rfl, by
      intro i a x a' x' h; simp [lastTree, get] at h⟩

/-- the hash is injective here -/
theorem honest_any (old src : Files Nat (Node Nat Nat Nat)) : Honest ops old src := by
  intro i a x a' x' _ _ h
  rcases h with h | h
  · exact h.1
  · exact h

theorem valid2 : ValidSess ops rsv [(10, src1)] (sess 20 src2) :=
  ⟨⟨by decide +kernel, ⟨7, by decide +kernel⟩, by
      intro x hx hne
      simp only [sess, src2, List.mem_cons, List.not_mem_nil, or_false] at hx
      rcases hx with rfl | rfl | rfl | rfl | rfl
      · exact absurd rfl hne
      · exact ⟨7, by decide +kernel⟩
      · exact ⟨7, by decide +kernel⟩
      · exact ⟨7, by decide +kernel⟩
      · exact ⟨1, by decide +kernel⟩, by unfold rsv; decide +kernel⟩, by decide +kernel, rfl,
    honest_any _ _⟩

theorem valid3 : ValidSess ops rsv [(20, src2), (10, src1)] (sess 30 src3) :=
  ⟨⟨by decide +kernel, ⟨8, by decide +kernel⟩, by
      intro x hx hne
      simp only [sess, src3, List.mem_cons, List.not_mem_nil, or_false] at hx
      rcases hx with rfl | rfl | rfl | rfl
      · exact absurd rfl hne
      · exact ⟨8, by decide +kernel⟩
      · exact ⟨8, by decide +kernel⟩
      · exact ⟨2, by decide +kernel⟩, by unfold rsv; decide +kernel⟩, by decide +kernel, rfl,
    honest_any _ _⟩

theorem reach1 : Reach ops rsv false st1 [(10, src1)] :=
  .backup (.init 5) valid1 (by simp [st1, empty]) (recorded_src _ _ valid1.tree.ordered (fun _ => rfl))
theorem reach2 : Reach ops rsv false st2 [(20, src2), (10, src1)] :=
  .backup reach1 valid2 (by simp [st2]) (recorded_src _ _ valid2.tree.ordered (fun _ => rfl))
theorem reach3 : Reach ops rsv false st3 [(30, src3), (20, src2), (10, src1)] :=
  .backup reach2 valid3 (by simp [st3]) (recorded_src _ _ valid3.tree.ordered (fun _ => rfl))

end Verif.Repo.Demo

namespace Verif.C01
open Verif.Repo
variable {α A C S H Δ L : Type} [LinearOrder α] [DecidableEq A] [DecidableEq S] [DecidableEq H] [DecidableEq L]
variable {o : Ops A C H Δ L} {rsv : α → Prop} {st : State α A C S H Δ} {hist : Hist α A C S}

/-- Whatever a repository has gone through (backups, crashes, regresses, removals), restoring as of the time of
any backup it contains gives exactly the tree recorded by that backup. -/
theorem restore_exact (h : Reach o rsv false st hist) {t : Nat} {T : Files α (Node A C S)} (hm : (t, T) ∈ hist) :
    restore o st t [] = some T := by
  have hr := (reach_inv h).1 rfl
  obtain ⟨x, h1, h2⟩ := hr.restore (List.ne_nil_of_mem hm) t []
  rw [chosen_exact hr.times hm] at h1
  cases h1
  simpa using h2

/-- Such a repository always accepts the next backup; afterwards the new source is restored exactly
(files which could not be read: as of the previous backup), and so are all the older backups. -/
theorem backup_then_restore (h : Reach o rsv false st hist) {s : Sess α A C S H Δ} (hv : ValidSess o rsv hist s) :
    ∃ st' T, backup o st s = some st' ∧ Recorded (lastTree hist) s T ∧ restore o st' s.now [] = some T ∧
      ((∀ i, s.fails i = false) → T = s.src) ∧
      ∀ t U, (t, U) ∈ hist → restore o st' t [] = some U := by
  obtain ⟨st', h1, h2⟩ := backup_rep ((reach_inv h).1 rfl) hv
  by_cases hf : ∀ i, s.fails i = false
  · have hT := recorded_src (lastTree hist) s hv.tree.ordered hf
    have hr := Reach.backup h hv h1 hT
    exact ⟨st', s.src, h1, hT, restore_exact hr (by simp), fun _ => rfl, fun t U hm => restore_exact hr (by simp [hm])⟩
  · obtain ⟨T, hT⟩ := recorded_exists (lastTree hist) s hv.tree.ordered
    have hr := Reach.backup h hv h1 hT
    exact ⟨st', T, h1, hT, restore_exact hr (by simp), fun h => absurd h hf, fun t U hm => restore_exact hr (by simp [hm])⟩

/-- all backups, one after the other -/
def runBackups (o : Ops A C H Δ L) (st : State α A C S H Δ) : List (Sess α A C S H Δ) → Option (State α A C S H Δ)
  | [] => some st
  | s :: ss => (backup o st s).bind (fun st' => runBackups o st' ss)

/-- consecutive sources: changed contents are noticeable -/
def HonestRun (o : Ops A C H Δ L) (prev : Files α (Node A C S)) : List (Sess α A C S H Δ) → Prop
  | [] => True
  | s :: ss => Honest o prev s.src ∧ HonestRun o s.src ss

/-- C01 in closed form: any sequence of source trees backed up at increasing times into an empty directory can be
restored, each as of its time. -/
theorem backups_restore (a : A) (ss : List (Sess α A C S H Δ)) (hinc : (ss.map (·.now)).Pairwise (· < ·))
    (htree : ∀ s ∈ ss, IsTree rsv s.src ∧ rsv s.tmp ∧ ∀ i, s.fails i = false) (hh : HonestRun o [] ss) :
    ∃ st, runBackups o ⟨[([], .dir a)], [], [[]], [], []⟩ ss = some st ∧
      ∀ s ∈ ss, restore o st s.now [] = some s.src := by
  have gen : ∀ (ss : List (Sess α A C S H Δ)) (st : State α A C S H Δ) (hist : Hist α A C S),
      Reach o rsv false st hist → (ss.map (·.now)).Pairwise (· < ·) →
      (∀ s ∈ ss, IsTree rsv s.src ∧ rsv s.tmp ∧ ∀ i, s.fails i = false) → HonestRun o (lastTree hist) ss →
      (∀ x ∈ hist, ∀ s ∈ ss, x.1 < s.now) →
      ∃ st', runBackups o st ss = some st' ∧
        Reach o rsv false st' ((ss.map (fun s => (s.now, s.src))).reverse ++ hist) := by
    intro ss
    induction ss with
    | nil => intro st hist h _ _ _ _; exact ⟨st, rfl, h⟩
    | cons s ss ih =>
      intro st hist h hinc htree hh hp
      obtain ⟨h1, h2⟩ := List.pairwise_cons.mp hinc
      obtain ⟨t1, t2, t3⟩ := htree s (by simp)
      have hv : ValidSess o rsv hist s := ⟨t1, fun x hx => hp x hx s (by simp), t2, hh.1⟩
      obtain ⟨st', e1, -⟩ := backup_rep ((reach_inv h).1 rfl) hv
      have hr := Reach.backup h hv e1 (recorded_src _ s t1.ordered t3)
      obtain ⟨st'', e2, e3⟩ := ih st' _ hr h2 (fun x hx => htree x (by simp [hx])) hh.2 (by
        intro x hx y hy
        rcases List.mem_cons.mp hx with rfl | hx
        · exact h1 _ (List.mem_map.mpr ⟨y, hy, rfl⟩)
        · exact hp x hx y (by simp [hy]))
      refine ⟨st'', by simp [runBackups, e1, e2], ?_⟩
      simpa using e3
  obtain ⟨st, h1, h2⟩ := gen ss _ [] (.init a) hinc htree hh (by simp)
  refine ⟨st, h1, ?_⟩
  intro s hs
  exact restore_exact h2 (by simp; exact ⟨s, hs, rfl, rfl⟩)

open Verif.Repo.Demo in
/-- not vacuous: three backups with all kinds of changes -/
example : restore ops st3 10 [] = some src1 ∧ restore ops st3 20 [] = some src2 ∧ restore ops st3 30 [] = some src3 :=
  ⟨restore_exact reach3 (by simp), restore_exact reach3 (by simp), restore_exact reach3 (by simp)⟩

open Verif.Repo.Demo in
/-- the hypotheses of `backups_restore` can be met -/
example : ∃ st, runBackups ops empty [sess 10 src1, sess 20 src2, sess 30 src3] = some st ∧
    ∀ s ∈ [sess 10 src1, sess 20 src2, sess 30 src3], restore ops st s.now [] = some s.src :=
  backups_restore (o := ops) (rsv := Demo.rsv) 5 [sess 10 src1, sess 20 src2, sess 30 src3] (by decide +kernel)
    (by
      intro s hs
      simp only [List.mem_cons, List.not_mem_nil, or_false] at hs
      rcases hs with rfl | rfl | rfl
      · exact ⟨valid1.tree, rfl, fun _ => rfl⟩
      · exact ⟨valid2.tree, rfl, fun _ => rfl⟩
      · exact ⟨valid3.tree, rfl, fun _ => rfl⟩)
    ⟨valid1.honest, valid2.honest, valid3.honest, trivial⟩

end Verif.C01

namespace Verif.C02
open Verif.Repo
variable {α A C S H Δ L : Type} [LinearOrder α] [DecidableEq A] [DecidableEq S] [DecidableEq H] [DecidableEq L]
variable {o : Ops A C H Δ L} {rsv : α → Prop} {st : State α A C S H Δ} {hist : Hist α A C S}

/-- Restoring (everything, or what is below `sub`) as of any time `t`: if there are backups not later than `t`, the
newest of them is used. -/
theorem restore_newest (h : Reach o rsv false st hist) {t b : Nat} {T : Files α (Node A C S)} (hm : (b, T) ∈ hist)
    (hb : b ≤ t) (hmax : ∀ x ∈ hist, x.1 ≤ t → x.1 ≤ b) (sub : List α) :
    restore o st t sub = some (T.filter (fun x => sub.isPrefixOf x.1)) := by
  have hr := (reach_inv h).1 rfl
  obtain ⟨x, h1, h2⟩ := hr.restore (List.ne_nil_of_mem hm) t sub
  have hx : x ∈ hist := chosen_mem h1
  have hxt : x.1 ≤ t ∧ b ≤ x.1 := by
    unfold chosen at h1
    split at h1
    · next y hy =>
      cases h1
      obtain ⟨e1, as, bs, e2, e3⟩ := List.find?_eq_some_iff_append.mp hy
      refine ⟨by simpa using e1, ?_⟩
      rw [e2] at hm
      rcases List.mem_append.mp hm with hm | hm
      · have := e3 _ hm; simp at this; omega
      · rcases List.mem_cons.mp hm with rfl | hm
        · exact le_refl _
        · have ht := hr.times
          rw [e2, List.map_append, List.map_cons] at ht
          have := (List.pairwise_cons.mp (List.pairwise_append.mp ht).2.1).1 b (List.mem_map.mpr ⟨_, hm, rfl⟩)
          omega
    · next hy =>
      have := List.find?_eq_none.mp hy _ hm
      simp at this; omega
  have hxb := hmax x hx hxt.1
  have heq : x = (b, T) := by
    have : x.1 = b := by omega
    obtain ⟨x1, x2⟩ := x
    simp only at this; subst this
    have e1 := chosen_exact hr.times hx
    have e2 := chosen_exact hr.times hm
    rw [e1] at e2; exact Option.some.inj e2
  subst heq
  exact h2

/-- If all backups are later than `t`, the oldest one is used. -/
theorem restore_oldest (h : Reach o rsv false st hist) {t b : Nat} {T : Files α (Node A C S)} (hm : (b, T) ∈ hist)
    (hall : ∀ x ∈ hist, t < x.1) (hmin : ∀ x ∈ hist, b ≤ x.1) (sub : List α) :
    restore o st t sub = some (T.filter (fun x => sub.isPrefixOf x.1)) := by
  have hr := (reach_inv h).1 rfl
  obtain ⟨x, h1, h2⟩ := hr.restore (List.ne_nil_of_mem hm) t sub
  have hx : x ∈ hist := chosen_mem h1
  have hle : x.1 ≤ b := by
    unfold chosen at h1
    split at h1
    · next y hy =>
      have := List.find?_some hy
      have h3 := hall y (List.mem_of_find?_eq_some hy)
      simp at this; omega
    · obtain ⟨ys, hys⟩ := List.getLast?_eq_some_iff.mp h1
      have ht := hr.times
      rw [hys, List.map_append] at ht
      rw [hys] at hm
      rcases List.mem_append.mp hm with hm | hm
      · have := (List.pairwise_append.mp ht).2.2 b (List.mem_map.mpr ⟨_, hm, rfl⟩) x.1 (by simp)
        omega
      · simp at hm; rw [← hm]
  have heq : x = (b, T) := by
    have : x.1 = b := by have := hmin x hx; omega
    obtain ⟨x1, x2⟩ := x
    simp only at this; subst this
    have e1 := chosen_exact hr.times hx
    have e2 := chosen_exact hr.times hm
    rw [e1] at e2; exact Option.some.inj e2
  subst heq
  exact h2

/-- The times offered for restoring are exactly the times of the backups. -/
theorem increment_times_exact {m : Nat} (h : Reach o rsv false st hist) (hm : mirrorTime st = some (some m)) (t : Nat) :
    t ∈ incrementTimes st m ↔ ∃ T, (t, T) ∈ hist := by
  rcases (reach_inv h).1 rfl with ⟨rfl, a, rfl⟩ | ⟨P, T0, rest, L0, mrest, rfl, hs, hc⟩
  · simp [mirrorTime] at hm
  · have : m = P.t0 := by simpa [mirrorTime, hc.marks] using hm.symm
    subst this
    rw [incrementTimes_mem hs hc, List.mem_map]
    constructor
    · rintro ⟨x, hx, rfl⟩; exact ⟨x.2, hx⟩
    · rintro ⟨T, hT⟩; exact ⟨_, hT, rfl⟩

open Verif.Repo.Demo in
example : restore ops st3 25 [2] = some [([2], .reg 1 9)] ∧ restore ops st3 5 [2] = some [([2], .dir 1), ([2, 5], .other 1 8)] :=
  ⟨restore_newest reach3 (b := 20) (T := src2) (by simp) (by simp) (by decide +kernel) [2],
    restore_oldest reach3 (b := 10) (T := src1) (by simp) (by decide +kernel) (by decide +kernel) [2]⟩

end Verif.C02

namespace Verif.C03
open Verif.Repo
variable {α A C S H Δ L : Type} [LinearOrder α] [DecidableEq A] [DecidableEq S] [DecidableEq H] [DecidableEq L]
variable {o : Ops A C H Δ L} {rsv : α → Prop} {st : State α A C S H Δ} {hist : Hist α A C S}

/-- A further backup does not change what is restored as of any earlier time (of a backup or not, the whole
tree or a part). -/
theorem older_unchanged (h : Reach o rsv false st hist) (hne : hist ≠ []) {s : Sess α A C S H Δ}
    (hv : ValidSess o rsv hist s) {st'} (hb : backup o st s = some st') {t : Nat} (ht : t < s.now) (sub : List α) :
    restore o st' t sub = restore o st t sub := by
  have hr := (reach_inv h).1 rfl
  obtain ⟨st₁, h1, h2⟩ := backup_rep hr hv
  rw [h1] at hb; cases hb
  obtain ⟨T, hT⟩ := recorded_exists (lastTree hist) s hv.tree.ordered
  obtain ⟨x, hx1, hx2⟩ := hr.restore hne t sub
  obtain ⟨y, hy1, hy2⟩ := (h2 T hT).restore (by simp) t sub
  have : chosen ((s.now, T) :: hist) t = chosen hist t := by
    unfold chosen
    rw [List.find?_cons_of_neg (by simpa using ht)]
    cases hist with
    | nil => exact absurd rfl hne
    | cons z zs => rw [List.getLast?_cons_cons]
  rw [this, hx1] at hy1
  cases hy1
  rw [hx2, hy2]

/-- A session whose time is not later than the last backup is refused. -/
theorem not_later_refused {t : Nat} {T : Files α (Node A C S)} (h : Reach o rsv false st ((t, T) :: hist))
    {s : Sess α A C S H Δ} (hs : s.now ≤ t) : backup o st s = none := by
  rcases (reach_inv h).1 rfl with ⟨h0, -⟩ | ⟨P, T0, rest, L0, mrest, he, -, hc⟩
  · cases h0
  · have ht : P.t0 = t := (congrArg Prod.fst (List.cons.inj he).1).symm
    have : mirrorTime st = some (some t) := by simp [mirrorTime, hc.marks, ht]
    simp [backup, sessionSteps, this, hs]

open Verif.Repo.Demo in
example : backup ops st3 (sess 30 src1) = none := not_later_refused reach3 (by decide)

open Verif.Repo.Demo in
example : restore ops st3 15 [] = restore ops st2 15 [] :=
  older_unchanged reach2 (by simp) valid3 (by simp [st3]) (by decide) []

end Verif.C03
