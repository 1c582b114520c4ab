import Verif.Proof.LongFail
/-
C80  Files with long names are restored.
-/
namespace Verif.C80
open Verif.LongNames Verif.LongRestore Verif.MetaRecord

set_option linter.unusedSectionVars false
variable {I C A : Type} [DecidableEq I] [DecidableEq C] [DecidableEq A]

/-- Backups one after the other, in each of which every file is processed once: those of the source, and those of the last backup. Before any but
the first there may be backups that fail and are undone: all files that they have processed are regressed. -/
def Covered : Option (Session I C A) → List (Session I C A) → Prop
  | _, [] => True
  | prev, s :: ss =>
    (∀ p, prev = some p → p.now < s.now) ∧ s.order.Nodup ∧ s.before.all C42.safe = true ∧
      (∀ i, i ∈ s.src.map Prod.fst → i ∈ s.order) ∧ (∀ p, prev = some p → ∀ i, i ∈ p.src.map Prod.fst → i ∈ s.order) ∧
      (prev = none → s.attempts = []) ∧
      (∀ a ∈ s.attempts, a.order.Nodup ∧ (∀ i ∈ a.order, i ∈ a.back) ∧ a.before.all C42.safe = true) ∧ Covered (some s) ss

/-- the names of increments that fit, fit still -/
def Keeps (f g : Fits I) : Prop := ∀ i, (f.inc i || f.root i) = true → (g.inc i || g.root i) = true

/-- where the name of an increment fits, that of the file does -/
def Shorter (f : Fits I) : Prop := ∀ i, (f.inc i || f.root i) = true → f.mirror i = true

/-- What fits in the mirror stays the same; names of increments that have fitted fit again; and where the name of an increment fits, that of
the file does. (For the same repository, under the same path, it is so.) -/
structure Steady (ss : List (Session I C A)) : Prop where
  mirror : ∀ s ∈ ss, ∀ s' ∈ ss, s.fits.mirror = s'.fits.mirror ∧ ∀ a ∈ s'.attempts, a.fits.mirror = s.fits.mirror
  inc : ss.Pairwise fun s s' => Keeps s.fits s'.fits ∧ ∀ a ∈ s'.attempts, Keeps s.fits a.fits
  shorter : ∀ s ∈ ss, Shorter s.fits ∧ ∀ a ∈ s.attempts, Shorter a.fits

theorem Steady.tail {s : Session I C A} {ss : List (Session I C A)} (h : Steady (s :: ss)) : Steady ss :=
  ⟨fun a ha b hb => h.mirror a (List.mem_cons_of_mem _ ha) b (List.mem_cons_of_mem _ hb), (List.pairwise_cons.mp h.inc).2,
    fun a ha => h.shorter a (List.mem_cons_of_mem _ ha)⟩

theorem mem_keys {V : Type} {l : List (I × V)} {i : I} (h : find l i ≠ none) : i ∈ l.map Prod.fst := by
  by_contra hc
  exact h (find_none hc)

/-- the state after backups -/
theorem run_state {fm : I → Bool} (empty : C) {ss : List (Session I C A)} {R : Repo I C A} {hist : List (Nat × List (I × Node C A))} {fi : I → Bool}
    (h : State fm fi R hist) (prev : Option (Session I C A)) (hprev : hist.head? = prev.map fun p => (p.now, p.src)) (hc : Covered prev ss)
    (hfm : ∀ s ∈ ss, s.fits.mirror = fm ∧ ∀ a ∈ s.attempts, a.fits.mirror = fm) (hs : Steady ss)
    (hmono : ∀ s ∈ ss, (∀ i, fi i = true → (s.fits.inc i || s.fits.root i) = true) ∧
      ∀ a ∈ s.attempts, ∀ i, fi i = true → (a.fits.inc i || a.fits.root i) = true) :
    (∀ R', LongRestore.run empty R ss = some R' → ∃ fi', State fm fi' R' ((ss.map fun s => (s.now, s.src)).reverse ++ hist)) ∧
    ((∀ s ∈ ss, s.before = [] ∧ ∀ a ∈ s.attempts, a.before = []) → ∃ R', LongRestore.run empty R ss = some R') := by
  induction ss generalizing R hist fi prev with
  | nil => exact ⟨fun R' e => by cases e; exact ⟨fi, h⟩, fun _ => ⟨R, rfl⟩⟩
  | cons s ss ih =>
    obtain ⟨c1, c2, c3, c4, c5, c7, c8, c6⟩ := hc
    obtain ⟨a1, a2⟩ := attemptAll_state empty s.attempts h
      (by
        intro hne hh
        rw [hh] at hprev
        cases prev with
        | none => exact hne (c7 rfl)
        | some p => cases hprev)
      (fun a ha => ⟨(c8 a ha).1, (c8 a ha).2.1, (c8 a ha).2.2⟩) (hfm s (by simp)).2 (hmono s (by simp)).2 (hs.shorter s (by simp)).2
    -- one backup
    have main : ∀ R0, State fm fi R0 hist → ∀ names, LongNames.run R0.names (s.before ++ [.restart]) = some names → ∃ R1, backup { R0 with names } s = some R1 ∧
        State fm (fun i => s.fits.inc i || s.fits.root i) R1 ((s.now, s.src) :: hist) := by
      intro R0 h0 names hn
      have h1 := between_state h0 (ops := s.before ++ [.restart]) (by simp [c3, C42.safe]) hn
      exact backup_state h1 c2
        (by
          rintro i (hi | ⟨x, hx, hi⟩)
          · exact c4 i (mem_keys hi)
          · rw [hprev] at hx
            obtain ⟨p, hp, rfl⟩ := Option.map_eq_some_iff.mp hx
            exact c5 p hp i (mem_keys hi))
        (by
          intro x hx
          rw [hprev] at hx
          obtain ⟨p, hp, rfl⟩ := Option.map_eq_some_iff.mp hx
          exact c1 p hp)
        (hfm s (by simp)).1 (hmono s (by simp)).1 (hs.shorter s (by simp)).1
    have next := fun R1 h2 => ih (R := R1) (hist := (s.now, s.src) :: hist) (fi := fun i => s.fits.inc i || s.fits.root i) h2 (some s) rfl c6
      (fun s' h' => hfm s' (List.mem_cons_of_mem _ h')) hs.tail (fun s' h' => (List.pairwise_cons.mp hs.inc).1 s' h')
    constructor
    · intro R' e
      simp only [LongRestore.run] at e
      split at e
      · cases e
      · next R0 e0 =>
        split at e
        · cases e
        · next names hn =>
          obtain ⟨R1, e1, h2⟩ := main R0 (a1 R0 e0) names hn
          rw [e1] at e
          obtain ⟨fi', h3⟩ := (next R1 h2).1 R' e
          exact ⟨fi', by simpa using h3⟩
    · intro hb
      obtain ⟨R0, e0⟩ := a2 (hb s (by simp)).2
      have hn : LongNames.run R0.names (s.before ++ [.restart]) = some { R0.names with counter := none } := by rw [(hb s (by simp)).1]; rfl
      obtain ⟨R1, e1, h2⟩ := main R0 (a1 R0 e0) _ hn
      obtain ⟨R', e'⟩ := (next R1 h2).2 (fun s' h' => hb s' (List.mem_cons_of_mem _ h'))
      exact ⟨R', by simp only [LongRestore.run, e0, hn, e1, e']⟩

/-- **C80**, partial: whatever names were too long, in every backup; however often files appeared, changed, disappeared and came back; whatever backups
have failed at whatever moment in between and were undone: what is restored of a backup are its files, with their data.

Missing: what fits must not get worse between two backups; it does where the repository is used under a longer path or copied to another file system
(`restore_wrong`, `restore_fails`). -/
theorem long_names_restored_partial {ss : List (Session I C A)} (hc : Covered none ss) (hs : Steady ss) (empty : C) {R : Repo I C A}
    (e : LongRestore.run empty {} ss = some R) {s : Session I C A} (hm : s ∈ ss) : ∃ l, restore empty R s.now = some l ∧ ∀ i, find l i = find s.src i := by
  obtain ⟨fi', h⟩ := (run_state empty (init_state s.fits.mirror (fun _ => false)) none rfl hc
    (fun s' h' => ⟨(hs.mirror s' h' s hm).1, fun a ha => (hs.mirror s hm s' h').2 a ha⟩) hs (by simp)).1 R e
  exact restore_state h empty (by simpa using List.mem_map_of_mem (f := fun s : Session I C A => (s.now, s.src)) hm)

/-- And the backups themselves succeed; so does undoing those that fail. -/
theorem backups_succeed {ss : List (Session I C A)} (hc : Covered none ss) (hs : Steady ss) (hb : ∀ s ∈ ss, s.before = [] ∧ ∀ a ∈ s.attempts, a.before = [])
    (empty : C) : ∃ R : Repo I C A, LongRestore.run empty {} ss = some R := by
  cases ss with
  | nil => exact ⟨_, rfl⟩
  | cons s ss =>
    exact (run_state empty (init_state s.fits.mirror (fun _ => false)) none rfl hc
      (fun s' h' => ⟨(hs.mirror s' h' s (by simp)).1, fun a ha => (hs.mirror s (by simp) s' h').2 a ha⟩) hs (by simp)).2 hb

/-! ### An example

File 0 is the root; 1 fits everywhere; the increments of 2 don't fit; 3 doesn't fit at all. -/

def fits : Fits Nat := ⟨fun i => i ≤ 2, fun i => i = 1, fun i => i = 0⟩
def ss : List (Session Nat Nat Nat) := [
  { now := 10, src := [(0, .other 0), (1, .reg 11 0), (2, .reg 21 0), (3, .reg 31 0)], order := [0, 1, 2, 3], fits },
  -- changed; a killed backup has taken a name
  { now := 20, src := [(0, .other 0), (1, .reg 12 0), (2, .reg 22 0), (3, .reg 32 0)], order := [0, 1, 2, 3], fits, before := [.alloc, .crash .before],
    -- another has failed when the file that was too long had its increment only
    attempts := [{ src := [(0, .other 0), (1, .reg 15 0), (2, .other 3), (3, .reg 35 0), (4, .reg 45 0)], order := [1, 2, 4, 0, 3], fits, upTo := 4,
                   half := .incremented, back := [0, 1, 2, 3, 4] }] },
  -- gone, or something else
  { now := 30, src := [(0, .other 0), (1, .other 1), (3, .reg 32 7)], order := [0, 1, 2, 3], fits },
  -- and back; two have failed, one of them at its very end
  { now := 40, src := [(0, .other 0), (1, .reg 13 0), (2, .reg 24 0), (3, .reg 34 0)], order := [0, 1, 2, 3], fits,
    attempts := [{ src := [(0, .other 0), (2, .reg 25 0)], order := [0, 1, 2, 3], fits, upTo := 4, half := .named, back := [3, 2, 1, 0] },
                 { src := [(0, .other 0), (1, .reg 14 0), (3, .other 3)], order := [3, 1], fits, upTo := 1, half := .named, back := [0, 1, 3] }] },
  { now := 50, src := [(0, .other 0)], order := [0, 1, 2, 3], fits }]

theorem ss_fits : ∀ s ∈ ss, s.fits = fits ∧ ∀ a ∈ s.attempts, a.fits = fits := by simp [ss]

theorem fits_shorter : Shorter fits := by
  intro i hi
  simp only [fits, Bool.or_eq_true, decide_eq_true_eq] at hi ⊢
  omega

theorem keeps_refl {f g : Fits Nat} (hf : f = fits) (hg : g = fits) : Keeps f g := by
  rw [hf, hg]; exact fun i h => h

example : Covered none ss ∧ Steady ss ∧ ∀ s ∈ ss.drop 2, s.before = [] ∧ ∀ a ∈ s.attempts, a.before = [] := by
  refine ⟨?_, ⟨?_, ?_, ?_⟩, ?_⟩
  · simp [Covered, ss, C42.safe]
    grind
  · intro a ha b hb
    refine ⟨by rw [(ss_fits a ha).1, (ss_fits b hb).1], fun x hx => by rw [(ss_fits b hb).2 x hx, (ss_fits a ha).1]⟩
  · refine List.Pairwise.imp_of_mem (R := fun _ _ => True) ?_ (by simp [ss])
    intro a b ha hb _
    exact ⟨keeps_refl (ss_fits a ha).1 (ss_fits b hb).1, fun x hx => keeps_refl (ss_fits a ha).1 ((ss_fits b hb).2 x hx)⟩
  · intro a ha
    refine ⟨by rw [(ss_fits a ha).1]; exact fits_shorter, fun x hx => by rw [(ss_fits a ha).2 x hx]; exact fits_shorter⟩
  · simp [ss]

/-- The names that are used, and what is restored. -/
example : (LongRestore.run 0 {} ss).map (fun R => [10, 20, 30, 40, 50].map (restore 0 R)) = some (ss.map fun s => some s.src) := by decide +kernel
example : (LongRestore.run 0 {} ss).map (fun R => (R.metas.drop 1).map fun m => m.2.map fun x => (x.1, x.2.names)) =
    some [
      [(0, {}), (1, {}), (2, { inc := some (fmtNat 6) }), (3, { mirror := some (fmtNat 2) })],
      [(0, {}), (1, {}), (3, { mirror := some (fmtNat 2) })],
      [(0, {}), (1, {}), (2, { inc := some (fmtNat 1) }), (3, { mirror := some (fmtNat 2) })],
      [(0, {}), (1, {}), (2, { inc := some (fmtNat 1) }), (3, { mirror := some (fmtNat 2) })]] := by decide +kernel

/-- **The names get too long** (found in the code): file 2 has been backed up where the names of its increments fit. Then the repository is used
under a longer path, or has been copied to a file system with shorter names: its change is put under another name, but the metadata of
the first backup don't say so. Its data at the time of the first backup are said to be those of the second; nothing is reported. -/
theorem restore_wrong : ∃ (s1 s2 : Session Nat Nat Nat) (R : Repo Nat Nat Nat), Covered none [s1, s2] ∧ s1.fits.mirror = s2.fits.mirror ∧
    LongRestore.run 0 {} [s1, s2] = some R ∧ s1.now = 10 ∧ s1.src = [(2, .reg 21 0)] ∧ s2.src = [(2, .reg 22 0)] ∧
    restore 0 R 10 = some [(2, .reg 22 0)] := by
  let s1 : Session Nat Nat Nat := { now := 10, src := [(2, .reg 21 0)], order := [2], fits := ⟨fun _ => true, fun _ => true, fun _ => false⟩ }
  let s2 : Session Nat Nat Nat := { now := 20, src := [(2, .reg 22 0)], order := [2], fits := ⟨fun _ => true, fun _ => false, fun _ => false⟩ }
  have hsome : (LongRestore.run 0 {} [s1, s2]).isSome = true := by decide +kernel
  have hres : (LongRestore.run 0 {} [s1, s2]).bind (fun R => restore 0 R 10) = some [(2, .reg 22 0)] := by decide +kernel
  obtain ⟨R, hR⟩ := Option.isSome_iff_exists.mp hsome
  rw [hR] at hres
  refine ⟨s1, s2, R, ?_, rfl, hR, rfl, rfl, rfl, hres⟩
  simp [Covered, s1, s2]

/-- **The names fit at last** (found in the code): a file whose name was too long for the mirror is deleted; when it comes back, its name fits. Restoring it as it
was at the first backup stops with an exception. -/
theorem restore_fails : ∃ (s1 s2 s3 : Session Nat Nat Nat) (R : Repo Nat Nat Nat), Covered none [s1, s2, s3] ∧
    LongRestore.run 0 {} [s1, s2, s3] = some R ∧ s1.now = 10 ∧ s1.src = [(3, .reg 31 0)] ∧ s2.src = [] ∧ s3.src = [(3, .reg 32 0)] ∧
    restore 0 R 10 = none := by
  let s1 : Session Nat Nat Nat := { now := 10, src := [(3, .reg 31 0)], order := [3], fits := ⟨fun _ => false, fun _ => false, fun _ => false⟩ }
  let s2 : Session Nat Nat Nat := { now := 20, src := [], order := [3], fits := ⟨fun _ => true, fun _ => true, fun _ => false⟩ }
  let s3 : Session Nat Nat Nat := { now := 30, src := [(3, .reg 32 0)], order := [3], fits := ⟨fun _ => true, fun _ => true, fun _ => false⟩ }
  have hsome : (LongRestore.run 0 {} [s1, s2, s3]).isSome = true := by decide +kernel
  have hres : (LongRestore.run 0 {} [s1, s2, s3]).map (fun R => restore 0 R 10) = some none := by decide +kernel
  obtain ⟨R, hR⟩ := Option.isSome_iff_exists.mp hsome
  rw [hR] at hres
  refine ⟨s1, s2, s3, R, ?_, hR, rfl, rfl, rfl, rfl, by simpa using hres⟩
  simp [Covered, s1, s2, s3]

end Verif.C80
