import Verif.Proof.RepoVerify
import Verif.Props.C04
/-
C58  Verification of a repository: no complaint about an intact one; a clean result means that restoring gives data with the recorded digests,
     whatever has happened to the repository; so a clean result for a backup means that it can be restored exactly.
-/
namespace Verif.C58
open Verif.Repo Verif.MetaChain
set_option linter.unusedSectionVars false
variable {α A C S H Δ L : Type} [LinearOrder α] [DecidableEq A] [DecidableEq S] [DecidableEq H] [DecidableEq L]
variable {o : Ops A C H Δ L} {rsv : α → Prop} {st : State α A C S H Δ} {hist : Hist α A C S}

theorem good {recs : List (Rec (List α) (MRec A S H))} (h : IsRecords recs) : GoodRecs recs :=
  ⟨h.ordered, fun r hr ⟨a, s, d, hd⟩ he => h.root r hr he a s d hd⟩

theorem records {recs : List (Rec (List α) (MRec A S H))} (h : GoodRecs recs) : IsRecords recs :=
  ⟨h.ordered, fun r hr he a s d hd => h.below r hr ⟨a, s, d, hd⟩ he⟩

/-- No false alarm: in a repository with complete backups (after any history of backups, crashes, regresses, removals) the verification of any
part of any backup ends, finds no bad file, and counts the files recorded without digest. -/
theorem verify_complete (h : Reach o rsv false st hist) (hne : hist ≠ []) (F : Reading C S) (t : Nat) (sub : List α) :
    ∃ mt rt recs N, st.marks = [mt] ∧ recordsAt st mt t sub = some (rt, recs) ∧
      ∀ n, N ≤ n → verifyRepo o F st n mt t sub = some (0, recs.countP noDigest) := by
  obtain ⟨mt, x, recs, hm, hx, hT, hw, hrec, hra⟩ := chosen_some ((reach_inv h).1 rfl) hne t sub
  have hdd : ∀ r ∈ recs, (digest r).isSome = true → (directData o F st mt x.1 r.idx).isSome = true ∧ ¬ LostLast st r.idx := by
    intro r hr hd
    obtain ⟨d, hd⟩ := Option.isSome_iff_exists.mp hd
    obtain ⟨a, s, e⟩ := reg_of_digest hd
    obtain ⟨c, h1, -⟩ := hra.reg hr e
    exact ⟨by rw [hra.directData F hr h1]; rfl, fun hl => hl.1 (hra.kept r hr ⟨a, s, _, e⟩)⟩
  obtain ⟨N, hN⟩ := verifyFiles_ends hw F mt x.1 recs hra.good hdd [] (fun r _ => RFInv.nil _)
  refine ⟨mt, x.1, recs, N, hm, hrec, fun n hn => ?_⟩
  obtain ⟨y, hy⟩ := Option.isSome_iff_exists.mp (hN n hn)
  have := (verifyFiles_some hw F mt x.1 n recs hra.good [] (fun r _ => RFInv.nil _) hy).1
  unfold verifyRepo
  rw [hrec]
  simp only
  rw [hy, this, hra.noBad F]

/-- What the numbers mean, for any directories on disk, damaged or not: if verify ends, it reports bad files exactly if a restore of the
same backup would write a file whose data have another digest than recorded, and files without digest exactly if there are such. -/
theorem verify_exact (hfs : OnFileSystem st) {F : Reading C S} {mt t rt n n' bad nod : Nat} {sub : List α}
    {recs : List (Rec (List α) (MRec A S H))} (hrec : recordsAt st mt t sub = some (rt, recs)) (hr : IsRecords recs)
    (hv : verifyRepo o F st n mt t sub = some (bad, nod)) {files : List (List α × Node A C S)}
    (hre : restoreCached o F st n' mt t sub = some files) :
    (bad = 0 ↔ ∀ r ∈ recs, ∀ d, digest r = some d → ∀ a c, (r.idx, .reg a c) ∈ files → o.sha c = d) ∧
    (nod = 0 ↔ ∀ r ∈ recs, noDigest r = false) := by
  unfold verifyRepo at hv
  unfold restoreCached at hre
  rw [hrec] at hv hre
  simp only at hv hre
  obtain ⟨h1, h2⟩ := verifyFiles_some hfs.wf F mt rt n recs (good hr) [] (fun r _ => RFInv.nil _) hv
  have h3 := restoreLoop_some hfs.wf o F mt rt n' recs (good hr) [] (fun r _ => RFInv.nil _) hre
  have h4 := allSome_mem h3
  cases h1
  have hin : ∀ r ∈ recs, ∀ d, digest r = some d → ∃ a c, directData o F st mt rt r.idx = some c ∧ (r.idx, .reg a c) ∈ files := by
    intro r hrm d hd
    obtain ⟨c, hc⟩ := Option.isSome_iff_exists.mp (h2 r hrm (by simp [hd])).1
    obtain ⟨a, s, e⟩ := reg_of_digest hd
    have : directOne o F st mt rt r ∈ recs.map (directOne o F st mt rt) := List.mem_map_of_mem hrm
    rw [h4, List.mem_map] at this
    obtain ⟨y, hy, he⟩ := this
    simp only [directOne, e, hc, Option.map_some, Option.some.injEq] at he
    exact ⟨a, c, hc, he ▸ hy⟩
  have huniq : ∀ r ∈ recs, ∀ a c, (r.idx, .reg a c) ∈ files → directData o F st mt rt r.idx = some c := by
    intro r hrm a c hm
    have : (some (r.idx, .reg a c) : Option (List α × Node A C S)) ∈ recs.map (directOne o F st mt rt) := by
      rw [h4]; exact List.mem_map_of_mem hm
    obtain ⟨r', hr', he⟩ := List.mem_map.mp this
    unfold directOne at he
    cases hd : r'.data with
    | none => simp [hd] at he
    | some m =>
      cases m with
      | reg a' s' d' =>
        simp only [hd, Option.map_eq_some_iff, Prod.mk.injEq, Node.reg.injEq] at he
        obtain ⟨c', hc', e1, -, rfl⟩ := he
        rw [← e1]; exact hc'
      | _ => simp [hd] at he
  constructor
  · rw [List.countP_eq_zero]
    constructor
    · intro hb r hrm d hd a c hm
      have := hb r hrm
      simp only [badRec, hd, huniq r hrm a c hm, Bool.not_eq_true', Bool.not_eq_false] at this
      simpa using this
    · intro hall r hrm hb
      unfold badRec at hb
      cases hd : digest r with
      | none => simp [hd] at hb
      | some d =>
        obtain ⟨a, c, hc, hm⟩ := hin r hrm d hd
        simp [hd, hc, hall r hrm d hd a c hm] at hb
  · rw [List.countP_eq_zero]
    simp

/-- What verify is for: the repository `st` contained complete backups; then anything happened to the mirror and the increments (`st'`), the
records still being readable. If verify then reports neither bad files nor missing digests, the backup can be restored exactly
(SHA1 being without collisions). -/
theorem verify_sound (h : Reach o rsv false st hist) (hne : hist ≠ []) (hsha : ∀ x y, o.sha x = o.sha y → x = y)
    {st' : State α A C S H Δ} (hfs : OnFileSystem st') (F : Reading C S) {mt t n : Nat} {sub : List α} (hmt : st.marks = [mt])
    (hsame : recordsAt st' mt t sub = recordsAt st mt t sub) (hv : verifyRepo o F st' n mt t sub = some (0, 0)) :
    ∃ x N, chosen hist t = some x ∧
      ∀ n', N ≤ n' → restoreCached o F st' n' mt t sub = some (x.2.filter (fun y => sub.isPrefixOf y.1)) := by
  obtain ⟨mt', x, recs, hm, hx, hT, hw, hrec, hra⟩ := chosen_some ((reach_inv h).1 rfl) hne t sub
  rw [hmt] at hm; cases hm
  have hrec' : recordsAt st' mt t sub = some (x.1, recs) := by rw [hsame, hrec]
  unfold verifyRepo at hv
  rw [hrec'] at hv
  simp only at hv
  obtain ⟨h1, h2⟩ := verifyFiles_some hfs.wf F mt x.1 n recs hra.good [] (fun r _ => RFInv.nil _) hv
  simp only [Prod.mk.injEq] at h1
  have hdig : ∀ r ∈ recs, ∀ a s d, r.data = some (.reg a s d) → ∃ d', digest r = some d' := by
    intro r hr a s d hd
    cases d with
    | some d => exact ⟨d, by simp [digest, hd]⟩
    | none =>
      have := List.countP_eq_zero.mp h1.2.symm r hr
      simp [noDigest, hd] at this
  have hdata : ∀ r ∈ recs, ∀ a s d, r.data = some (.reg a s d) → directData o F st' mt x.1 r.idx = directData o F st mt x.1 r.idx := by
    intro r hr a s d hd
    obtain ⟨d', hd'⟩ := hdig r hr a s d hd
    obtain ⟨c, hc1, -, hc3⟩ := hra.reg hr hd
    obtain ⟨c', hc'⟩ := Option.isSome_iff_exists.mp (h2 r hr (by simp [hd'])).1
    have hb := List.countP_eq_zero.mp h1.1.symm r hr
    simp only [badRec, hd', hc'] at hb
    have he : o.sha c' = d' := by simpa using hb
    have he' : d' = o.sha c := by
      apply hc3
      simp only [digest, hd] at hd'
      exact hd'
    rw [hc', hra.directData F hr hc1, hsha _ _ (he.trans he')]
  obtain ⟨N, hN⟩ := restoreLoop_ends hfs.wf o F mt x.1 recs hra.good (fun r hr ⟨a, s, d, hd⟩ => by
    obtain ⟨d', hd'⟩ := hdig r hr a s d hd
    exact (h2 r hr (by simp [hd'])).2) [] (fun r _ => RFInv.nil _)
  refine ⟨x, N, hx, fun n' hn' => ?_⟩
  unfold restoreCached
  rw [hrec']
  simp only
  rw [hN n' hn', ← hra.direct F]
  congr 1
  apply List.map_congr_left
  intro r hr
  unfold directOne
  cases hd : r.data with
  | none => rfl
  | some m =>
    cases m with
    | reg a s d => simp only; rw [hdata r hr a s d hd]
    | _ => rfl

end Verif.C58

namespace Verif.C58.Demo
open Verif.Repo Verif.Repo.Demo

def F0 : Reading Nat Nat := ⟨0, fun _ => none⟩

/-- three backups, all verified; the file `[1]` of the oldest is restored from two increments -/
example : verifyRepo ops F0 st3 40 30 30 [] = some (0, 0) ∧ verifyRepo ops F0 st3 40 30 20 [] = some (0, 0) ∧
    verifyRepo ops F0 st3 40 30 10 [] = some (0, 0) := by decide +kernel

/-- a flipped bit in an increment -/
def damaged : State Nat Nat Nat Nat Nat (Nat × Nat) :=
  { st3 with incs := st3.incs.map fun f => if f.idx = [3, 1] ∧ f.time = 20 then { f with inc := .diff (5, 6) } else f }

example : verifyRepo ops F0 damaged 40 30 30 [] = some (0, 0) ∧ verifyRepo ops F0 damaged 40 30 20 [] = some (1, 0) := by decide +kernel
example : recordsAt damaged 30 20 [] = recordsAt st3 30 20 [] := by decide +kernel

/-- a lost mirror file (not the last of its directory): an empty file is restored, and this is reported -/
def lost : State Nat Nat Nat Nat Nat (Nat × Nat) := { st3 with mirror := st3.mirror.filter fun x => x.1 ≠ [3, 1] }
example : verifyRepo ops F0 lost 40 30 30 [] = some (1, 0) := by decide +kernel

/-- The defect: neither verify nor compare check whether the last backup failed. After an interrupted backup both `current_mirror` files are
there, and the one listed first by the operating system counts. If that is the older one, verify of the newest complete backup reports bad files,
though a regress recovers everything (C05); if it is the newer one, verify of the backup which failed reports that all is well. -/
theorem interrupted_false_alarm : crashed.marks = [30, 20] ∧ verifyRepo ops F0 crashed 60 20 20 [] = some (2, 0) ∧
    verifyRepo ops F0 crashed 60 30 20 [] = some (0, 0) ∧ verifyRepo ops F0 crashed 60 30 30 [] = some (0, 0) := by decide +kernel

end Verif.C58.Demo
