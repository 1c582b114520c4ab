import Verif.Proof.RFReach
import Verif.Props.C01
/-
C57  Restore, verify and compare find for each file exactly what is in the repository, although they list each directory only once (`_CachedRF`):
     whatever is on disk; except that the search never ends for a lost file which would be the last of its directory.
-/
namespace Verif.C57
open Verif.Repo Verif.MetaChain
set_option linter.unusedSectionVars false
variable {α A C S H Δ L : Type} [LinearOrder α]

/-- Any directories on disk, any requests in order: if the search ends, each request gives the mirror file and all increments of the path,
or nothing if there is nothing on disk for it. -/
theorem lookup_exact {st : State α A C S H Δ} (hfs : OnFileSystem st) {is : List (List α)} (hord : is.Pairwise (· < ·)) (hne : [] ∉ is)
    {n : Nat} {rs : List (Option (RestoreFile α A C S Δ))} (h : getRfs st n is [] = some rs) :
    List.Forall₂ (fun i r => (OnDisk st i ∧ r = some (directRf st i)) ∨ (¬ OnDisk st i ∧ r = none)) is rs := by
  have gen : ∀ (is : List (List α)) (l : List (RestoreFile α A C S Δ)) rs, is.Pairwise (· < ·) → [] ∉ is → (∀ i ∈ is, RFInv st i l) →
      getRfs st n is l = some rs →
      List.Forall₂ (fun i r => (OnDisk st i ∧ r = some (directRf st i)) ∨ (¬ OnDisk st i ∧ r = none)) is rs := by
    intro is
    induction is with
    | nil => intro l rs _ _ _ h; cases h; exact .nil
    | cons i is ih =>
      intro l rs hord hne hl h
      rw [getRfs] at h
      cases hg : getRf st i n l with
      | none => rw [hg] at h; cases h
      | some p =>
        obtain ⟨r, l'⟩ := p
        rw [hg] at h
        simp only [Option.map_eq_some_iff] at h
        obtain ⟨rs', h1, rfl⟩ := h
        obtain ⟨hr, hinv, -⟩ := request_some hfs.wf (hl i (by simp)) (fun e => hne (by simp [e])) hg
        obtain ⟨ho1, ho2⟩ := List.pairwise_cons.mp hord
        refine .cons ?_ (ih l' rs' ho2 (fun hm => hne (List.mem_cons_of_mem _ hm)) (fun j hj => hinv.mono (le_of_lt (ho1 j hj))) h1)
        by_cases hd : OnDisk st i
        · exact .inl ⟨hd, by rw [hr, lookupDisk, if_pos hd]⟩
        · exact .inr ⟨hd, by rw [hr, lookupDisk, if_neg hd]⟩
  exact gen is [] rs hord hne (fun i _ => RFInv.nil i) h

/-- The search ends exactly if no request is for a file of which nothing is left, which would be the last one in a directory where something
is left. -/
theorem lookup_ends {st : State α A C S H Δ} (hfs : OnFileSystem st) {is : List (List α)} (hord : is.Pairwise (· < ·)) (hne : [] ∉ is) :
    (∃ n, (getRfs st n is []).isSome = true) ↔ ∀ i ∈ is, ¬ LostLast st i := by
  have gen : ∀ (is : List (List α)) (l : List (RestoreFile α A C S Δ)), is.Pairwise (· < ·) → [] ∉ is → (∀ i ∈ is, RFInv st i l) →
      ((∃ n, (getRfs st n is l).isSome = true) → ∀ i ∈ is, ¬ LostLast st i) ∧
      ((∀ i ∈ is, ¬ LostLast st i) → ∃ N, ∀ n, N ≤ n → (getRfs st n is l).isSome = true) := by
    intro is
    induction is with
    | nil => intro l _ _ _; exact ⟨by simp, fun _ => ⟨0, fun _ _ => rfl⟩⟩
    | cons i is ih =>
      intro l hord hne hl
      obtain ⟨ho1, ho2⟩ := List.pairwise_cons.mp hord
      have hi : i ≠ [] := fun e => hne (by simp [e])
      have hne' : [] ∉ is := fun hm => hne (List.mem_cons_of_mem _ hm)
      constructor
      · rintro ⟨n, hn⟩ j hj
        rw [getRfs] at hn
        cases hg : getRf st i n l with
        | none => rw [hg] at hn; cases hn
        | some p =>
          obtain ⟨r, l'⟩ := p
          rw [hg] at hn
          simp only [Option.isSome_map] at hn
          obtain ⟨-, hinv, hlost⟩ := request_some hfs.wf (hl i (by simp)) hi hg
          rcases List.mem_cons.mp hj with rfl | hj
          · exact hlost
          · exact (ih l' ho2 hne' (fun j hj => hinv.mono (le_of_lt (ho1 j hj)))).1 ⟨n, hn⟩ j hj
      · intro hall
        obtain ⟨l', N1, h1, h2⟩ := request hfs.wf (hl i (by simp)) hi (hall i (by simp))
        obtain ⟨N, hN⟩ := (ih l' ho2 hne' (fun j hj => h1.mono (le_of_lt (ho1 j hj)))).2 fun j hj => hall j (List.mem_cons_of_mem _ hj)
        refine ⟨max N N1, fun n hn => ?_⟩
        rw [getRfs, h2 n (le_trans (le_max_right _ _) hn)]
        simp only [Option.isSome_map]
        exact hN n (le_trans (le_max_left _ _) hn)
  constructor
  · exact (gen is [] hord hne (fun i _ => RFInv.nil i)).1
  · intro h
    obtain ⟨N, hN⟩ := (gen is [] hord hne (fun i _ => RFInv.nil i)).2 h
    exact ⟨N, hN N (le_refl _)⟩

variable [DecidableEq A] [DecidableEq S] [DecidableEq H] [DecidableEq L]
variable {o : Ops A C H Δ L} {rsv : α → Prop} {st : State α A C S H Δ} {hist : Hist α A C S}

/-- In a repository with complete backups the search always ends; a restore of any part of any backup through the cache gives exactly the files
of the backup, whatever the file system would do about damaged files. -/
theorem restore_through_cache (h : Reach o rsv false st hist) (hne : hist ≠ []) (F : Reading C S) (t : Nat) (sub : List α) :
    ∃ mt x N, st.marks = [mt] ∧ chosen hist t = some x ∧
      ∀ n, N ≤ n → restoreCached o F st n mt t sub = some (x.2.filter (fun y => sub.isPrefixOf y.1)) := by
  obtain ⟨mt, x, recs, hm, hx, hT, hw, hrec, hra⟩ := chosen_some ((reach_inv h).1 rfl) hne t sub
  obtain ⟨N, hN⟩ := restoreLoop_ends hw o F mt x.1 recs hra.good (fun r hr hd hlost => hlost.1 (hra.kept r hr hd)) []
    (fun r _ => RFInv.nil _)
  refine ⟨mt, x, N, hm, hx, fun n hn => ?_⟩
  unfold restoreCached
  rw [hrec]
  simp only
  rw [hN n hn, hra.direct F]

/-- A search which never ends: the defect. A repository (complete backups) which has lost the last file of a directory, with all its
increments. -/
theorem search_never_ends (hfs : OnFileSystem st) {i : List α} (hi : i ≠ []) (hl : LostLast st i) (n : Nat) : getRf st i n [] = none :=
  request_diverges hfs.wf (RFInv.nil i) hl.1 hi hl.2.1 hl.2.2 n

/-- ... so restoring a backup with such a file gives nothing. -/
theorem restore_hangs (hfs : OnFileSystem st) (F : Reading C S) {mt t rt : Nat} {sub : List α} {recs : List (Rec (List α) (MRec A S H))}
    (hrec : recordsAt st mt t sub = some (rt, recs)) (hord : recs.Pairwise (fun x y => x.idx < y.idx))
    (hroot : ∀ r ∈ recs, (∃ a s h, r.data = some (.reg a s h)) → r.idx ≠ [])
    {r : Rec (List α) (MRec A S H)} (hr : r ∈ recs) {a : A} {s : Nat} {d : Option H} (hreg : r.data = some (.reg a s d)) (hl : LostLast st r.idx) (n : Nat) :
    restoreCached o F st n mt t sub = none := by
  have gen : ∀ (recs : List (Rec (List α) (MRec A S H))) (l : List (RestoreFile α A C S Δ)), GoodRecs recs → (∀ r ∈ recs, RFInv st r.idx l) →
      r ∈ recs → restoreLoop o F st n mt rt recs l = none := by
    intro recs
    induction recs with
    | nil => intro l _ _ h; cases h
    | cons x recs ih =>
      intro l hg hl' hm
      have hin := fun l' (hinv : ∀ y ∈ recs, RFInv st y.idx l') (hm : r ∈ recs) => ih l' hg.tail hinv hm
      rw [restoreLoop]
      cases hd : x.data with
      | none => rfl
      | some m =>
        cases m with
        | reg a' s' d' =>
          have hi := hg.below x (by simp) ⟨a', s', d', hd⟩
          simp only
          cases hgr : getRf st x.idx n l with
          | none => rfl
          | some p =>
            obtain ⟨rf, l'⟩ := p
            obtain ⟨-, hinv, hnl⟩ := request_some hfs.wf (hl' x (by simp)) hi hgr
            rcases List.mem_cons.mp hm with rfl | hm
            · exact absurd hl hnl
            · have := hin l' (fun y hy => hinv.mono (le_of_lt ((List.pairwise_cons.mp hg.ordered).1 y hy))) hm
              simp only [this]
              cases getFp o F mt rt rf <;> rfl
        | dir a' =>
          rcases List.mem_cons.mp hm with rfl | hm
          · rw [hreg] at hd; cases hd
          · simp only [hin l (fun y hy => hl' y (List.mem_cons_of_mem _ hy)) hm, Option.map_none]
        | other a' s' =>
          rcases List.mem_cons.mp hm with rfl | hm
          · rw [hreg] at hd; cases hd
          · simp only [hin l (fun y hy => hl' y (List.mem_cons_of_mem _ hy)) hm, Option.map_none]
  unfold restoreCached
  rw [hrec]
  exact gen recs [] ⟨hord, hroot⟩ (fun y _ => RFInv.nil _) hr

end Verif.C57

namespace Verif.C57.Demo
open Verif.Repo Verif.Repo.Demo

/-- directories of the last of three backups -/
theorem onFs : OnFileSystem st3 := by
  rcases (reach_inv reach3).1 rfl with ⟨h, -⟩ | ⟨P, T0, rest, L0, mrest, -, -, hc⟩
  · simp at h
  · exact hc.wf.onFs

/-- requests in three directories: `[1]` has several increments, `[2, 5]` only one; of `[0]` nothing is there, and that is found out -/
example : (getRfs st3 40 [[0], [1], [2], [2, 5], [3, 1]] []).map (List.map (Option.map fun rf => (rf.idx, rf.mirror.isSome, rf.incs.map (·.time)))) =
    some [none, some ([1], true, [20, 10]), some ([2], false, [20, 10]), some ([2, 5], false, [10]),
      some ([3, 1], true, [20, 10])] := by decide +kernel

example : [[0], [1], [2], [2, 5], [3, 1]].Pairwise (fun x y : List Nat => x < y) ∧ ([] : List Nat) ∉ [[0], [1], [2], [2, 5], [3, 1]] := by
  decide +kernel

/-- the file `[3, 1]` is lost with its increments, something next to it is left -/
def damaged : State Nat Nat Nat Nat Nat (Nat × Nat) :=
  { st3 with mirror := st3.mirror.filter (fun x => x.1 ≠ [3, 1]) ++ [([3, 0], .reg 0 0)], incs := st3.incs.filter fun f => f.idx ≠ [3, 1] }

theorem damaged_lost : LostLast damaged [3, 1] := by
  have h1 : ∀ x ∈ damaged.mirror, x.1 = [3, 0] ∨ x.1.dropLast ≠ [3] := by decide +kernel
  have h2 : ∀ f ∈ damaged.incs, f.idx.dropLast ≠ [3] := by decide +kernel
  have h3 : ∀ j ∈ damaged.incdirs, j.dropLast ≠ [3] := by decide +kernel
  have hall : ∀ j, OnDisk damaged j → j.dropLast = [3] → j = [3, 0] := by
    rintro j ⟨-, hj⟩ hp
    rcases hj with hj | ⟨f, hf, rfl⟩ | hj
    · rw [get_isSome_iff] at hj
      obtain ⟨x, hx, rfl⟩ := hj
      rcases h1 x hx with h | h
      · exact h
      · exact absurd hp h
    · exact absurd hp (h2 f hf)
    · exact absurd hp (h3 j hj)
  refine ⟨fun h => by have := hall _ h rfl; simp at this, ⟨[3, 0], ⟨by simp, .inl (by decide +kernel)⟩, rfl⟩, fun j hj hp => ?_⟩
  rw [hall j hj hp]; decide

theorem damaged_onFs : OnFileSystem damaged := by
  have hm : ∀ x ∈ damaged.mirror, x.1 ≠ [] → isDirAt damaged.mirror x.1.dropLast = true := by decide +kernel
  refine ⟨isDirAt_some (by decide +kernel), ?_, by decide +kernel, by decide +kernel, by decide +kernel⟩
  intro i hi hs
  obtain ⟨x, hx, rfl⟩ := (get_isSome_iff _ _).mp hs
  exact isDirAt_some (hm x hx hi)

/-- so no restore of it ever ends -/
theorem restore_never_ends (n : Nat) : getRf damaged [3, 1] n [] = none :=
  search_never_ends damaged_onFs (by simp) damaged_lost n

theorem restore_all_never_ends (n : Nat) : restoreCached ops ⟨0, fun _ => none⟩ damaged n 30 30 [] = none := by
  have h : recordsAt damaged 30 30 [] = some (30, [⟨[], some (.dir 8)⟩, ⟨[1], some (.other 3 4)⟩, ⟨[3], some (.dir 2)⟩, ⟨[3, 1], some (.reg 4 5 (some 5))⟩]) := by
    decide +kernel
  refine restore_hangs damaged_onFs _ h ?_ ?_ (r := ⟨[3, 1], some (.reg 4 5 (some 5))⟩) (by simp) rfl damaged_lost n
  · decide +kernel
  · rintro r hr ⟨a, s, d, hd⟩ he
    simp only [List.mem_cons, List.not_mem_nil, or_false] at hr
    rcases hr with rfl | rfl | rfl | rfl <;> simp_all

example : restoreCached ops ⟨0, fun _ => none⟩ st3 40 30 30 [] = some src3 := by decide +kernel
example : restoreCached ops ⟨0, fun _ => none⟩ st3 40 30 20 [] = some src2 := by decide +kernel
example : restoreCached ops ⟨0, fun _ => none⟩ st3 40 30 10 [2] = some [([2], .dir 1), ([2, 5], .other 1 8)] := by decide +kernel

end Verif.C57.Demo
