import Verif.Props.C44
import Verif.Proof.RestoreAt
/-
C44, continued: restoring to any path.  `W` is the directory which contains the target `top`; `[]` is that directory itself.

Not in the statement: hard links; selection options (C64).  Not true: see `kept_without_digest`, `absent_deletes` and `Demo.file_overwritten`.
-/
namespace Verif.C44
open Verif.Repo Verif.RestoreDir Verif.MetaChain Verif.TreeReducer
set_option linter.unusedSectionVars false
variable {α A C S H Δ L : Type} [LinearOrder α] [DecidableEq A] [DecidableEq S] [DecidableEq H] [DecidableEq L]
variable {o : Ops A C H Δ L} {rsv : α → Prop} {st : State α A C S H Δ} {hist : Hist α A C S}

/-- A regular file of the target looks like the one of the backup, and no digest is recorded. -/
def LooksSameAt (o : Ops A C H Δ L) (st : State α A C S H Δ) (b : Nat) (T : Files α (Node A C S)) (sub : List α) (W : Files α (Node A C S)) (top : α)
    (i : List α) : Prop :=
  NoDigest st b (sub ++ i) ∧ ∃ a x x', get T (sub ++ i) = some (.reg a x) ∧ get W (top :: i) = some (.reg a x') ∧ o.size x = o.size x'

theorem looks_iff {W : Files α (Node A C S)} (hW : IsTree rsv W) {b : Nat} {T : Files α (Node A C S)} {sub i : List α} {top : α} :
    LooksSame o st b T sub (targetFiles top W) i ↔ LooksSameAt o st b T sub W top i := by
  unfold LooksSame LooksSameAt
  rw [get_targetFiles hW.ordered]

theorem tree_mono {r r' : α → Prop} {T : Files α (Node A C S)} (h : IsTree r T) (hr : ∀ x, r' x → r x) : IsTree r' T :=
  ⟨h.ordered, h.root, h.parent, fun x hx n hn hr' => h.names x hx n hn (hr n hr')⟩

/-- if there is something to restore, or something to delete -/
theorem rootDiff_eq {size : C → Nat} {F : List α → Bool} {G target : Files α (Node A C S)} {ds : List (List α × Option (Node A C S))}
    (h : DiffsOK size F G target ds) (hs : (get G []).isSome = true ∨ (get target []).isSome = true) : rootDiff target ds = ds := by
  unfold rootDiff
  rw [if_neg]
  simp only [Bool.and_eq_true, List.all_eq_true, Option.isNone_iff_eq_none, decide_eq_true_eq, not_and]
  intro hn hall
  rcases hs with hs | hs
  · have : isDiff size F G target [] = true := by
      unfold isDiff
      obtain ⟨n, hn'⟩ := Option.isSome_iff_exists.mp hs
      rw [hn', hn]
    obtain ⟨x, hx, he⟩ := List.mem_map.mp ((h.mem []).mpr this)
    exact hall x hx he
  · rw [hn] at hs; cases hs

/-- what a restore does, in one piece -/
theorem restore_core (h : Reach o rsv false st hist) {t b : Nat} {T : Files α (Node A C S)} (hb : chosen hist t = some (b, T)) (sub : List α)
    {W : Files α (Node A C S)} {top tmp : α} (hW : IsTree (· = tmp) W) (ht : rsv tmp) (htop : top ≠ tmp) (stamp : A) (junk : List α → C)
    (hs : (get T sub).isSome = true ∨ (get W [top]).isSome = true) :
    ∃ ss st', restoreSteps o st t sub W top stamp junk tmp = some ss ∧ exec stamp ss (world W) = some st' ∧
      (∀ i, ¬ LooksSameAt o st b T sub W top i → get st'.mirror (top :: i) = get T (sub ++ i)) ∧
      (∀ i, LooksSameAt o st b T sub W top i → get st'.mirror (top :: i) = get W (top :: i)) ∧
      (∀ p, p ≠ [] → ¬ [top] <+: p → get st'.mirror p = get W p) ∧ isDirAt st'.mirror [] = true ∧
      (∀ s ∈ ss, inside top tmp s) ∧
      (∀ u, u ≠ tmp → u ≠ top → (∀ x ∈ W, u ∉ x.1) → rsv u → ∀ s ∈ ss, ∀ i ∈ makes s, u ∉ i) := by
  obtain ⟨mt, l, h1, h2, h3, h4⟩ := records ((reach_inv h).1 rfl) hb
  simp only at h2 h3 h4
  obtain ⟨ds, h5, h6⟩ := getDiffs_ok h4 h3.ordered sub (targetFiles_ordered (top := top) hW.ordered)
  have hG : Part (· = tmp) (below sub T) := part_below (tree_mono h3 (by rintro _ rfl; exact ht)) sub
  obtain ⟨evs, st', h7, h8, h9, h10, h11⟩ := apply_at (stamp := stamp) (junk := junk) h6 hG hW rfl htop
  have hroot : rootDiff (targetFiles top W) ds = ds := rootDiff_eq h6 (by
    rw [get_below h3.ordered, get_targetFiles hW.ordered, List.append_nil]; exact hs)
  have hev : RCtx.events ⟨ds, targetFiles top W, stamp, junk, tmp⟩ = some evs := h7
  refine ⟨evs.flatMap (RCtx.stepsAt ⟨ds, targetFiles top W, stamp, junk, tmp⟩ top), st', ?_, h8, ?_, ?_, h10, h11, ?_, ?_⟩
  · simp only [restoreSteps, h1, h2, h5, hroot, hev]
  · intro i hn
    rw [h9, ← (compared h3 h4 sub (targetFiles top W) i).1 (fun hl => hn ((looks_iff hW).mp hl)), get_targetFiles hW.ordered]
  · intro i hl
    have := (compared h3 h4 sub (targetFiles top W) i).2 ((looks_iff hW).mpr hl)
    rw [get_targetFiles hW.ordered] at this
    rw [h9]; exact this
  · intro s hs'
    obtain ⟨e, -, he⟩ := List.mem_flatMap.mp hs'
    exact stepsAt_inside e s he
  · intro u hu1 hu2 hu3 hu4 s hs'
    obtain ⟨e, hee, he⟩ := List.mem_flatMap.mp hs'
    refine stepsAt_names e ?_ hu1 s he
    rw [List.mem_cons, not_or]
    refine ⟨hu2, ?_⟩
    have hidx : evIdx e ∈ (FillIn.fillIn (ds.map Prod.fst)).map Prod.snd := by
      rcases runFrom_idx _ _ hev e hee with k | k
      · simpa [RCtx.filled, Function.comp_def] using k
      · simp [init] at k
    rw [(C14.fillIn_spec _ h6.ordered).2.2] at hidx
    obtain ⟨k, hk, hp⟩ := hidx
    intro hmem
    have hmem := hp.subset hmem
    have hdk := (h6.mem k).mp hk
    unfold isDiff at hdk
    cases hg : get (below sub T) k with
    | some n =>
      exact (part_below h3 sub).names _ ((get_mem (below_ordered h3.ordered) _ _).mp hg) u hmem hu4
    | none =>
      cases hg' : get (targetFiles top W) k with
      | some n =>
        rw [get_targetFiles hW.ordered] at hg'
        exact hu3 _ ((get_mem hW.ordered _ _).mp hg') (List.mem_cons_of_mem _ hmem)
      | none => rw [hg, hg'] at hdk; cases hdk

/-- Whatever the repository has gone through, whatever `sub` is in the backup chosen (a directory, a file, or nothing), and whatever is at the target (nothing, a
file, or a directory with anything in it), unless there is nothing at both: restoring succeeds.  Afterwards there is at the target exactly what the backup
has at and below `sub` (with the exception of C44), everything next to the target is as before, and no temporary file is left. -/
theorem restore_at_partial (h : Reach o rsv false st hist) {t b : Nat} {T : Files α (Node A C S)} (hb : chosen hist t = some (b, T)) (sub : List α)
    {W : Files α (Node A C S)} {top tmp : α} (hW : IsTree (· = tmp) W) (ht : rsv tmp) (htop : top ≠ tmp) (stamp : A) (junk : List α → C)
    (hs : (get T sub).isSome = true ∨ (get W [top]).isSome = true) :
    ∃ R, restoreAt o st t sub W top stamp junk tmp = some R ∧
      (∀ i, ¬ LooksSameAt o st b T sub W top i → get R (top :: i) = get T (sub ++ i)) ∧
      (∀ i, LooksSameAt o st b T sub W top i → get R (top :: i) = get W (top :: i)) ∧
      (∀ p, p ≠ [] → ¬ [top] <+: p → get R p = get W p) ∧ (∃ a, get R [] = some (.dir a)) := by
  obtain ⟨ss, st', h1, h2, h3, h4, h5, h6, -, -⟩ := restore_core h hb sub hW ht htop stamp junk hs
  refine ⟨st'.mirror, by simp only [restoreAt, h1, h2, Option.map_some], h3, h4, h5, ?_⟩
  unfold isDirAt at h6
  cases hg : get st'.mirror [] with
  | none => rw [hg] at h6; cases h6
  | some n =>
    cases n with
    | dir a => exact ⟨a, rfl⟩
    | _ => rw [hg] at h6; cases h6

/-- If all regular files of the backup have a digest, the target is equal to the backup. -/
theorem restore_at (h : Reach o rsv false st hist) {t b : Nat} {T : Files α (Node A C S)} (hb : chosen hist t = some (b, T)) (sub : List α)
    {W : Files α (Node A C S)} {top tmp : α} (hW : IsTree (· = tmp) W) (ht : rsv tmp) (htop : top ≠ tmp) (stamp : A) (junk : List α → C)
    (hs : (get T sub).isSome = true ∨ (get W [top]).isSome = true) (hdig : ∀ i, ¬ NoDigest st b i) :
    ∃ R, restoreAt o st t sub W top stamp junk tmp = some R ∧ (∀ i, get R (top :: i) = get T (sub ++ i)) ∧
      (∀ p, p ≠ [] → ¬ [top] <+: p → get R p = get W p) := by
  obtain ⟨R, h1, h2, -, h4, -⟩ := restore_at_partial h hb sub hW ht htop stamp junk hs
  exact ⟨R, h1, fun i => h2 i (fun hl => hdig _ hl.1), h4⟩

/-- A path which the backup doesn't have can be "restored": it succeeds, and deletes what is at the target. -/
theorem absent_deletes (h : Reach o rsv false st hist) {t b : Nat} {T : Files α (Node A C S)} (hb : chosen hist t = some (b, T)) {sub : List α}
    (hsub : get T sub = none) {W : Files α (Node A C S)} {top tmp : α} (hW : IsTree (· = tmp) W) (ht : rsv tmp) (htop : top ≠ tmp) (stamp : A)
    (junk : List α → C) (hs : (get W [top]).isSome = true) :
    ∃ R, restoreAt o st t sub W top stamp junk tmp = some R ∧ ∀ i, get R (top :: i) = none := by
  obtain ⟨R, h1, h2, h3, -, -⟩ := restore_at_partial h hb sub hW ht htop stamp junk (.inr hs)
  obtain ⟨mt, l, -, -, hT, -⟩ := records ((reach_inv h).1 rfl) hb
  refine ⟨R, h1, fun i => ?_⟩
  have hnone : get T (sub ++ i) = none := by
    have := (part_below hT sub).prefix (G := below sub T) (i := []) (k := i)
    rw [get_below hT.ordered, get_below hT.ordered, List.append_nil, hsub] at this
    cases hg : get T (sub ++ i) with
    | none => rfl
    | some n =>
      rw [hg] at this
      exact absurd (this rfl (by simp)) (by simp)
  rw [h2 i, hnone]
  rintro ⟨-, a, x, x', e, -⟩
  rw [hnone] at e; cases e

/-- If there is nothing at both, the restore fails (and changes nothing: its only operation is refused). -/
theorem nothing_refused (h : Reach o rsv false st hist) {t b : Nat} {T : Files α (Node A C S)} (hb : chosen hist t = some (b, T)) {sub : List α}
    (hsub : get T sub = none) {W : Files α (Node A C S)} {top tmp : α} (hW : IsTree (· = tmp) W) (stamp : A) (junk : List α → C)
    (hs : get W [top] = none) :
    restoreSteps o st t sub W top stamp junk tmp = some [.delete [top]] ∧ restoreAt o st t sub W top stamp junk tmp = none := by
  obtain ⟨mt, l, h1, h2, h3, h4⟩ := records ((reach_inv h).1 rfl) hb
  simp only at h2 h3 h4
  obtain ⟨ds, h5, h6⟩ := getDiffs_ok h4 h3.ordered sub (targetFiles_ordered (top := top) hW.ordered)
  have hds : ds = [] := by
    by_contra hne
    obtain ⟨x, hx⟩ := List.exists_mem_of_ne_nil _ hne
    have hd := (h6.mem x.1).mp (List.mem_map.mpr ⟨x, hx, rfl⟩)
    unfold isDiff at hd
    have e1 : get (below sub T) x.1 = none := by
      cases hg : get (below sub T) x.1 with
      | none => rfl
      | some n =>
        have := (part_below h3 sub).prefix (i := []) (by rw [hg]; rfl) (List.nil_prefix (l := x.1))
        rw [get_below h3.ordered, List.append_nil, hsub] at this; cases this
    have e2 : get (targetFiles top W) x.1 = none := by
      cases hg : get (targetFiles top W) x.1 with
      | none => rfl
      | some n =>
        have := (part_target (top := top) hW).prefix (i := []) (by rw [hg]; rfl) (List.nil_prefix (l := x.1))
        rw [get_targetFiles hW.ordered, hs] at this; cases this
    rw [e1, e2] at hd; cases hd
  subst hds
  have hroot : rootDiff (targetFiles top W) ([] : List (List α × Option (Node A C S))) = [([], none)] := by
    unfold rootDiff
    rw [if_pos]
    rw [get_targetFiles hW.ordered, hs]; rfl
  have hb0 : get (targetFiles top W) [] = none := by rw [get_targetFiles hW.ordered]; exact hs
  have hst : restoreSteps o st t sub W top stamp junk tmp = some [.delete [top]] := by
    simp only [restoreSteps, h1, h2, h5, hroot]
    simp [RCtx.events, RCtx.filled, FillIn.fillIn, FillIn.fillFirst, FillIn.fillRest, run, runFrom, init, call, RestoreDir.RCtx.canFast, RestoreDir.RCtx.diff, RCtx.base, Repo.get,
      isDirNode, hb0, finishProcessing, RCtx.stepsAt, RCtx.fastAt]
  refine ⟨hst, ?_⟩
  simp only [restoreAt, hst]
  simp [exec, apply, world, hs]

/-- Without `--force`, the command never runs on a directory in which there is something. -/
theorem unforced_refused {W : Files α (Node A C S)} {top : α} {rsv' : α → Prop} (hW : IsTree rsv' W) {i : List α} (hi : i ≠ [])
    (hf : (get W (top :: i)).isSome = true) (t : Nat) (sub : List α) (stamp : A) (junk : List α → C) (tmp : α) :
    restoreCmd false o st t sub W top stamp junk tmp = none := by
  have hd := (part_target (top := top) hW).root (i := i) (by rw [get_targetFiles hW.ordered]; exact hf) hi
  rw [get_targetFiles hW.ordered] at hd
  unfold restoreCmd
  rw [if_pos]
  simp only [needsForce, Bool.not_false, Bool.and_true, Bool.and_eq_true, List.any_eq_true, decide_eq_true_eq]
  refine ⟨?_, ?_⟩
  · unfold isDirAt
    cases hg : get W [top] with
    | none => rw [hg] at hd; cases hd
    | some n => cases n <;> simp_all [isDirNode, Node.isDir]
  · obtain ⟨x, hx, he⟩ := (get_isSome_iff W _).mp hf
    refine ⟨x, hx, by rw [he]; simp, ?_⟩
    rw [he]
    simpa using hi

/-- With `--force`, or if the target is missing, not a directory, or an empty one, it does. -/
theorem unforced_allowed {W : Files α (Node A C S)} {top : α} (hok : ∀ i, i ≠ [] → get W (top :: i) = none) (force : Bool) (t : Nat) (sub : List α) (stamp : A)
    (junk : List α → C) (tmp : α) : restoreCmd force o st t sub W top stamp junk tmp = restoreAt o st t sub W top stamp junk tmp := by
  unfold restoreCmd
  rw [if_neg]
  simp only [needsForce, Bool.and_eq_true, List.any_eq_true, decide_eq_true_eq, not_and, and_assoc]
  rintro - ⟨x, hx, hp, hne⟩
  rw [List.isPrefixOf_iff_prefix] at hp
  obtain ⟨i, hi⟩ := hp
  have : get W (top :: i) = none := hok i (by rintro rfl; exact hne (by simpa using hi.symm))
  have h2 : (get W x.1).isSome = true := (get_isSome_iff W _).mpr ⟨x, hx, rfl⟩
  rw [← hi, List.singleton_append, this] at h2
  cases h2

/-- A restore may be stopped at any point: all files which are not at or below the target are as before, except for one temporary file next to it. -/
theorem stopped_outside (h : Reach o rsv false st hist) {t b : Nat} {T : Files α (Node A C S)} (hb : chosen hist t = some (b, T)) (sub : List α)
    {W : Files α (Node A C S)} {top tmp : α} (hW : IsTree (· = tmp) W) (ht : rsv tmp) (htop : top ≠ tmp) (stamp : A) (junk : List α → C)
    (hs : (get T sub).isSome = true ∨ (get W [top]).isSome = true) (n : Nat) :
    ∃ ss st', restoreSteps o st t sub W top stamp junk tmp = some ss ∧ exec stamp (ss.take n) (world W) = some st' ∧
      ∀ p, p ≠ [] → ¬ [top] <+: p → p ≠ [tmp] → get st'.mirror p = get W p := by
  obtain ⟨ss, st', h1, h2, -, -, -, -, h7, -⟩ := restore_core h hb sub hW ht htop stamp junk hs
  rw [← List.take_append_drop n ss, exec_append] at h2
  obtain ⟨st1, h3, -⟩ := Option.bind_eq_some_iff.mp h2
  exact ⟨ss, st1, h1, h3, fun p hp1 hp2 hp3 => exec_inside (fun s hs' => h7 s (List.mem_of_mem_take hs')) h3 hp1 hp2 hp3⟩

/-- And then restoring again succeeds, and the target is what it would have been. -/
theorem stopped_again (h : Reach o rsv false st hist) {t b : Nat} {T : Files α (Node A C S)} (hb : chosen hist t = some (b, T)) (sub : List α)
    {W : Files α (Node A C S)} {top tmp tmp2 : α} (hW : IsTree (fun x => x = tmp ∨ x = tmp2) W) (ht : rsv tmp) (ht2 : rsv tmp2) (htop : top ≠ tmp)
    (htop2 : top ≠ tmp2) (hne : tmp2 ≠ tmp) (stamp stamp2 : A) (junk junk2 : List α → C) (hs : (get T sub).isSome = true)
    (hdig : ∀ i, ¬ NoDigest st b i) (n : Nat) :
    ∃ ss st' W' R, restoreSteps o st t sub W top stamp junk tmp = some ss ∧ exec stamp (ss.take n) (world W) = some st' ∧
      (∀ p, get W' p = get st'.mirror p) ∧ restoreAt o st t sub W' top stamp2 junk2 tmp2 = some R ∧
      (∀ i, get R (top :: i) = get T (sub ++ i)) ∧ (∀ p, p ≠ [] → ¬ [top] <+: p → p ≠ [tmp] → get R p = get W p) := by
  have hW1 : IsTree (· = tmp) W := tree_mono hW (fun _ h => .inl h)
  obtain ⟨ss, st', h1, h2, -, -, -, -, h7, h8⟩ := restore_core h hb sub hW1 ht htop stamp junk (.inl hs)
  rw [← List.take_append_drop n ss, exec_append] at h2
  obtain ⟨st1, h3, -⟩ := Option.bind_eq_some_iff.mp h2
  have hu : ∀ x ∈ W, tmp2 ∉ x.1 := fun x hx hm => hW.names x hx tmp2 hm (.inr rfl)
  have hnames := exec_names (u := tmp2) (fun s hs' => h8 tmp2 hne htop2.symm hu ht2 s (List.mem_of_mem_take hs')) h3 hu
  have hnd : (st1.mirror.map Prod.fst).Nodup := exec_nodup h3 (by
    show (W.map Prod.fst).Nodup
    have := hW.ordered
    rw [List.Nodup, List.pairwise_map]
    exact this.imp (fun h => ne_of_lt h))
  obtain ⟨W', hW', hget⟩ := listing_of (exec_fsWF h3 (world_fsWF hW1)) hnd hnames
  obtain ⟨R, h9, h10, h11⟩ := restore_at h hb sub hW' ht2 htop2 stamp2 junk2 (.inl hs) hdig
  refine ⟨ss, st1, W', R, h1, h3, hget, h9, h10, ?_⟩
  intro p hp1 hp2 hp3
  rw [h11 p hp1 hp2, hget, exec_inside (fun s hs' => h7 s (List.mem_of_mem_take hs')) h3 hp1 hp2 hp3]
  rfl

/-! ### Examples -/

namespace Demo
open Verif.Repo.Demo

/-- a directory with a file `1`, an empty directory `2`, a directory `5` with a file, and no `4` -/
def W : Files Nat (Node Nat Nat Nat) := [([], .dir 3), ([1], .reg 1 9), ([2], .dir 4), ([5], .dir 8), ([5, 1], .other 2 2)]

theorem tree (r : Nat → Prop) (hr : ∀ n, n < 10 → ¬ r n) : IsTree r W :=
  ⟨by decide +kernel, ⟨3, by decide +kernel⟩, by
    intro x hx hne
    simp only [W, List.mem_cons, List.not_mem_nil, or_false] at hx
    rcases hx with rfl | rfl | rfl | rfl | rfl
    · exact absurd rfl hne
    · exact ⟨3, by decide +kernel⟩
    · exact ⟨3, by decide +kernel⟩
    · exact ⟨3, by decide +kernel⟩
    · exact ⟨8, by decide +kernel⟩, by
    intro x hx n hn
    apply hr
    have : ∀ x ∈ W, ∀ n ∈ x.1, n < 10 := by decide +kernel
    exact this x hx n hn⟩

theorem tree1 : IsTree (· = 1000) W := tree _ (by omega)

/-- all files have a digest -/
theorem digests : ∀ i, ¬ NoDigest st3 20 i := by
  rintro i ⟨recs, a, sz, h1, h2⟩
  have : ∀ r ∈ (metaAtTime st3.metas 20 (fun _ => true)).getD [], ∀ a sz, r.data ≠ some (.reg a sz none) := by
    have h : (∀ r ∈ (metaAtTime st3.metas 20 (fun _ => true)).getD [],
        (match r.data with | some (.reg _ _ none) => false | _ => true) = true) := by decide +kernel
    intro r hr a sz he
    have := h r hr
    rw [he] at this
    cases this
  rw [h1] at this
  exact this _ h2 a sz rfl

/-- a single file onto a file; a directory onto a missing path, onto a file, onto an empty directory; a file onto a directory -/
example (x : List Nat × Nat) (hx : x ∈ [([1], 1), ([1], 2), ([1], 4), ([1], 5), ([3], 1), ([3], 2), ([3], 4), ([], 4), ([], 5)]) :
    ∃ R, restoreAt ops st3 25 x.1 W x.2 99 (fun _ => 77) 1000 = some R ∧ (∀ i, get R (x.2 :: i) = get src2 (x.1 ++ i)) ∧
      (∀ p, p ≠ [] → ¬ [x.2] <+: p → get R p = get W p) :=
  restore_at reach3 (b := 20) (T := src2) (by decide +kernel) x.1 (top := x.2) tree1 rfl
    (by revert x; decide +kernel) 99 (fun _ => 77) (by left; revert x; decide +kernel) digests

/-- what is done -/
example : (restoreAt ops st3 25 [1] W 1 99 (fun _ => 77) 1000).map (fun R => [get R [1], get R [2], get R [1000]]) =
    some [some (.reg 3 4), some (.dir 4), none] ∧
    (restoreAt ops st3 25 [3] W 1 99 (fun _ => 77) 1000).map (fun R => [get R [1], get R [1, 1], get R [2]]) =
    some [some (.dir 1), some (.reg 2 2), some (.dir 4)] ∧
    (restoreAt ops st3 25 [1] W 5 99 (fun _ => 77) 1000).map (fun R => [get R [5], get R [5, 1], get R [1]]) =
    some [some (.reg 3 4), none, some (.reg 1 9)] := by decide +kernel

/-- The backup has no file `8`.  Restoring it to `1` deletes the file which is there, without `--force`. -/
theorem absent_file : get src2 [8] = none ∧
    (restoreCmd false ops st3 25 [8] W 1 99 (fun _ => 77) 1000).map (fun R => [get R [1], get R [2]]) = some [none, some (.dir 4)] := by decide +kernel

example : ∃ R, restoreAt ops st3 25 [8] W 1 99 (fun _ => 77) 1000 = some R ∧ ∀ i, get R (1 :: i) = none :=
  absent_deletes reach3 (b := 20) (T := src2) (by decide +kernel) (by decide +kernel) tree1 rfl (by decide) 99 (fun _ => 77) (by decide +kernel)

/-- to a path where nothing is, it fails -/
example : restoreAt ops st3 25 [8] W 4 99 (fun _ => 77) 1000 = none :=
  (nothing_refused reach3 (b := 20) (T := src2) (by decide +kernel) (by decide +kernel) tree1 99 (fun _ => 77) (by decide +kernel)).2

/-- An existing file is overwritten, without `--force`. -/
theorem file_overwritten : get W [1] = some (.reg 1 9) ∧
    (restoreCmd false ops st3 25 [1] W 1 99 (fun _ => 77) 1000).map (fun R => get R [1]) = some (some (.reg 3 4)) := by decide +kernel

/-- a directory isn't -/
example : restoreCmd false ops st3 25 [3] W 5 99 (fun _ => 77) 1000 = none :=
  unforced_refused tree1 (i := [1]) (by simp) (by decide +kernel) 25 [3] 99 (fun _ => 77) 1000

/-- the repository, with two names for temporary files -/
theorem valid' {hist : Hist Nat Nat Nat Nat} {s : Sess Nat Nat Nat Nat Nat (Nat × Nat)} (h : ValidSess ops Verif.Repo.Demo.rsv hist s) (hn : ∀ x ∈ s.src, ∀ n ∈ x.1, n < 10)
    (ht : s.tmp = 1000) : ValidSess ops (fun n => n = 1000 ∨ n = 2000) hist s :=
  ⟨⟨h.tree.ordered, h.tree.root, h.tree.parent, fun x hx n hnx => by have := hn x hx n hnx; omega⟩, h.time, .inl ht, h.honest⟩

theorem reach1' : Reach ops (fun n => n = 1000 ∨ n = 2000) false st1 [(10, src1)] :=
  .backup (.init 5) (valid' valid1 (by decide +kernel) rfl) (by simp [st1, empty]) (recorded_src _ _ valid1.tree.ordered (fun _ => rfl))
theorem reach2' : Reach ops (fun n => n = 1000 ∨ n = 2000) false st2 [(20, src2), (10, src1)] :=
  .backup reach1' (valid' valid2 (by decide +kernel) rfl) (by simp [st2]) (recorded_src _ _ valid2.tree.ordered (fun _ => rfl))
theorem reach3' : Reach ops (fun n => n = 1000 ∨ n = 2000) false st3 [(30, src3), (20, src2), (10, src1)] :=
  .backup reach2' (valid' valid3 (by decide +kernel) rfl) (by simp [st3]) (recorded_src _ _ valid3.tree.ordered (fun _ => rfl))

/-- stopped after three operations and done again with another temporary name -/
example : ∃ ss st' W' R, restoreSteps ops st3 25 [3] W 5 99 (fun _ => 77) 1000 = some ss ∧ exec 99 (ss.take 3) (world W) = some st' ∧
      (∀ p, get W' p = get st'.mirror p) ∧ restoreAt ops st3 25 [3] W' 5 98 (fun _ => 78) 2000 = some R ∧
      (∀ i, get R (5 :: i) = get src2 ([3] ++ i)) ∧ (∀ p, p ≠ [] → ¬ [5] <+: p → p ≠ [1000] → get R p = get W p) :=
  stopped_again (rsv := fun n => n = 1000 ∨ n = 2000) reach3' (b := 20) (T := src2) (by decide +kernel) [3] (tree _ (by omega)) (.inl rfl) (.inr rfl)
    (by decide) (by decide) (by decide) 99 98 (fun _ => 77) (fun _ => 78) (by decide +kernel) digests 3

end Demo
end Verif.C44
