import Verif.Props.C44Any
import Verif.Proof.RestoreSel
import Verif.Model.RestoreSel
/-
C64: restoring with selection options.  `W` is the directory which contains the target `top`, `cs` are the selection conditions.
-/
namespace Verif.C64
open Verif.Repo Verif.RestoreDir Verif.MetaChain Verif.TreeReducer Verif.Selection Verif.C44 Verif.NestingSpec
set_option linter.unusedSectionVars false
variable {α A C S H Δ L : Type} [LinearOrder α] [DecidableEq A] [DecidableEq S] [DecidableEq H] [DecidableEq L]
variable {o : Ops A C H Δ L} {rsv : α → Prop} {st : State α A C S H Δ} {hist : Hist α A C S} {k : Look A S} {cs : List (Cond α)}

/-- the operations of a restore with selections, in terms of what is selected -/
theorem sel_core (h : Reach o rsv false st hist) {t b : Nat} {T : Files α (Node A C S)} (hb : chosen hist t = some (b, T))
    {W : Files α (Node A C S)} {rsv' : α → Prop} (hW : IsTree rsv' W) (top tmp : α) (stamp : A) (junk : List α → C) (hk : ∀ s, k.kind s ≠ .dir)
    (hp : ∀ c ∈ cs, C26.Plain c) (hbt : ByTree cs) (hroot : ∀ n, Repo.get T [] = some n → decide' cs [] (k.node o n) ≠ .excl)
    (hscan : ∀ i n, Repo.get T i = some n → decide' cs i (k.node o n) = .scan → n.isDir = true) :
    ∃ mt l ds, ∃ p q : List α → Bool, Records o st mt b T l ∧ IsTree rsv T ∧
      selSteps k cs o st t [] W top stamp junk tmp = (RCtx.events ⟨rootDiff (targetFiles top W) ds, targetFiles top W, stamp, junk, tmp⟩).map
        (fun evs => evs.flatMap (RCtx.stepsAt ⟨rootDiff (targetFiles top W) ds, targetFiles top W, stamp, junk, tmp⟩ top)) ∧
      DiffsOK o.size (fun i => p i && flag l [] i) (T.filter fun x => p x.1) ((targetFiles top W).filter fun x => q x.1) ds ∧
      (∀ i, p i = true → ¬ Excluded cs i) ∧ (∀ i, q i = true → ¬ Excluded cs i) ∧
      (NoScan cs → ∀ i, (Repo.get T i).isSome = true → ¬ Excluded cs i → p i = true) ∧
      (NoScan cs → ∀ i, (Repo.get (targetFiles top W) i).isSome = true → ¬ Excluded cs i → q i = true) := by
  obtain ⟨mt, l, h1, h2, h3, h4⟩ := records ((reach_inv h).1 rfl) hb
  simp only at h2 h3 h4
  obtain ⟨o1, e1, e2, -, e3⟩ := keptRecs_spec (k := k) hk hp hbt h3 h4.describes hroot hscan
  obtain ⟨o2, f1, f2, f3⟩ := keptFiles_spec (o := o) (k := k) hk hp hbt (part_target (top := top) hW)
  obtain ⟨ds, g1, g2⟩ := sel_diffs h4 h3.ordered (targetFiles_ordered (top := top) hW.ordered) (fun i => decide (i ∈ o1)) (fun i => decide (i ∈ o2))
  refine ⟨mt, l, ds, fun i => decide (i ∈ o1), fun i => decide (i ∈ o2), h4, h3, ?_, g2, ?_, ?_, ?_, ?_⟩
  · have hall : (l.filter fun r => ([] : List α).isPrefixOf r.idx) = l := by
      rw [List.filter_eq_self]; intro a _; rfl
    simp only [selSteps, h1, h2, h4.read, hall, e1, f1, g1]
    cases RCtx.events ⟨rootDiff (targetFiles top W) ds, targetFiles top W, stamp, junk, tmp⟩ <;> rfl
  · intro i hi; exact e2 i (by simpa using hi)
  · intro i hi; exact f2 i (by simpa using hi)
  · intro hn i hi he; simpa using e3 hn i hi he
  · intro hn i hi he; simpa using f3 hn i hi he

theorem diffs_selected {size : C → Nat} {F p q : List α → Bool} {T target : Files α (Node A C S)} {ds : List (List α × Option (Node A C S))}
    (h : DiffsOK size F (T.filter fun x => p x.1) (target.filter fun x => q x.1) ds) (hp : ∀ i, p i = true → ¬ Excluded cs i)
    (hq : ∀ i, q i = true → ¬ Excluded cs i) : ∀ x ∈ ds, ¬ Excluded cs x.1 := by
  intro x hx
  have hd := (h.mem x.1).mp (List.mem_map.mpr ⟨x, hx, rfl⟩)
  unfold isDiff at hd
  rw [get_filter, get_filter] at hd
  by_cases h1 : p x.1 = true
  · exact hp _ h1
  · by_cases h2 : q x.1 = true
    · exact hq _ h2
    · simp [h1, h2] at hd

theorem rootDiff_ok {target : Files α (Node A C S)} {ds : List (List α × Option (Node A C S))} (ho : (ds.map Prod.fst).Pairwise (· < ·)) 
    (hd : ∀ x ∈ ds, ¬ Excluded cs x.1) :
    ((rootDiff target ds).map Prod.fst).Pairwise (· < ·) ∧ ∀ x ∈ rootDiff target ds, ¬ Excluded cs x.1 := by
  unfold rootDiff
  split
  · next hc =>
    simp only [Bool.and_eq_true, List.all_eq_true, decide_eq_true_eq] at hc
    refine ⟨?_, ?_⟩
    · rw [List.map_cons, List.pairwise_cons]
      refine ⟨?_, ho⟩
      intro i hi
      obtain ⟨x, hx, rfl⟩ := List.mem_map.mp hi
      have := hc.2 x hx
      cases hx1 : x.1 with
      | nil => exact absurd hx1 this
      | cons a l => simp
    · intro x hx
      rcases List.mem_cons.mp hx with rfl | hx
      · exact excluded_nil
      · exact hd x hx
  · exact ⟨ho, hd⟩

/-- Whatever the repository has gone through, whatever is at the target and wherever the restore is stopped (by an interruption or because an operation
fails): excluded files of the target are neither changed nor deleted, nothing is created at an excluded path, and everything next to the target is as before
(except for one temporary file).
Conditions which exclude because of something else than the path are left out: for them it isn't true, see `Demo.large_overwritten`. -/
theorem excluded_kept_partial (h : Reach o rsv false st hist) {t b : Nat} {T : Files α (Node A C S)} (hb : chosen hist t = some (b, T))
    {W : Files α (Node A C S)} {top tmp : α} (hW : IsTree (· = tmp) W) (stamp : A) (junk : List α → C) (hk : ∀ s, k.kind s ≠ .dir)
    (hp : ∀ c ∈ cs, C26.Plain c) (hbt : ByTree cs) (hroot : ∀ n, get T [] = some n → decide' cs [] (k.node o n) ≠ .excl)
    (hscan : ∀ i n, get T i = some n → decide' cs i (k.node o n) = .scan → n.isDir = true)
    {ss : List (Step α A C S Unit Unit)} (hss : selSteps k cs o st t [] W top stamp junk tmp = some ss) {n : Nat} {st' : State α A C S Unit Unit}
    (he : exec stamp (ss.take n) (world W) = some st') :
    (∀ i, Excluded cs i → tmp ∉ i → get st'.mirror (top :: i) = get W (top :: i)) ∧
      ∀ p, p ≠ [] → ¬ [top] <+: p → p ≠ [tmp] → get st'.mirror p = get W p := by
  obtain ⟨mt, l, ds, p, q, -, -, h1, h2, h3, h4, -, -⟩ := sel_core h hb hW top tmp stamp junk hk hp hbt hroot hscan
  rw [h1] at hss
  obtain ⟨evs, hev, rfl⟩ := Option.map_eq_some_iff.mp hss
  obtain ⟨k1, k2⟩ := rootDiff_ok (target := targetFiles top W) h2.ordered (diffs_selected h2 h3 h4)
  refine ⟨?_, ?_⟩
  · intro i hi ht
    exact exec_spares (fun s hs => steps_spare hW k1 k2 hev s (List.mem_of_mem_take hs)) he ht hi rfl
  · intro p hp1 hp2 hp3
    refine exec_inside (fun s hs => ?_) he hp1 hp2 hp3
    obtain ⟨e, -, hse⟩ := List.mem_flatMap.mp (List.mem_of_mem_take hs)
    exact stepsAt_inside e s hse

/-! ### What is restored -/

/-- what is to be at the target: selected files as in the backup, the others as they are -/
def goal (p : List α → Bool) (T target : Files α (Node A C S)) : Files α (Node A C S) :=
  Sort.sortBy (fun x y => decide (x.1 ≤ y.1)) ((T.filter fun x => p x.1) ++ (target.filter fun x => !(p x.1)))

theorem mem_goal {p : List α → Bool} {T target : Files α (Node A C S)} {x : List α × Node A C S} :
    x ∈ goal p T target ↔ (p x.1 = true ∧ x ∈ T) ∨ (p x.1 = false ∧ x ∈ target) := by
  unfold goal
  rw [(Sort.sortBy_perm _ _).mem_iff, List.mem_append, List.mem_filter, List.mem_filter]
  simp only [Bool.not_eq_true']
  tauto

theorem goal_ordered {p : List α → Bool} {T target : Files α (Node A C S)} (hT : T.Pairwise (fun x y => x.1 < y.1))
    (htg : target.Pairwise (fun x y => x.1 < y.1)) : (goal p T target).Pairwise (fun x y => x.1 < y.1) := by
  have h1 : (goal p T target).Pairwise (fun x y => decide (x.1 ≤ y.1) = true) :=
    Sort.pairwise_sortBy (by intro a b c; simp only [decide_eq_true_eq]; exact le_trans) (by
      intro a b
      simp only [Bool.or_eq_true, decide_eq_true_eq]
      exact le_total _ _) _
  have h2 : (goal p T target).Pairwise (fun x y => x.1 ≠ y.1) := by
    unfold goal
    have hperm := Sort.sortBy_perm (fun x y : List α × Node A C S => decide (x.1 ≤ y.1)) ((T.filter fun x => p x.1) ++ (target.filter fun x => !(p x.1)))
    refine (hperm.pairwise_iff (fun h => Ne.symm h)).mpr ?_
    rw [List.pairwise_append]
    refine ⟨(hT.filter _).imp (fun h => ne_of_lt h), (htg.filter _).imp (fun h => ne_of_lt h), ?_⟩
    intro x hx y hy e
    have e1 := (List.mem_filter.mp hx).2
    have e2 := (List.mem_filter.mp hy).2
    simp only [Bool.not_eq_true'] at e1 e2
    rw [e, e2] at e1; cases e1
  exact (h1.and h2).imp (fun h => lt_of_le_of_ne (by simpa using h.1) h.2)

theorem get_goal {p : List α → Bool} {T target : Files α (Node A C S)} (hT : T.Pairwise (fun x y => x.1 < y.1))
    (htg : target.Pairwise (fun x y => x.1 < y.1)) (i : List α) : get (goal p T target) i = if p i then get T i else get target i := by
  have key : ∀ n, get (goal p T target) i = some n ↔ (if p i then get T i else get target i) = some n := by
    intro n
    rw [get_mem (goal_ordered hT htg), mem_goal]
    by_cases hp : p i = true
    · simp only [hp, if_true, true_and]
      rw [get_mem hT]; simp
    · have hp' : p i = false := by simpa using hp
      simp only [hp', Bool.false_eq_true, if_false, true_and]
      rw [get_mem htg]; simp
  cases h : get (goal p T target) i with
  | some n => exact ((key n).mp h).symm
  | none =>
    cases h' : (if p i then get T i else get target i) with
    | none => rfl
    | some n => rw [(key n).mpr h'] at h; cases h

open Classical in
/-- the conditions as a predicate on paths -/
noncomputable def sel (cs : List (Cond α)) (i : List α) : Bool := decide (¬ Excluded cs i)

theorem sel_iff {i : List α} : sel cs i = true ↔ ¬ Excluded cs i := by simp [sel]

theorem goal_part {T target : Files α (Node A C S)} {rsv : α → Prop} (hT : IsTree rsv T) (htg : Part rsv target)
    (hpar : ∀ i, Excluded cs i → (get target i).isSome = true → ¬ Excluded cs i.dropLast → ∃ a, get T i.dropLast = some (.dir a)) :
    Part rsv (goal (sel cs) T target) := by
  refine ⟨goal_ordered hT.ordered htg.ordered, ?_, ?_⟩
  · intro x hx hne
    rcases mem_goal.mp hx with ⟨h1, h2⟩ | ⟨h1, h2⟩
    · obtain ⟨a, ha⟩ := hT.parent x h2 hne
      refine ⟨a, mem_goal.mpr (.inl ⟨?_, ha⟩)⟩
      rw [sel_iff] at h1 ⊢
      exact fun h => h1 (h.mono (List.dropLast_prefix _))
    · have h1' : Excluded cs x.1 := by
        by_contra hn
        rw [sel_iff.mpr hn] at h1; cases h1
      by_cases hd : Excluded cs x.1.dropLast
      · obtain ⟨a, ha⟩ := htg.parent x h2 hne
        refine ⟨a, mem_goal.mpr (.inr ⟨?_, ha⟩)⟩
        cases hs : sel cs x.1.dropLast with
        | false => rfl
        | true => exact absurd hd (sel_iff.mp hs)
      · obtain ⟨a, ha⟩ := hpar x.1 h1' ((get_isSome_iff _ _).mpr ⟨x, h2, rfl⟩) hd
        exact ⟨a, mem_goal.mpr (.inl ⟨sel_iff.mpr hd, (get_mem hT.ordered _ _).mp ha⟩)⟩
  · intro x hx
    rcases mem_goal.mp hx with ⟨-, h2⟩ | ⟨-, h2⟩
    · exact hT.names x h2
    · exact htg.names x h2

theorem eqFlag_self (size : C → Nat) (n : Node A C S) : eqFlag size false n n = true := by
  cases n <;> simp [eqFlag]

/-- the diffs of what is selected are those of the goal -/
theorem goal_diffs {size : C → Nat} {F p q : List α → Bool} {T target : Files α (Node A C S)} {ds : List (List α × Option (Node A C S))}
    (hT : T.Pairwise (fun x y => x.1 < y.1)) (htg : target.Pairwise (fun x y => x.1 < y.1))
    (h : DiffsOK size (fun i => p i && F i) (T.filter fun x => p x.1) (target.filter fun x => q x.1) ds)
    (hp : ∀ i, p i = true → ¬ Excluded cs i) (hq : ∀ i, q i = true → ¬ Excluded cs i)
    (hp' : ∀ i, (get T i).isSome = true → ¬ Excluded cs i → p i = true)
    (hq' : ∀ i, (get target i).isSome = true → ¬ Excluded cs i → q i = true) :
    DiffsOK size (fun i => sel cs i && F i) (goal (sel cs) T target) target ds ∧
      ∀ i, sel cs i = true → isDiff size (fun i => sel cs i && F i) (goal (sel cs) T target) target i = isDiff size F T target i := by
  have hiff : ∀ i, isDiff size (fun i => p i && F i) (T.filter fun x => p x.1) (target.filter fun x => q x.1) i =
      isDiff size (fun i => sel cs i && F i) (goal (sel cs) T target) target i := by
    intro i
    unfold isDiff
    rw [get_filter, get_filter, get_goal hT htg]
    by_cases he : Excluded cs i
    · have h1 : p i = false := by
        cases hh : p i with
        | false => rfl
        | true => exact absurd he (hp i hh)
      have h2 : q i = false := by
        cases hh : q i with
        | false => rfl
        | true => exact absurd he (hq i hh)
      have h3 : sel cs i = false := by
        cases hh : sel cs i with
        | false => rfl
        | true => exact absurd he (sel_iff.mp hh)
      simp only [h1, h2, h3, Bool.false_eq_true, if_false, Bool.false_and]
      cases get target i with
      | none => rfl
      | some n => simp [eqFlag_self]
    · have h3 : sel cs i = true := sel_iff.mpr he
      simp only [h3, if_true, Bool.true_and]
      cases hT' : get T i with
      | none =>
        cases htg' : get target i with
        | none => simp
        | some n => rw [hq' i (by rw [htg']; rfl) he]; simp
      | some m =>
        rw [hp' i (by rw [hT']; rfl) he]
        cases htg' : get target i with
        | none => simp
        | some n => rw [hq' i (by rw [htg']; rfl) he]; simp
  refine ⟨⟨h.ordered, ?_, ?_⟩, ?_⟩
  · intro i
    rw [h.mem, hiff]
  · intro x hx
    have he := diffs_selected h hp hq x hx
    rw [h.val x hx, get_goal hT htg, sel_iff.mpr he, get_filter]
    simp only [if_true]
    cases hT' : get T x.1 with
    | none => split <;> rfl
    | some m => rw [hp' _ (by rw [hT']; rfl) he]; simp
  · intro i hi
    unfold isDiff
    rw [get_goal hT htg]
    simp only [hi, if_true, Bool.true_and]

/-- Conditions which exclude by path: the restore succeeds, unless a directory of the target in which there is something excluded would have to go.
Afterwards at the target all that is not excluded is as in the backup (with the exception of C44, `LooksSameAt`), all that is excluded is as before, and so is
everything next to the target. -/
theorem selected_restored_partial (h : Reach o rsv false st hist) {t b : Nat} {T : Files α (Node A C S)} (hb : chosen hist t = some (b, T))
    {W : Files α (Node A C S)} {top tmp : α} (hW : IsTree (· = tmp) W) (ht : rsv tmp) (htop : top ≠ tmp) (stamp : A) (junk : List α → C)
    (hk : ∀ s, k.kind s ≠ .dir) (hp : ∀ c ∈ cs, C26.Plain c) (hbt : ByTree cs) (hns : NoScan cs)
    (hroot : ∀ n, get T [] = some n → decide' cs [] (k.node o n) ≠ .excl)
    (hpar : ∀ i, Excluded cs i → (get W (top :: i)).isSome = true → ¬ Excluded cs i.dropLast → ∃ a, get T i.dropLast = some (.dir a)) :
    ∃ ss st', selSteps k cs o st t [] W top stamp junk tmp = some ss ∧ exec stamp ss (world W) = some st' ∧
      (∀ i, ¬ Excluded cs i → ¬ LooksSameAt o st b T [] W top i → get st'.mirror (top :: i) = get T i) ∧
      (∀ i, ¬ Excluded cs i → LooksSameAt o st b T [] W top i → get st'.mirror (top :: i) = get W (top :: i)) ∧
      (∀ i, Excluded cs i → get st'.mirror (top :: i) = get W (top :: i)) ∧
      (∀ p, p ≠ [] → ¬ [top] <+: p → get st'.mirror p = get W p) := by
  obtain ⟨mt, l, ds, p, q, hrec, hT, h1, h2, h3, h4, h5, h6⟩ := sel_core h hb hW top tmp stamp junk hk hp hbt hroot
    (fun i n _ hv => absurd hv (hns _ _))
  have htg := part_target (top := top) hW
  obtain ⟨g1, g2⟩ := goal_diffs hT.ordered htg.ordered h2 h3 h4 (h5 hns) (h6 hns)
  have hG : Part (· = tmp) (goal (sel cs) T (targetFiles top W)) := goal_part (tree_mono hT (by rintro _ rfl; exact ht)) htg (by
    intro i hi hs hd
    rw [get_targetFiles hW.ordered] at hs
    exact hpar i hi hs hd)
  obtain ⟨evs, st', k1, k2, k3, k4, -⟩ := apply_at (stamp := stamp) (junk := junk) g1 hG hW rfl htop
  have hgr : (get (goal (sel cs) T (targetFiles top W)) []).isSome = true := by
    obtain ⟨a, ha⟩ := hT.root
    rw [get_goal hT.ordered htg.ordered, if_pos (sel_iff.mpr excluded_nil), (get_mem hT.ordered _ _).mpr ha]; rfl
  have hrd : rootDiff (targetFiles top W) ds = ds := rootDiff_eq g1 (.inl hgr)
  rw [hrd] at h1
  have hev : RCtx.events ⟨ds, targetFiles top W, stamp, junk, tmp⟩ = some evs := k1
  rw [hev] at h1
  have hval : ∀ i, sel cs i = true → get st'.mirror (top :: i) =
      if isDiff o.size (flag l []) (below [] T) (targetFiles top W) i then get (below [] T) i else get (targetFiles top W) i := by
    intro i hi
    rw [k3, g2 i hi, get_goal hT.ordered htg.ordered, if_pos hi, get_targetFiles hW.ordered]
    have hbn := below_nil T hT.ordered
    have : isDiff o.size (flag l []) T (targetFiles top W) i = isDiff o.size (flag l []) (below [] T) (targetFiles top W) i := by
      unfold isDiff; rw [hbn]
    rw [this, hbn]
  refine ⟨_, st', h1, k2, ?_, ?_, ?_, k4⟩
  · intro i he hl
    rw [hval i (sel_iff.mpr he), (compared hT hrec [] (targetFiles top W) i).1 (fun hl' => hl ((looks_iff hW).mp hl'))]
    rfl
  · intro i he hl
    rw [hval i (sel_iff.mpr he), (compared hT hrec [] (targetFiles top W) i).2 ((looks_iff hW).mpr hl), get_targetFiles hW.ordered]
  · intro i he
    have hs : sel cs i = false := by
      cases hh : sel cs i with
      | false => rfl
      | true => exact absurd he (sel_iff.mp hh)
    rw [k3, get_goal hT.ordered htg.ordered, hs, get_targetFiles hW.ordered]
    simp

theorem mem_processed {ev : List (Event α)} {i : List α} (h : i ∈ processed ev) : .start i ∈ ev ∨ .fast i ∈ ev := by
  induction ev with
  | nil => cases h
  | cons e ev ih =>
    cases e with
    | finish j =>
      rcases ih h with k | k
      · exact .inl (by simp [k])
      · exact .inr (by simp [k])
    | start j =>
      rcases List.mem_cons.mp h with rfl | h
      · exact .inl (by simp)
      · rcases ih h with k | k
        · exact .inl (by simp [k])
        · exact .inr (by simp [k])
    | fast j =>
      rcases List.mem_cons.mp h with rfl | h
      · exact .inr (by simp)
      · rcases ih h with k | k
        · exact .inl (by simp [k])
        · exact .inr (by simp [k])

/-- If a directory of the target in which there is something excluded isn't one in the backup, the restore fails: the directory can't be removed. -/
theorem blocked (h : Reach o rsv false st hist) {t b : Nat} {T : Files α (Node A C S)} (hb : chosen hist t = some (b, T))
    {W : Files α (Node A C S)} {top tmp : α} (hW : IsTree (· = tmp) W) (stamp : A) (junk : List α → C)
    (hk : ∀ s, k.kind s ≠ .dir) (hp : ∀ c ∈ cs, C26.Plain c) (hbt : ByTree cs) (hns : NoScan cs)
    (hroot : ∀ n, get T [] = some n → decide' cs [] (k.node o n) ≠ .excl) {i : List α} (hi : Excluded cs i)
    (hin : (get W (top :: i)).isSome = true) (hd : ¬ Excluded cs i.dropLast) (hno : ∀ a, get T i.dropLast ≠ some (.dir a)) :
    (selSteps k cs o st t [] W top stamp junk tmp).bind (fun ss => exec stamp ss (world W)) = none := by
  have hscan : ∀ i n, get T i = some n → decide' cs i (k.node o n) = .scan → n.isDir = true := fun i n _ hv => absurd hv (hns _ _)
  obtain ⟨mt, l, ds, p, q, hrec, hT, h1, h2, h3, h4, h5, h6⟩ := sel_core h hb hW top tmp stamp junk hk hp hbt hroot hscan
  have htg := part_target (top := top) hW
  have hine : i ≠ [] := by rintro rfl; exact excluded_nil hi
  have hin' : (get (targetFiles top W) i).isSome = true := by rw [get_targetFiles hW.ordered]; exact hin
  obtain ⟨n, hn⟩ := Option.isSome_iff_exists.mp hin'
  obtain ⟨a, ha⟩ := htg.parent _ ((get_mem htg.ordered _ _).mp hn) hine
  simp only at ha
  have hdir := (get_mem htg.ordered _ _).mpr ha
  have hdne : i.dropLast ≠ [] := by
    intro e
    obtain ⟨a', ha'⟩ := hT.root
    rw [e] at hno
    exact hno a' ((get_mem hT.ordered _ _).mpr ha')
  -- the directory is among the diffs
  obtain ⟨g1, -⟩ := goal_diffs hT.ordered htg.ordered h2 h3 h4 (h5 hns) (h6 hns)
  have hgd : get (goal (sel cs) T (targetFiles top W)) i.dropLast = get T i.dropLast := by
    rw [get_goal hT.ordered htg.ordered, if_pos (sel_iff.mpr hd)]
  have hmem : i.dropLast ∈ ds.map Prod.fst := by
    rw [g1.mem]
    unfold isDiff
    rw [hgd, hdir]
    cases hg : get T i.dropLast with
    | none => rfl
    | some m =>
      cases m with
      | dir a' => exact absurd hg (hno a')
      | reg a' x => rfl
      | other a' x => rfl
  have hdiff : RCtx.diff ⟨ds, targetFiles top W, stamp, junk, tmp⟩ i.dropLast = get T i.dropLast := by
    unfold RCtx.diff
    rw [g1.get, if_pos ((g1.mem _).mp hmem), hgd]
  have hgr : (get (goal (sel cs) T (targetFiles top W)) []).isSome = true := by
    obtain ⟨a, ha⟩ := hT.root
    rw [get_goal hT.ordered htg.ordered, if_pos (sel_iff.mpr excluded_nil), (get_mem hT.ordered _ _).mpr ha]; rfl
  have hrd : rootDiff (targetFiles top W) ds = ds := rootDiff_eq g1 (.inl hgr)
  rw [hrd] at h1
  cases hev : RCtx.events ⟨ds, targetFiles top W, stamp, junk, tmp⟩ with
  | none => rw [h1, hev]; rfl
  | some evs =>
    have hfin : Event.finish i.dropLast ∈ evs := by
      obtain ⟨b', r, hfr⟩ := fillIn_head (l := ds.map Prod.fst) (by intro e; rw [e] at hmem; cases hmem)
      obtain ⟨s1, s2, s3⟩ := C14.fillIn_spec _ g1.ordered
      have hxs : (RCtx.filled ⟨ds, targetFiles top W, stamp, junk, tmp⟩) = (b', []) :: r := hfr
      have hbase : isDirNode (get (targetFiles top W) []) = true := htg.root hin' hine
      have hcf : RestoreDir.RCtx.canFast ⟨ds, targetFiles top W, stamp, junk, tmp⟩ [] = false := by
        simp [RestoreDir.RCtx.canFast, RCtx.base, hbase]
      have hrun := hev
      unfold RCtx.events at hrun
      rw [hxs, List.map_cons, hcf] at hrun
      have hord : ([] :: (r.map fun x => (x.2, RestoreDir.RCtx.canFast ⟨ds, targetFiles top W, stamp, junk, tmp⟩ x.2)).map Prod.fst).Pairwise (· < ·) := by
        rw [List.map_map]
        have := s2
        rw [hfr] at this
        simpa [Function.comp_def] using this
      obtain ⟨inner, e1, e2, e3⟩ := C13.reducer_nested [] (r.map fun x => (x.2, RestoreDir.RCtx.canFast ⟨ds, targetFiles top W, stamp, junk, tmp⟩ x.2)) hord
        (fun _ _ => List.nil_prefix)
      rw [hrun] at e1
      cases e1
      have hdm : i.dropLast ∈ r.map Prod.snd := by
        have := (s3 i.dropLast).mpr ⟨i.dropLast, hmem, List.prefix_refl _⟩
        rw [hfr, List.map_cons] at this
        rcases List.mem_cons.mp this with h0 | h0
        · exact absurd h0 hdne
        · exact h0
      have hpr : i.dropLast ∈ processed inner := by
        rw [e3, List.map_map]; simpa [Function.comp_def] using hdm
      have hst : Event.start i.dropLast ∈ inner := by
        rcases mem_processed hpr with k | k
        · exact k
        · exfalso
          have := (runFrom_flags _ _ hrun).1 i.dropLast (mem_fasts (by simp [k]))
          rcases List.mem_cons.mp this with h0 | h0
          · exact absurd (Prod.mk.inj h0).2 (by simp)
          · obtain ⟨x, -, hx⟩ := List.mem_map.mp h0
            obtain ⟨hx1, hx2⟩ := Prod.mk.inj hx
            rw [hx1] at hx2
            simp [RestoreDir.RCtx.canFast, RCtx.base, hdir, isDirNode, Node.isDir] at hx2
      have hc := C13.nested_starts_eq_finishes e2 i.dropLast
      have : 0 < inner.count (.finish i.dropLast) := by
        rw [← hc]; exact List.count_pos_iff.mpr hst
      have := List.count_pos_iff.mp this
      simp [this]
    obtain ⟨pre, post, rfl⟩ := List.append_of_mem hfin
    have hsteps : ∃ more, (RCtx.stepsAt (H := Unit) (Δ := Unit) ⟨ds, targetFiles top W, stamp, junk, tmp⟩ top (.finish i.dropLast)) =
        .rmdir (top :: i.dropLast) :: more := by
      simp only [RCtx.stepsAt, RCtx.finishAt, hdiff]
      cases hg : get T i.dropLast with
      | none => exact ⟨_, rfl⟩
      | some m =>
        cases m with
        | dir a' => exact absurd hg (hno a')
        | reg a' x => exact ⟨_, rfl⟩
        | other a' x => exact ⟨_, rfl⟩
    obtain ⟨more, hmore⟩ := hsteps
    rw [hev] at h1
    simp only [Option.map_some, List.flatMap_append, List.flatMap_cons, hmore, List.cons_append] at h1
    rw [h1]
    simp only [Option.bind_some]
    cases hex : exec stamp (pre.flatMap (RCtx.stepsAt ⟨ds, targetFiles top W, stamp, junk, tmp⟩ top)) (world W) with
    | none => rw [exec_append, hex]; rfl
    | some st1 =>
      rw [exec_append, hex]
      have htmp : tmp ∉ i := by
        intro hm
        obtain ⟨m, hm'⟩ := Option.isSome_iff_exists.mp hin
        exact hW.names _ ((get_mem hW.ordered _ _).mp hm') tmp (List.mem_cons_of_mem _ hm) rfl
      have hkept := (excluded_kept_partial h hb hW stamp junk hk hp hbt hroot hscan h1
        (n := (pre.flatMap (RCtx.stepsAt (H := Unit) (Δ := Unit) ⟨ds, targetFiles top W, stamp, junk, tmp⟩ top)).length) (st' := st1) (by
          rw [List.take_left]; exact hex)).1 i hi htmp
      rw [Option.bind_some]
      have : apply stamp (.rmdir (top :: i.dropLast)) st1 = none := by
        simp only [apply]
        rw [if_neg]
        rintro ⟨-, -, hall⟩
        obtain ⟨x, hx, hxe⟩ := (get_isSome_iff st1.mirror (top :: i)).mp (by rw [hkept]; exact hin)
        have := hall x hx (by rw [hxe]; exact List.cons_prefix_cons.mpr ⟨rfl, List.dropLast_prefix _⟩)
        rw [hxe] at this
        have := congrArg List.length this
        simp only [List.length_cons, List.length_dropLast] at this
        have := List.length_pos_of_ne_nil hine
        omega
      simp only [exec, this]
      rfl

/-! ### The options `--exclude PATH`, `--include PATH`, `--exclude '**'` -/

theorem apply_paths {c : Cond α} (hc : Paths c) (i : List α) (f : File) : c.apply i (some f) = some ((saysOf c i).map val, c) := by
  have h1 : ∀ x y : List α, (x = y.take x.length) ↔ x <+: y := fun x y => List.prefix_iff_eq_take.symm
  have h2 : ∀ x y : List α, (x.take y.length = y) ↔ y <+: x := fun x y => ⟨fun h => List.prefix_iff_eq_take.mpr h.symm, fun h => (List.prefix_iff_eq_take.mp h).symm⟩
  cases c with
  | tuple t incl =>
    cases incl with
    | true =>
      simp only [Cond.apply, saysOf, h1, h2]
      split <;> simp_all [val]
    | false =>
      simp only [Cond.apply, saysOf, h2]
      split <;> simp_all [val]
  | all b => cases b <;> simp [Cond.apply, saysOf, val]
  | _ => exact hc.elim

theorem decide_paths {cs : List (Cond α)} (hc : ∀ c ∈ cs, Paths c) (i : List α) (f : File) :
    decide' cs i f = if answer cs i then .incl else .excl := by
  have key : ∀ cs : List (Cond α), (∀ c ∈ cs, Paths c) → ∃ cs', selectFrom .excl i (some f) cs = some (if answer cs i then .incl else .excl, cs') := by
    intro cs
    induction cs with
    | nil => intro _; exact ⟨[], rfl⟩
    | cons c cs ih =>
      intro hc
      obtain ⟨cs', h⟩ := ih (fun c h => hc c (by simp [h]))
      have ha := apply_paths (hc c (by simp)) i f
      cases hs : saysOf c i with
      | none =>
        rw [hs] at ha
        exact ⟨c :: cs', by simp [selectFrom, ha, answer, hs, h]⟩
      | some b =>
        rw [hs] at ha
        cases b <;> simp [selectFrom, ha, answer, hs, val]
  obtain ⟨cs', h⟩ := key cs hc
  exact decide'_eq h

theorem answer_mono (cs : List (Cond α)) {i j : List α} (hp : i <+: j) (h : answer cs i = false) : answer cs j = false := by
  induction cs with
  | nil => cases h
  | cons c cs ih =>
    simp only [answer] at h ⊢
    have one : ∀ b, saysOf c i = some b → b = false → saysOf c j = some false := by
      rintro b hb rfl
      cases c with
      | tuple t incl =>
        cases incl with
        | true => simp only [saysOf] at hb; split at hb <;> cases hb
        | false =>
          simp only [saysOf] at hb ⊢
          split at hb
          · next ht => rw [if_pos (ht.trans hp)]
          · cases hb
      | all b => exact hb
      | _ => cases hb
    have two : saysOf c i = none → saysOf c j = none ∨ saysOf c j = some false := by
      intro hn
      cases c with
      | tuple t incl =>
        cases incl with
        | true =>
          simp only [saysOf] at hn ⊢
          split at hn
          · cases hn
          · next ht =>
            left
            rw [if_neg]
            rintro (h1 | h1)
            · exact ht (.inl (hp.trans h1))
            · exact ht (List.prefix_or_prefix_of_prefix hp h1)
        | false =>
          simp only [saysOf]
          split
          · exact .inr rfl
          · exact .inl rfl
      | all b => cases hn
      | _ => exact .inl rfl
    cases hs : saysOf c i with
    | none =>
      rw [hs] at h
      rcases two hs with k | k
      · rw [k]; exact ih h
      · rw [k]; rfl
    | some b =>
      rw [hs] at h
      rw [one b hs h]; rfl

/-- What such options exclude, in words: the first option which says something about the path excludes it.  (`--include` says something about what is at,
below or above its path, `--exclude` about what is at or below it.) -/
theorem excluded_paths {cs : List (Cond α)} (hc : ∀ c ∈ cs, Paths c) {i : List α} (hi : i ≠ []) : Excluded cs i ↔ answer cs i = false := by
  constructor
  · rintro ⟨j, f, -, h2, h3⟩
    refine answer_mono cs h2 ?_
    rw [decide_paths hc] at h3
    cases ha : answer cs j with
    | false => rfl
    | true => rw [ha] at h3; cases h3
  · intro h
    exact ⟨i, ⟨.reg, 0, 0⟩, hi, List.prefix_refl _, by rw [decide_paths hc, h]; rfl⟩

theorem paths_byTree {cs : List (Cond α)} (hc : ∀ c ∈ cs, Paths c) : ByTree cs ∧ NoScan cs := by
  refine ⟨?_, ?_⟩
  · intro i f j g _ hp h
    rw [decide_paths hc] at h ⊢
    cases ha : answer cs i with
    | true => rw [ha] at h; cases h
    | false => rw [answer_mono cs hp ha]; rfl
  · intro i f
    rw [decide_paths hc]
    split <;> simp

theorem paths_plain {cs : List (Cond α)} (hc : ∀ c ∈ cs, Paths c) : ∀ c ∈ cs, C26.Plain c := by
  intro c h
  have := hc c h
  cases c <;> trivial

theorem opts_paths {cs : List (Cond α)} (hc : ∀ c ∈ cs, Paths c) (rb : α) : ∀ c ∈ restoreOpts rb cs, Paths c := by
  unfold restoreOpts withRbdir
  split
  · simp
  · intro c h
    rcases List.mem_cons.mp h with rfl | h
    · trivial
    · exact hc c h

theorem leftAlone_iff {cs : List (Cond α)} (hc : ∀ c ∈ cs, Paths c) (rb : α) (i : List α) : Excluded (restoreOpts rb cs) i ↔ LeftAlone rb cs i := by
  by_cases hi : i = []
  · subst hi; exact ⟨fun h => absurd h excluded_nil, fun h => absurd rfl h.2.1⟩
  · rw [excluded_paths (opts_paths hc rb) hi]
    unfold LeftAlone restoreOpts withRbdir
    cases cs with
    | nil => simp [answer]
    | cons c cs =>
      simp only [List.isEmpty_cons, Bool.false_eq_true, if_false, ne_eq, reduceCtorEq, not_false_eq_true, true_and, hi]
      rw [answer]
      by_cases hr : [rb] <+: i
      · simp [saysOf, hr]
      · simp [saysOf, hr]

/-- The command `restore --force` with options `--include PATH`, `--exclude PATH`, `--include '**'`, `--exclude '**'` in any number and order (except that the
root must not be excluded) succeeds if and only if every directory of the target which contains something to be left alone is a directory in the backup.
Then all that isn't left alone is as in the backup, all that is left alone is as before, and so is everything next to the target. -/
theorem restore_paths_partial (h : Reach o rsv false st hist) {t b : Nat} {T : Files α (Node A C S)} (hb : chosen hist t = some (b, T))
    {W : Files α (Node A C S)} {top tmp rb : α} (hW : IsTree (· = tmp) W) (ht : rsv tmp) (htop : top ≠ tmp) (stamp : A) (junk : List α → C)
    (hk : ∀ s, k.kind s ≠ .dir) (hc : ∀ c ∈ cs, Paths c) (hroot : answer cs [] = true) :
    ((∃ R, selCmd true k rb cs o st t [] W top stamp junk tmp = some R) ↔
      ∀ i, LeftAlone rb cs i → (get W (top :: i)).isSome = true → ¬ LeftAlone rb cs i.dropLast → ∃ a, get T i.dropLast = some (.dir a)) ∧
    ∀ R, selCmd true k rb cs o st t [] W top stamp junk tmp = some R →
      (∀ i, ¬ LeftAlone rb cs i → ¬ LooksSameAt o st b T [] W top i → get R (top :: i) = get T i) ∧
      (∀ i, ¬ LeftAlone rb cs i → LooksSameAt o st b T [] W top i → get R (top :: i) = get W (top :: i)) ∧
      (∀ i, LeftAlone rb cs i → get R (top :: i) = get W (top :: i)) ∧
      (∀ p, p ≠ [] → ¬ [top] <+: p → get R p = get W p) := by
  have hc' := opts_paths hc rb
  obtain ⟨hbt, hns⟩ := paths_byTree hc'
  have hp := paths_plain hc'
  have hex := leftAlone_iff hc rb
  have hr : ∀ n, get T [] = some n → decide' (restoreOpts rb cs) [] (k.node o n) ≠ .excl := by
    intro n _
    rw [decide_paths hc']
    have : answer (restoreOpts rb cs) [] = true := by
      unfold restoreOpts withRbdir
      split
      · rfl
      · simpa [answer, saysOf] using hroot
    rw [this]; simp
  have hcmd : selCmd true k rb cs o st t [] W top stamp junk tmp =
      ((selSteps k (restoreOpts rb cs) o st t [] W top stamp junk tmp).bind (fun ss => exec stamp ss (world W))).map (·.mirror) := by
    unfold selCmd
    simp only [Bool.not_true, Bool.and_false, Bool.false_eq_true, if_false, ne_eq, not_true_eq_false, decide_false, Bool.false_and]
    cases selSteps k (restoreOpts rb cs) o st t [] W top stamp junk tmp <;> rfl
  by_cases hall : ∀ i, LeftAlone rb cs i → (get W (top :: i)).isSome = true → ¬ LeftAlone rb cs i.dropLast → ∃ a, get T i.dropLast = some (.dir a)
  · obtain ⟨ss, st', h1, h2, h3, h4, h5, h6⟩ := selected_restored_partial h hb hW ht htop stamp junk hk hp hbt hns hr (by
      intro i hi hs hd
      rw [hex] at hi hd
      exact hall i hi hs hd)
    have heq : selCmd true k rb cs o st t [] W top stamp junk tmp = some st'.mirror := by
      rw [hcmd, h1, Option.bind_some, h2]; rfl
    refine ⟨⟨fun _ => hall, fun _ => ⟨_, heq⟩⟩, ?_⟩
    intro R hR
    rw [heq] at hR
    cases hR
    simp only [← hex]
    exact ⟨h3, h4, h5, h6⟩
  · have hnone : selCmd true k rb cs o st t [] W top stamp junk tmp = none := by
      simp only [not_forall, not_exists, exists_prop] at hall
      obtain ⟨i, hi, hs, hd, hno⟩ := hall
      rw [← hex] at hi hd
      rw [hcmd, blocked h hb hW stamp junk hk hp hbt hns hr hi hs hd hno]; rfl
    refine ⟨⟨?_, fun hh => absurd hh hall⟩, ?_⟩
    · rintro ⟨R, hR⟩; rw [hnone] at hR; cases hR
    · intro R hR; rw [hnone] at hR; cases hR

theorem byPath_iff (c : Cond α) : byPath c = true ↔ NamesPaths c := by
  unfold NamesPaths
  cases c <;> simp [byPath]

/-- A part of the backup can't be restored with options which name paths. -/
theorem subpath_refused (force : Bool) {t : Nat} {sub : List α} (hs : sub ≠ []) {W : Files α (Node A C S)} {top tmp rb : α} (stamp : A) (junk : List α → C)
    (hc : ∃ c ∈ cs, NamesPaths c) : selCmd force k rb cs o st t sub W top stamp junk tmp = none := by
  unfold selCmd
  split
  · rfl
  · rw [if_pos]
    obtain ⟨c, h1, h2⟩ := hc
    simp only [Bool.and_eq_true, decide_eq_true_eq, List.any_eq_true]
    exact ⟨by simpa using hs, c, h1, (byPath_iff c).mpr h2⟩

/-- It can with other options. -/
theorem subpath_allowed {t : Nat} {sub : List α} {W : Files α (Node A C S)} {top tmp rb : α} (stamp : A) (junk : List α → C)
    (hc : ∀ c ∈ cs, ¬ NamesPaths c) : selCmd true k rb cs o st t sub W top stamp junk tmp =
      (selSteps k (restoreOpts rb cs) o st t sub W top stamp junk tmp).bind (fun ss => (exec stamp ss (world W)).map (·.mirror)) := by
  have : cs.any byPath = false := by
    rw [List.any_eq_false]
    intro c h1 h2
    exact hc c h1 ((byPath_iff c).mp h2)
  unfold selCmd
  simp only [Bool.not_true, Bool.and_false, Bool.false_eq_true, if_false, this]
  cases selSteps k (restoreOpts rb cs) o st t sub W top stamp junk tmp <;> rfl

/-! ### Examples -/

namespace Demo
open Verif.Repo.Demo

/-- next to a file, a target `5` with files and directories -/
def W : Files Nat (Node Nat Nat Nat) :=
  [([], .dir 3), ([1], .reg 1 9), ([5], .dir 8), ([5, 1], .reg 1 9), ([5, 3], .dir 2), ([5, 3, 7], .reg 2 2), ([5, 4], .dir 1), ([5, 4, 4], .reg 4 4),
    ([5, 6], .reg 1 1)]

theorem tree : IsTree (· = 1000) W :=
  ⟨by decide +kernel, ⟨3, by decide +kernel⟩, by
    intro x hx hne
    simp only [W, List.mem_cons, List.not_mem_nil, or_false] at hx
    rcases hx with rfl | rfl | rfl | rfl | rfl | rfl | rfl | rfl | rfl
    · exact absurd rfl hne
    · exact ⟨3, by decide +kernel⟩
    · exact ⟨3, by decide +kernel⟩
    · exact ⟨8, by decide +kernel⟩
    · exact ⟨8, by decide +kernel⟩
    · exact ⟨2, by decide +kernel⟩
    · exact ⟨8, by decide +kernel⟩
    · exact ⟨1, by decide +kernel⟩
    · exact ⟨8, by decide +kernel⟩, by
    intro x hx n hn e
    have : ∀ x ∈ W, ∀ n ∈ x.1, n < 10 := by decide +kernel
    have := this x hx n hn
    omega⟩

/-- other files are symbolic links -/
def look : Look Nat Nat := ⟨fun _ => .sym, fun _ => 0⟩

/-- `--exclude 3/7 --exclude 4`; `rdiff-backup-data` is `9` -/
def opts : List (Cond Nat) := [.tuple [3, 7] false, .tuple [4] false]

/-- The conditions of the theorem are met: the restore succeeds, and `3/7`, `4` and `4/4` are left alone. -/
example : (∀ i, LeftAlone 9 opts i → (get W (5 :: i)).isSome = true → ¬ LeftAlone 9 opts i.dropLast → ∃ a, get src2 i.dropLast = some (.dir a)) ∧
    (selCmd true look 9 opts ops st3 25 [] W 5 99 (fun _ => 77) 1000).map
      (fun R => [get R [1], get R [5], get R [5, 1], get R [5, 2], get R [5, 3], get R [5, 3, 1], get R [5, 3, 7], get R [5, 4, 4], get R [5, 6]]) =
    some [some (.reg 1 9), some (.dir 7), some (.reg 3 4), some (.reg 1 9), some (.dir 1), some (.reg 2 2), some (.reg 2 2), some (.reg 4 4), none] := by
  have hex : ∃ R, selCmd true look 9 opts ops st3 25 [] W 5 99 (fun _ => 77) 1000 = some R :=
    Option.isSome_iff_exists.mp (by decide +kernel)
  exact ⟨(restore_paths_partial reach3 (b := 20) (T := src2) (by decide +kernel) tree rfl (by decide) 99 (fun _ => 77) (by intro s h; cases h)
    (by intro c hc; simp only [opts, List.mem_cons, List.not_mem_nil, or_false] at hc; rcases hc with rfl | rfl <;> trivial)
    (by decide +kernel)).1.mp hex, by decide +kernel⟩

/-- The backup has no directory `4`.  With `--exclude 4/4` the restore fails when it comes to that directory, after the files before it have been
restored. -/
theorem midway : selCmd true look 9 [.tuple [4, 4] false] ops st3 25 [] W 5 99 (fun _ => 77) 1000 = none ∧
    ((selSteps look (restoreOpts 9 [.tuple [4, 4] false]) ops st3 25 [] W 5 99 (fun _ => 77) 1000).bind
      fun ss => (exec 99 (ss.take 11) (world W)).map fun s => [get s.mirror [5, 1], get s.mirror [5, 2], get s.mirror [5, 3, 7], get s.mirror [5, 4, 4], get s.mirror [5, 6]]) =
    some [some (.reg 3 4), some (.reg 1 9), none, some (.reg 4 4), some (.reg 1 1)] := by decide +kernel

example : (selSteps look [.tuple [9] false, .tuple [4, 4] false] ops st3 25 [] W 5 99 (fun _ => 77) 1000).bind (fun ss => exec 99 ss (world W)) = none := by
  have hc : ∀ c ∈ ([.tuple [9] false, .tuple [4, 4] false] : List (Cond Nat)), Paths c := by
    intro c hc; simp only [List.mem_cons, List.not_mem_nil, or_false] at hc; rcases hc with rfl | rfl <;> trivial
  refine blocked reach3 (b := 20) (T := src2) (by decide +kernel) tree 99 (fun _ => 77) (by intro s h; cases h) (paths_plain hc) (paths_byTree hc).1
    (paths_byTree hc).2 (by intro n _; rw [decide_paths hc]; decide +kernel) (i := [4, 4]) ((excluded_paths hc (by simp)).mpr (by decide +kernel))
    (by decide +kernel) (fun h => ?_) (fun a => by
      have : get src2 ([4, 4] : List Nat).dropLast = none := by decide +kernel
      rw [this]; simp)
  have := (excluded_paths hc (by simp)).mp h
  revert this
  decide +kernel

/-- a second repository -/
def src : Files Nat (Node Nat Nat Nat) := [([], .dir 6), ([3], .dir 1), ([3, 4], .dir 1), ([3, 4, 1], .reg 2 2), ([6], .reg 2 7)]
def stx := (backup ops empty (sess 10 src)).get (by decide +kernel)

/-- `--max-file-size 5`: the target's file `1` is larger, but it is overwritten, because the one of the backup isn't.  The target's small file `6` is deleted,
because the one of the backup is larger. -/
theorem large_overwritten : get W [5, 1] = some (.reg 1 9) ∧ decide' [.size 5 true] [1] (look.node ops (.reg 1 9)) = .excl ∧
    (selCmd true look 9 [.size 5 true] ops st3 25 [] W 5 99 (fun _ => 77) 1000).map (fun R => get R [5, 1]) = some (some (.reg 3 4)) ∧
    get src [6] = some (.reg 2 7) ∧ (selCmd true look 9 [.size 5 true] ops stx 10 [] W 5 99 (fun _ => 77) 1000).map (fun R => get R [5, 6]) = some none := by
  decide +kernel

/-- `--exclude-regexp` which matches the directory `3` but not what is below: the backup's directory `3/4` is restored although `3` is excluded, and if there
is no `3` the restore fails. -/
theorem regexp_inside : 
    (selCmd true look 9 [.regexp (fun i => i.getLast? == some 3) false] ops stx 10 [] W 5 99 (fun _ => 77) 1000).map
      (fun R => [get R [5, 3, 4], get R [5, 3, 4, 1], get R [5, 3, 7]]) = some [some (.dir 1), some (.reg 2 2), some (.reg 2 2)] ∧
    selCmd true look 9 [.regexp (fun i => i.getLast? == some 3) false] ops stx 10 [] [([], .dir 3), ([5], .dir 1)] 5 99 (fun _ => 77) 1000 = none := by
  decide +kernel

/-- `--include '8*' --exclude '**'`: the backup has nothing like that, so its root isn't selected either; the target's is, and it is removed if it is empty (or has
only files which are selected).  Likewise with `--exclude '**'`. -/
theorem nothing_matches :
    selCmd true look 9 [.glob (fun i => i.take 1 == [8]) (fun i => i == []) true, .all false] ops st3 25 [] [([], .dir 3), ([5], .dir 1)] 5 99 (fun _ => 77) 1000 =
      some [([], .dir 99)] ∧
    selCmd true look 9 [.all false] ops st3 25 [] [([], .dir 3), ([5], .dir 1)] 5 99 (fun _ => 77) 1000 = some [([], .dir 99)] := by
  decide +kernel

/-- `--include '4*' --exclude '**'`, stopped at any point: only `4` and what is below can have changed -/
example {ss : List (Step Nat Nat Nat Nat Unit Unit)} {n : Nat} {st' : State Nat Nat Nat Nat Unit Unit}
    (hss : selSteps look [.glob (fun i => i.take 1 == [4]) (fun i => i == []) true, .all false] ops st3 25 [] W 5 99 (fun _ => 77) 1000 = some ss)
    (he : exec 99 (ss.take n) (world W) = some st') (i : List Nat) (hi : ¬ [4] <+: i) (hne : i ≠ []) (ht : 1000 ∉ i) :
    get st'.mirror (5 :: i) = get W (5 :: i) := by
  have hd : ∀ (i : List Nat) (f : File), decide' [.glob (fun i => i.take 1 == [4]) (fun i => i == []) true, .all false] i f =
      if [4] <+: i then .incl else if i = [] then .scan else .excl := by
    intro i f
    cases i with
    | nil => simp [decide', selectDefault, selectFrom, Cond.apply, val]
    | cons a i => 
      by_cases ha : a = 4
      · simp [decide', selectDefault, selectFrom, Cond.apply, val, ha]
      · simp [decide', selectDefault, selectFrom, Cond.apply, val, ha, Ne.symm ha]
  refine (excluded_kept_partial reach3 (b := 20) (T := src2) (by decide +kernel) tree 99 (fun _ => 77) (by intro s h; cases h) (by
    intro c hc; simp only [List.mem_cons, List.not_mem_nil, or_false] at hc; rcases hc with rfl | rfl <;> trivial) ?_ ?_ ?_ hss he).1 i
    ⟨i, ⟨.reg, 0, 0⟩, hne, List.prefix_refl _, by rw [hd, if_neg hi, if_neg hne]⟩ ht
  · intro i f j g hne hp h
    rw [hd] at h ⊢
    have h4 : ¬ [4] <+: i := by intro h4; rw [if_pos h4] at h; cases h
    rw [if_neg, if_neg]
    · rintro rfl; exact hne (List.prefix_nil.mp hp)
    · intro h5
      rcases List.prefix_or_prefix_of_prefix h5 hp with h6 | h6
      · exact h4 h6
      · cases i with
        | nil => exact hne rfl
        | cons a i =>
          obtain ⟨rfl, h7⟩ := List.cons_prefix_cons.mp h6
          exact h4 (by simp)
  · intro n _
    rw [hd]; simp
  · intro i n hn hv
    rw [hd] at hv
    split at hv
    · cases hv
    · split at hv
      · next hi =>
        subst hi
        have : get src2 [] = some (.dir 7) := by decide +kernel
        rw [this] at hn; cases hn; rfl
      · cases hv

/-- and the hypotheses are met -/
example : ((selSteps look [.glob (fun i => i.take 1 == [4]) (fun i => i == []) true, .all false] ops
    ((backup ops empty (sess 10 [([], .dir 6), ([4], .dir 1), ([4, 1], .reg 2 2)])).get (by decide +kernel)) 25 [] W 5 99 (fun _ => 77) 1000).bind
      fun ss => (exec 99 ss (world W)).map fun s => [get s.mirror [5, 1], get s.mirror [5, 4, 1], get s.mirror [5, 4, 4]]) =
    some [some (.reg 1 9), some (.reg 2 2), none] := by decide +kernel

/-- a part of the backup with `--exclude-symbolic-links`, and with `--exclude 1` -/
example : (selCmd true look 9 [.kind .sym false] ops st3 25 [3] [([], .dir 3)] 5 99 (fun _ => 77) 1000).map (fun R => get R [5, 1]) = some (some (.reg 2 2)) := by
  rw [subpath_allowed 99 (fun _ => 77) (by intro c hc; rw [List.mem_singleton.mp hc]; simp [NamesPaths])]
  decide +kernel

example : selCmd true look 9 [.tuple [1] false] ops st3 25 [3] W 5 99 (fun _ => 77) 1000 = none :=
  subpath_refused true (by simp) 99 (fun _ => 77) ⟨_, List.mem_singleton.mpr rfl, .inl ⟨_, _, rfl⟩⟩

end Demo
end Verif.C64
