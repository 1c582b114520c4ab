import Verif.Model.RestoreDir
import Verif.Proof.RepoReach
/- Restoring into an existing directory, reduced to the first backup of `Verif.Repo` (with a mirror that isn't empty).  The attributes get an additional flag
there: whether a digest is recorded. -/
namespace Verif.RestoreDir
open Verif.Repo Verif.Collate Verif.FillIn Verif.TreeReducer Verif.MetaChain Verif.JoinSpec Verif.NestingSpec
set_option linter.unusedSectionVars false
variable {α A C S H Δ L : Type} [LinearOrder α] [DecidableEq A] [DecidableEq S] [DecidableEq H]

/-! ### Attributes with a flag -/

def up (b : Bool) : Node A C S → Node (A × Bool) C S
  | .dir a => .dir (a, b)
  | .reg a x => .reg (a, b) x
  | .other a s => .other (a, b) s

def dn : Node (A × Bool) C S → Node A C S
  | .dir a => .dir a.1
  | .reg a x => .reg a.1 x
  | .other a s => .other a.1 s

@[simp] theorem dn_up (b : Bool) (n : Node A C S) : dn (up b n) = n := by cases n <;> rfl
@[simp] theorem up_isDir (b : Bool) (n : Node A C S) : (up b n).isDir = n.isDir := by cases n <;> rfl
@[simp] theorem dn_isDir (n : Node (A × Bool) C S) : (dn n).isDir = n.isDir := by cases n <;> rfl
theorem dn_setAttr (n : Node (A × Bool) C S) (a : A × Bool) : dn (n.setAttr a) = (dn n).setAttr a.1 := by cases n <;> rfl

def dnFiles (m : Files α (Node (A × Bool) C S)) : Files α (Node A C S) := m.map fun x => (x.1, dn x.2)
def upFiles (F : List α → Bool) (m : Files α (Node A C S)) : Files α (Node (A × Bool) C S) := m.map fun x => (x.1, up (F x.1) x.2)

theorem get_map {V W : Type} (f : List α → V → W) (m : Files α V) (i : List α) :
    get (m.map fun x => (x.1, f x.1 x.2)) i = (get m i).map (f i) := by
  induction m with
  | nil => rfl
  | cons x m ih =>
    obtain ⟨k, v⟩ := x
    by_cases hk : k = i
    · subst hk; simp [Repo.get]
    · simp [Repo.get, hk, ih]

theorem get_dn (m : Files α (Node (A × Bool) C S)) (i : List α) : get (dnFiles m) i = (get m i).map dn := get_map (fun _ => dn) m i
theorem get_up (F : List α → Bool) (m : Files α (Node A C S)) (i : List α) : get (upFiles F m) i = (get m i).map (up (F i)) :=
  get_map (fun i => up (F i)) m i

theorem dnFiles_up (F : List α → Bool) (m : Files α (Node A C S)) : dnFiles (upFiles F m) = m := by
  simp [dnFiles, upFiles, Function.comp_def]

theorem isDirAt_dn (m : Files α (Node (A × Bool) C S)) (i : List α) : isDirAt (dnFiles m) i = isDirAt m i := by
  unfold isDirAt
  rw [get_dn]
  cases get m i with
  | none => rfl
  | some n => cases n <;> rfl

theorem dn_put (m : Files α (Node (A × Bool) C S)) (i : List α) (n : Node (A × Bool) C S) : dnFiles (put m i n) = put (dnFiles m) i (dn n) := by
  simp [dnFiles, put, List.filter_map, Function.comp_def]

theorem dn_del (m : Files α (Node (A × Bool) C S)) (i : List α) : dnFiles (del m i) = del (dnFiles m) i := by
  simp [dnFiles, del, List.filter_map, Function.comp_def]

theorem dn_delTree (m : Files α (Node (A × Bool) C S)) (i : List α) : dnFiles (delTree m i) = delTree (dnFiles m) i := by
  simp [dnFiles, delTree, List.filter_map, Function.comp_def]

theorem dn_touch (m : Files α (Node (A × Bool) C S)) (stamp : A × Bool) (p : List α) :
    dnFiles (touch stamp m p) = touch stamp.1 (dnFiles m) p := by
  unfold touch
  rw [isDirAt_dn]
  split
  · rw [dn_put]; rfl
  · rfl

/-! ### Operations on the target only -/

/-- only the directory is changed -/
def onDir : Step α (A × Bool) C S H Δ → Bool
  | .write _ _ | .rename _ _ | .delete _ | .mkdir _ | .rmdir _ | .chattr _ _ => true
  | _ => false

def dnStep : Step α (A × Bool) C S H Δ → Step α A C S Unit Unit
  | .write i n => .write i (dn n)
  | .rename i j => .rename i j
  | .delete i => .delete i
  | .mkdir i => .mkdir i
  | .rmdir i => .rmdir i
  | .chattr i a => .chattr i a.1
  | _ => .mkIncDir []

def dnState (m : Files α (Node (A × Bool) C S)) : State α A C S Unit Unit := ⟨dnFiles m, [], [[]], [], []⟩

theorem apply_dn {stamp : A × Bool} {s : Step α (A × Bool) C S H Δ} {st st' : State α (A × Bool) C S H Δ} (hs : onDir s = true)
    (h : apply stamp s st = some st') : apply stamp.1 (dnStep s) (dnState st.mirror) = some (dnState st'.mirror) := by
  cases s with
  | write i n =>
    simp only [apply] at h
    split at h
    · next hc =>
      cases h
      simp only [dnStep, apply, dnState]
      rw [if_pos (by rw [isDirAt_dn, isDirAt_dn, dn_isDir]; exact hc)]
      simp only [get_dn, Option.isNone_map]
      split
      · rw [dn_put, dn_touch]
      · rw [dn_put]
    · cases h
  | rename i j =>
    simp only [apply] at h
    cases hg : get st.mirror i with
    | none => rw [hg] at h; cases h
    | some n =>
      rw [hg] at h
      simp only at h
      split at h
      · next hc =>
        cases h
        simp only [dnStep, apply, dnState, get_dn, hg, Option.map_some]
        rw [if_pos (by rw [isDirAt_dn, dn_isDir]; exact hc), dn_put, dn_del, dn_touch]
      · cases h
  | delete i =>
    simp only [apply] at h
    split at h
    · next hc =>
      cases h
      simp only [dnStep, apply, dnState, get_dn, Option.isSome_map]
      rw [if_pos hc, dn_delTree, dn_touch]
    · cases h
  | mkdir i =>
    simp only [apply] at h
    split at h
    · next hc =>
      cases h
      simp only [dnStep, apply, dnState, get_dn, Option.isNone_map]
      rw [if_pos (by rw [isDirAt_dn]; exact hc), dn_put, dn_touch]; rfl
    · cases h
  | rmdir i =>
    simp only [apply] at h
    split at h
    · next hc =>
      cases h
      simp only [dnStep, apply, dnState]
      rw [if_pos, dn_del, dn_touch]
      refine ⟨hc.1, by rw [isDirAt_dn]; exact hc.2.1, ?_⟩
      intro x hx
      obtain ⟨y, hy, rfl⟩ := List.mem_map.mp hx
      exact hc.2.2 y hy
    · cases h
  | chattr i a =>
    simp only [apply] at h
    cases hg : get st.mirror i with
    | none => rw [hg] at h; cases h
    | some n =>
      rw [hg] at h
      simp only [Option.some.injEq] at h
      subst h
      simp only [dnStep, apply, dnState, get_dn, hg, Option.map_some, dn_put, dn_setAttr]
  | _ => cases hs

theorem exec_dn {stamp : A × Bool} {ss : List (Step α (A × Bool) C S H Δ)} {st st' : State α (A × Bool) C S H Δ} (hs : ∀ s ∈ ss, onDir s = true)
    (h : exec stamp ss st = some st') : exec stamp.1 (ss.map dnStep) (dnState st.mirror) = some (dnState st'.mirror) := by
  induction ss generalizing st with
  | nil => cases h; rfl
  | cons s ss ih =>
    obtain ⟨st₁, h1, h2⟩ := Option.bind_eq_some_iff.mp h
    rw [List.map_cons, exec, apply_dn (hs s (by simp)) h1, Option.bind_some]
    exact ih (fun x hx => hs x (by simp [hx])) h2

/-! ### The walk -/

theorem finishBranches_mem (index : List α) (bs : List (List α)) :
    (∀ e ∈ (finishBranches index bs).1, ∃ b ∈ bs, e = .finish b) ∧ ∀ b ∈ (finishBranches index bs).2, b ∈ bs := by
  induction bs with
  | nil => simp [finishBranches]
  | cons b bs ih =>
    unfold finishBranches
    split
    · refine ⟨?_, fun x hx => List.mem_cons_of_mem _ (ih.2 x hx)⟩
      intro e he
      rcases List.mem_cons.mp he with rfl | he
      · exact ⟨b, by simp, rfl⟩
      · obtain ⟨x, hx, rfl⟩ := ih.1 e he
        exact ⟨x, by simp [hx], rfl⟩
    · exact ⟨by simp, fun x hx => hx⟩

def evIdx : Event α → List α
  | .start i => i
  | .fast i => i
  | .finish i => i

/-- every event is about an element -/
theorem runFrom_idx (xs : List (List α × Bool)) (s : St α) {ev : List (Event α)} (h : runFrom s xs = some ev) :
    ∀ e ∈ ev, evIdx e ∈ xs.map Prod.fst ∨ evIdx e ∈ s.branches := by
  induction xs generalizing s ev with
  | nil =>
    simp only [runFrom, Option.some.injEq] at h
    subst h
    unfold finishProcessing
    split
    · simp
    · intro e he
      obtain ⟨b, hb, rfl⟩ := List.mem_map.mp he
      exact .inr hb
  | cons x xs ih =>
    obtain ⟨i, f⟩ := x
    simp only [runFrom] at h
    split at h
    · cases h
    · cases h
    · next ev1 st' hcall =>
      obtain ⟨ev2, h2, rfl⟩ := Option.map_eq_some_iff.mp h
      have key : (∀ e ∈ ev1, evIdx e = i ∨ evIdx e ∈ s.branches) ∧ ∀ b ∈ st'.branches, b = i ∨ b ∈ s.branches := by
        unfold call at hcall
        split at hcall
        · split at hcall <;> cases hcall <;> simp [evIdx]
        · split at hcall
          · cases hcall; simp; exact fun b hb => .inr hb
          · split at hcall
            · cases hcall
            · split at hcall
              · cases hcall
              · next cur _ _ e b bs hfe =>
                have hm := finishBranches_mem i s.branches
                rw [hfe] at hm
                have hm1 : ∀ x ∈ e, evIdx x ∈ s.branches := by
                  intro x hx
                  obtain ⟨y, hy, rfl⟩ := hm.1 x hx
                  exact hy
                split at hcall
                · cases hcall
                  refine ⟨?_, fun x hx => .inr (hm.2 x hx)⟩
                  intro x hx
                  rcases List.mem_append.mp hx with hx | hx
                  · exact .inr (hm1 x hx)
                  · simp only [List.mem_singleton] at hx; subst hx; exact .inl rfl
                · cases hcall
                  refine ⟨?_, ?_⟩
                  · intro x hx
                    rcases List.mem_append.mp hx with hx | hx
                    · exact .inr (hm1 x hx)
                    · simp only [List.mem_singleton] at hx; subst hx; exact .inl rfl
                  · intro x hx
                    rcases List.mem_cons.mp hx with rfl | hx
                    · exact .inl rfl
                    · exact .inr (hm.2 x hx)
      intro e he
      rcases List.mem_append.mp he with he | he
      · rcases key.1 e he with k | k
        · left; simp [k]
        · exact .inr k
      · rcases ih st' h2 e he with k | k
        · left; simp only [List.map_cons, List.mem_cons]; exact .inr k
        · rcases key.2 _ k with k | k
          · left; simp [k]
          · exact .inr k

theorem mem_fasts {evs : List (Event α)} {i : List α} (h : Event.fast i ∈ evs) : i ∈ fasts evs := by
  induction evs with
  | nil => cases h
  | cons x evs ih =>
    rcases List.mem_cons.mp h with rfl | h'
    · simp [fasts]
    · cases x <;> simp [fasts, ih h']

/-! ### The context -/

/-- contents are sent as a whole -/
def opsOf (size : C → Nat) : Ops (A × Bool) C Unit C Unit := ⟨size, fun _ => (), fun _ n => n, fun _ d => d, fun _ _ => rfl, fun _ => ()⟩

/-- what the restored tree differs in -/
def eqFlag (size : C → Nat) (b : Bool) (n m : Node A C S) : Bool :=
  match n, m with
  | .dir a, .dir a' => !b && a = a'
  | .reg a x, .reg a' x' => !b && a = a' && size x == size x'
  | .other a s, .other a' s' => !b && a = a' && s = s'
  | _, _ => false

def isDiff (size : C → Nat) (F : List α → Bool) (G target : Files α (Node A C S)) (i : List α) : Bool :=
  match get G i, get target i with
  | some n, some m => !(eqFlag size (F i) n m)
  | none, none => false
  | _, _ => true

/-- the first backup into `target` with source `G` -/
def ctxOf (F : List α → Bool) (size : C → Nat) (G target : Files α (Node A C S)) (stamp : A) (junk : List α → C) (tmp : α) :
    Ctx α (A × Bool) C S Unit C :=
  ⟨⟨upFiles (fun _ => false) target, [], [[]], [], []⟩,
    ⟨0, upFiles F G, fun _ => false, fun _ => true, (stamp, false), junk, junk, [], tmp⟩, none,
    (upFiles (fun _ => false) target).map fun x => ⟨x.1, some (srcRec (opsOf size) true x.2)⟩⟩

variable {F : List α → Bool} {size : C → Nat} {G target : Files α (Node A C S)} {stamp : A} {junk : List α → C} {tmp : α} {rsv : α → Prop}

theorem src_eq (i : List α) : (ctxOf F size G target stamp junk tmp).src i = (get G i).map (up (F i)) := get_up F G i
theorem mirror_eq (i : List α) : (ctxOf F size G target stamp junk tmp).mirror i = (get target i).map (up false) := get_up (fun _ => false) target i

theorem dst_eq (_hT : IsTree rsv target) (i : List α) :
    (ctxOf F size G target stamp junk tmp).dst i = (get target i).map fun n => srcRec (opsOf size) true (up false n) := by
  have : ∀ m : Files α (Node A C S),
      ((((upFiles (fun _ => false) m).map fun x => (⟨x.1, some (srcRec (opsOf size) true x.2)⟩ : Rec (List α) (MRec (A × Bool) S Unit))).find?
        (fun r => r.idx = i)).bind (·.data)) = (get m i).map fun n => srcRec (opsOf size) true (up false n) := by
    intro m
    induction m with
    | nil => rfl
    | cons x m ih =>
      obtain ⟨k, v⟩ := x
      by_cases hk : k = i
      · subst hk; simp [upFiles, Repo.get]
      · simp only [upFiles, List.map_cons, List.find?_cons, hk, decide_false, Repo.get, if_false] at ih ⊢
        exact ih
  exact this target

theorem tree_up (hG : IsTree rsv G) (F : List α → Bool) : IsTree rsv (upFiles F G) := by
  obtain ⟨h1, ⟨a, h2⟩, h3, h4⟩ := hG
  refine ⟨?_, ⟨(a, F []), List.mem_map.mpr ⟨_, h2, rfl⟩⟩, ?_, ?_⟩
  · rw [upFiles, List.pairwise_map]; exact h1
  · intro x hx hne
    obtain ⟨y, hy, rfl⟩ := List.mem_map.mp hx
    obtain ⟨b, hb⟩ := h3 y hy hne
    exact ⟨(b, F y.1.dropLast), List.mem_map.mpr ⟨_, hb, rfl⟩⟩
  · intro x hx n hn
    obtain ⟨y, hy, rfl⟩ := List.mem_map.mp hx
    exact h4 y hy n hn

theorem ok (hG : IsTree rsv G) (hT : IsTree rsv target) (ht : rsv tmp) :
    CtxOK (opsOf size) (ctxOf F size G target stamp junk tmp) firstProt := by
  have hG' := tree_up hG F
  have hT' := tree_up hT (fun _ => false)
  constructor
  · exact hG'.root_dir
  · exact hG'.closed
  · exact hG'.no_tmp ht
  · exact hT'.no_tmp ht
  · refine ⟨?_, ?_, by simp [ctxOf], by simp [ctxOf], by simp [ctxOf]⟩
    · intro i hi hs
      have := hT'.closed i hi hs
      rw [isDirAt_iff]
      revert this
      show isDirNode (get (upFiles (fun _ => false) target) i.dropLast) = true → _
      cases hg : get (upFiles (fun _ => false) target) i.dropLast with
      | none => intro h; cases h
      | some n => cases n <;> simp [isDirNode, Node.isDir, ctxOf, hg]
    · have := hT'.root_dir
      rw [isDirAt_iff]
      revert this
      show isDirNode (get (upFiles (fun _ => false) target) []) = true → _
      cases hg : get (upFiles (fun _ => false) target) [] with
      | none => intro h; cases h
      | some n => cases n <;> simp [isDirNode, Node.isDir, ctxOf, hg]
  · intro i
    rw [dst_eq hT, mirror_eq]
    cases get target i with
    | none => trivial
    | some n => cases n <;> simp [up, srcRec, Agrees]
  · intro i a x h; cases h
  · intro i a h; cases h
  · intro i a x h; cases h
  · intro i a x _ _ _ h; cases h
  · intro i a x _ _ h; cases h
  · intro t h; cases h
  · intro _ i; rfl
  · intro i; rfl

theorem srt (hG : IsTree rsv G) (hT : IsTree rsv target) : Sorted (ctxOf F size G target stamp junk tmp) := by
  refine ⟨(tree_up hG F).ordered, ?_, ?_⟩
  · simp only [ctxOf]
    show List.Pairwise _ _
    rw [List.pairwise_map]
    exact (tree_up hT _).ordered
  · intro x hx
    obtain ⟨y, -, rfl⟩ := List.mem_map.mp hx
    rfl

theorem changedPair_eq (hT : IsTree rsv target) (i : List α)
    (hi : (get G i).isSome = true ∨ (get target i).isSome = true) :
    changedPair (opsOf size) ((ctxOf F size G target stamp junk tmp).src i) ((ctxOf F size G target stamp junk tmp).dst i) =
      isDiff size F G target i := by
  rw [src_eq, dst_eq hT]
  unfold isDiff
  cases hg : get G i with
  | none =>
    cases ht : get target i with
    | none => rw [hg, ht] at hi; simp at hi
    | some m => rfl
  | some n =>
    cases ht : get target i with
    | none => rfl
    | some m =>
      cases n <;> cases m <;> simp [changedPair, eqMeta, eqFlag, up, srcRec, opsOf]
      all_goals grind

theorem changed_eq (hG : IsTree rsv G) (hT : IsTree rsv target) :
    ((ctxOf F size G target stamp junk tmp).changed (opsOf size)).Pairwise (· < ·) ∧
    ∀ k, k ∈ (ctxOf F size G target stamp junk tmp).changed (opsOf size) ↔ isDiff size F G target k = true := by
  refine ⟨(srt hG hT).changed.1, ?_⟩
  intro k
  rw [(srt hG hT).changed.2, dst_eq hT, src_eq]
  simp only [Option.isSome_map]
  constructor
  · rintro ⟨h1, h2⟩
    rw [← changedPair_eq (stamp := stamp) (junk := junk) (tmp := tmp) hT k h1, src_eq, dst_eq hT]
    exact h2
  · intro h
    have h1 : (get G k).isSome = true ∨ (get target k).isSome = true := by
      unfold isDiff at h
      cases hg : get G k with
      | some n => exact .inl rfl
      | none =>
        cases ht : get target k with
        | none => rw [hg, ht] at h; cases h
        | some n => exact .inr rfl
    refine ⟨h1, ?_⟩
    rw [← changedPair_eq (stamp := stamp) (junk := junk) (tmp := tmp) hT k h1, src_eq, dst_eq hT] at h
    exact h

/-- What `getDiffs` has to deliver. -/
structure DiffsOK (size : C → Nat) (F : List α → Bool) (G target : Files α (Node A C S)) (ds : List (List α × Option (Node A C S))) : Prop where
  ordered : (ds.map Prod.fst).Pairwise (· < ·)
  mem : ∀ k, k ∈ ds.map Prod.fst ↔ isDiff size F G target k = true
  val : ∀ x ∈ ds, x.2 = get G x.1

theorem DiffsOK.get {ds : List (List α × Option (Node A C S))} (h : DiffsOK size F G target ds) (i : List α) :
    Repo.get ds i = if isDiff size F G target i then some (Repo.get G i) else none := by
  split
  · next hi =>
    obtain ⟨x, hx, rfl⟩ := List.mem_map.mp ((h.mem i).mpr hi)
    have : Repo.get ds x.1 = some x.2 := (get_mem (List.pairwise_map.mp h.ordered) x.1 x.2).mpr hx
    rw [this, h.val x hx]
  · next hi =>
    cases hg : Repo.get ds i with
    | none => rfl
    | some d =>
      have : (Repo.get ds i).isSome = true := by rw [hg]; rfl
      obtain ⟨x, hx, rfl⟩ := (get_isSome_iff ds i).mp this
      exact absurd ((h.mem x.1).mp (List.mem_map.mpr ⟨x, hx, rfl⟩)) hi

section main
variable {ds : List (List α × Option (Node A C S))} (h : DiffsOK size F G target ds) (hG : IsTree rsv G) (hT : IsTree rsv target) (ht : rsv tmp)
include h hG hT ht

theorem filled_eq : (ctxOf F size G target stamp junk tmp).filled (opsOf size) = RCtx.filled ⟨ds, target, stamp, junk, tmp⟩ := by
  unfold Ctx.filled RCtx.filled
  congr 1
  obtain ⟨h1, h2⟩ := changed_eq (F := F) (size := size) (stamp := stamp) (junk := junk) (tmp := tmp) hG hT
  exact C12.sorted_unique h1 h.ordered (fun k => (h2 k).trans (h.mem k).symm)

theorem filler_or_changed {i : List α} (hi : i ∈ (ctxOf F size G target stamp junk tmp).touched (opsOf size)) :
    ((ctxOf F size G target stamp junk tmp).isFiller (opsOf size) i = false ∧ isDiff size F G target i = true) ∨
      ((ctxOf F size G target stamp junk tmp).isFiller (opsOf size) i = true ∧ isDiff size F G target i = false) := by
  have hs := srt (F := F) (size := size) (stamp := stamp) (junk := junk) (tmp := tmp) hG hT
  obtain ⟨h1, h2⟩ := changed_eq (F := F) (size := size) (stamp := stamp) (junk := junk) (tmp := tmp) hG hT
  have hsp := C14.fillIn_spec _ (hs.changed (o := opsOf size)).1
  obtain ⟨⟨b, j⟩, hx, hj⟩ := List.mem_map.mp hi
  have hj : j = i := hj
  subst hj
  cases b with
  | true =>
    have hm : j ∈ (ctxOf F size G target stamp junk tmp).changed (opsOf size) := by
      rw [← hsp.1]
      exact List.mem_map.mpr ⟨_, List.mem_filter.mpr ⟨hx, rfl⟩, rfl⟩
    left
    refine ⟨?_, (h2 _).mp hm⟩
    by_contra hf
    exact hs.filler (by simpa using hf) hm
  | false =>
    have hf : (ctxOf F size G target stamp junk tmp).isFiller (opsOf size) j = true := by simpa [Ctx.isFiller] using hx
    right
    refine ⟨hf, ?_⟩
    by_contra hd
    exact hs.filler hf ((h2 _).mpr (by simpa using hd))

theorem diff_changed {i : List α} (hd : isDiff size F G target i = true) : RCtx.diff ⟨ds, target, stamp, junk, tmp⟩ i = get G i := by
  simp [RCtx.diff, h.get, hd]

theorem diff_filler {i : List α} (hd : isDiff size F G target i = false) : RCtx.diff ⟨ds, target, stamp, junk, tmp⟩ i = get target i := by
  simp [RCtx.diff, h.get, hd, RCtx.base]

theorem isDirNode_map {b : Bool} (x : Option (Node A C S)) : isDirNode (x.map (up b)) = isDirNode x := by
  cases x with
  | none => rfl
  | some n => cases n <;> rfl

theorem events_eq : (ctxOf F size G target stamp junk tmp).events (opsOf size) = RCtx.events ⟨ds, target, stamp, junk, tmp⟩ := by
  have hc := ok (F := F) (size := size) (stamp := stamp) (junk := junk) hG hT ht
  have hs := srt (F := F) (size := size) (stamp := stamp) (junk := junk) (tmp := tmp) hG hT
  unfold Ctx.events RCtx.events
  rw [← filled_eq (F := F) h hG hT ht]
  congr 1
  apply List.map_congr_left
  intro x hx
  rw [canFast_eq hc hs hx]
  have hi : x.2 ∈ (ctxOf F size G target stamp junk tmp).touched (opsOf size) := List.mem_map.mpr ⟨x, hx, rfl⟩
  congr 1
  unfold Ctx.isFast RCtx.canFast
  rw [hc.dst_dir, src_eq, mirror_eq, isDirNode_map h hG hT ht, isDirNode_map h hG hT ht]
  rcases filler_or_changed h hG hT ht hi with ⟨-, hd⟩ | ⟨hf, hd⟩
  · rw [diff_changed h hG hT ht hd, Bool.not_or]; rfl
  · rw [diff_filler h hG hT ht hd]
    obtain ⟨h1, h2⟩ := filler_dirs hc hs hf
    rw [src_eq, isDirNode_map h hG hT ht] at h1
    rw [mirror_eq, isDirNode_map h hG hT ht] at h2
    simp [h1, h2, RCtx.base]

theorem patch_eq (i : List α) (hn : isDirNode (get G i) = false) :
    (ctxOf F size G target stamp junk tmp).patch (opsOf size) i = .done ((get G i).map (up (F i))) := by
  unfold Ctx.patch
  rw [src_eq, dst_eq hT, mirror_eq]
  cases hg : get G i with
  | none => rfl
  | some n =>
    cases n with
    | dir a => rw [hg] at hn; cases hn
    | other a s => simp [up, ctxOf]
    | reg a x =>
      cases htg : get target i with
      | none => simp [up, ctxOf]
      | some m =>
        cases m <;> simp [up, ctxOf, srcRec, opsOf]

theorem writeTmp_eq (i : List α) (x : Option (Node A C S)) :
    ((ctxOf F size G target stamp junk tmp).writeTmp i (x.map (up (F i)))).map dnStep =
      RCtx.writeTmp (H := Unit) (Δ := Unit) ⟨ds, target, stamp, junk, tmp⟩ i x := by
  cases x with
  | none => rfl
  | some n =>
    simp only [Option.map_some, Ctx.writeTmp, RCtx.writeTmp, List.map_cons, List.map_nil, dnStep, dn_up]
    rfl

theorem fast_ok {i : List α} (hi : i ∈ (ctxOf F size G target stamp junk tmp).touched (opsOf size))
    (hf : (ctxOf F size G target stamp junk tmp).isFast i = true) : isDiff size F G target i = true ∧ isDirNode (get G i) = false := by
  have hc := ok (F := F) (size := size) (stamp := stamp) (junk := junk) hG hT ht
  have hs := srt (F := F) (size := size) (stamp := stamp) (junk := junk) (tmp := tmp) hG hT
  have hn : isDirNode (get G i) = false := by
    unfold Ctx.isFast at hf
    rw [src_eq, isDirNode_map h hG hT ht] at hf
    simp at hf; exact hf.1
  rcases filler_or_changed h hG hT ht hi with ⟨-, hd⟩ | ⟨hfi, hd⟩
  · exact ⟨hd, hn⟩
  · obtain ⟨h1, -⟩ := filler_dirs hc hs hfi
    rw [src_eq, isDirNode_map h hG hT ht, hn] at h1
    cases h1

theorem steps_eq {e : Event α} (hi : evIdx e ∈ (ctxOf F size G target stamp junk tmp).touched (opsOf size))
    (hf : ∀ i, e = .fast i → (ctxOf F size G target stamp junk tmp).isFast i = true) :
    (∀ s ∈ (ctxOf F size G target stamp junk tmp).eventSteps (opsOf size) e, onDir s = true) ∧
    ((ctxOf F size G target stamp junk tmp).eventSteps (opsOf size) e).map dnStep =
      RCtx.eventSteps (H := Unit) (Δ := Unit) ⟨ds, target, stamp, junk, tmp⟩ e := by
  have hc := ok (F := F) (size := size) (stamp := stamp) (junk := junk) hG hT ht
  have hs := srt (F := F) (size := size) (stamp := stamp) (junk := junk) (tmp := tmp) hG hT
  have hw : ∀ i x, ∀ s ∈ (ctxOf F size G target stamp junk tmp).writeTmp i x, onDir s = true := by
    intro i x s hx
    cases x with
    | none => cases hx
    | some n =>
      simp only [Ctx.writeTmp, List.mem_cons, List.not_mem_nil, or_false] at hx
      rcases hx with rfl | rfl <;> rfl
  have hmi : ∀ i a b, (ctxOf F size G target stamp junk tmp).makeIncrement (opsOf size) i a b = [] := fun _ _ _ => rfl
  cases e with
  | fast i =>
    have hi : i ∈ (ctxOf F size G target stamp junk tmp).touched (opsOf size) := hi
    obtain ⟨hd, hn⟩ := fast_ok h hG hT ht hi (hf i rfl)
    simp only [Ctx.eventSteps, RCtx.eventSteps, Ctx.fastSteps, RCtx.fastSteps, patch_eq h hG hT ht i hn, diff_changed h hG hT ht hd, hmi]
    cases hg : get G i with
    | none =>
      simp only [Option.map_none, List.nil_append, mirror_eq, Option.isSome_map, RCtx.base]
      by_cases hx : (get target i).isSome = true <;> simp [hx, onDir, dnStep]
    | some n =>
      have := writeTmp_eq h hG hT ht (stamp := stamp) (junk := junk) (tmp := tmp) i (some n)
      simp only [Option.map_some] at this
      simp only [Option.map_some, List.append_nil, List.map_append, this]
      refine ⟨?_, rfl⟩
      intro s hx
      rcases List.mem_append.mp hx with hx | hx
      · exact hw _ _ s hx
      · simp only [List.mem_singleton] at hx; subst hx; rfl
  | start i =>
    have hi : i ∈ (ctxOf F size G target stamp junk tmp).touched (opsOf size) := hi
    simp only [Ctx.eventSteps, RCtx.eventSteps, Ctx.startSteps, RCtx.startSteps, hmi, mirror_eq, src_eq, isDirNode_map h hG hT ht,
      Option.isSome_map, RCtx.base, List.nil_append, List.append_nil]
    rcases filler_or_changed h hG hT ht hi with ⟨hfi, hd⟩ | ⟨hfi, hd⟩
    · rw [hfi, diff_changed h hG hT ht hd]
      simp only [Bool.false_eq_true, if_false]
      split
      · by_cases hy : isDirNode (get target i) = true
        · simp [hy]
        · by_cases hx : (get target i).isSome = true <;> simp [hx, hy, onDir, dnStep]
      · exact ⟨hw i _, writeTmp_eq h hG hT ht i _⟩
    · rw [hfi, diff_filler h hG hT ht hd]
      obtain ⟨-, h2⟩ := filler_dirs hc hs hfi
      rw [mirror_eq, isDirNode_map h hG hT ht] at h2
      simp [h2]
  | finish i =>
    have hi : i ∈ (ctxOf F size G target stamp junk tmp).touched (opsOf size) := hi
    simp only [Ctx.eventSteps, RCtx.eventSteps, Ctx.finishSteps, RCtx.finishSteps, mirror_eq, src_eq]
    rcases filler_or_changed h hG hT ht hi with ⟨hfi, hd⟩ | ⟨hfi, hd⟩
    · rw [hfi, diff_changed h hG hT ht hd]
      simp only [Bool.false_eq_true, if_false]
      cases hg : get G i with
      | none => simp [onDir, dnStep]
      | some n => cases n <;> simp [up, onDir, dnStep, ctxOf]
    · rw [hfi, diff_filler h hG hT ht hd]
      simp only [if_true]
      cases hg : get target i with
      | none => simp [onDir, dnStep]
      | some n => cases n <;> simp [up, onDir, dnStep, ctxOf]

/-- The target after `apply`: what was different is as in the backup, the rest is as before. -/
theorem apply_spec : ∃ T', RCtx.apply ⟨ds, target, stamp, junk, tmp⟩ = some T' ∧
    ∀ i, get T' i = if isDiff size F G target i then get G i else get target i := by
  have hc := ok (F := F) (size := size) (stamp := stamp) (junk := junk) hG hT ht
  have hs := srt (F := F) (size := size) (stamp := stamp) (junk := junk) (tmp := tmp) hG hT
  obtain ⟨evs, h1, h2⟩ := body_safe (M := []) (K := []) (stamp := (stamp, false)) hc hs ⟨rfl, rfl, rfl⟩
    ⟨hc.wf, fun j => hc.ri_self j, rfl, rfl⟩
  obtain ⟨st', he, hb, -⟩ := h2.exec
  have hev : RCtx.events ⟨ds, target, stamp, junk, tmp⟩ = some evs := by rw [← events_eq (F := F) h hG hT ht]; exact h1
  have hidx : ∀ e ∈ evs, evIdx e ∈ (ctxOf F size G target stamp junk tmp).touched (opsOf size) := by
    intro e he
    rcases runFrom_idx _ _ h1 e he with k | k
    · simpa [Ctx.touched, Function.comp_def] using k
    · simp [init] at k
  have hfast : ∀ e ∈ evs, ∀ i, e = .fast i → (ctxOf F size G target stamp junk tmp).isFast i = true := by
    rintro e he i rfl
    have := (runFrom_flags _ _ h1).1 i (mem_fasts he)
    obtain ⟨x, hx, hxe⟩ := List.mem_map.mp this
    obtain ⟨h3, h4⟩ := Prod.mk.inj hxe
    rw [← h3, ← canFast_eq hc hs hx]; exact h4
  have hsteps : (evs.flatMap ((ctxOf F size G target stamp junk tmp).eventSteps (opsOf size))).map dnStep =
      evs.flatMap (RCtx.eventSteps (H := Unit) (Δ := Unit) ⟨ds, target, stamp, junk, tmp⟩) := by
    rw [List.map_flatMap]
    apply List.flatMap_congr
    intro e he
    exact (steps_eq h hG hT ht (hidx e he) (hfast e he)).2
  have hon : ∀ s ∈ evs.flatMap ((ctxOf F size G target stamp junk tmp).eventSteps (opsOf size)), onDir s = true := by
    intro s hs'
    obtain ⟨e, he, hse⟩ := List.mem_flatMap.mp hs'
    exact (steps_eq h hG hT ht (hidx e he) (hfast e he)).1 s hse
  have hex := exec_dn hon he
  rw [hsteps] at hex
  have hst : dnState (ctxOf F size G target stamp junk tmp).st.mirror = (⟨target, [], [[]], [], []⟩ : State α A C S Unit Unit) := by
    simp [dnState, ctxOf, dnFiles_up]
  rw [hst] at hex
  refine ⟨dnFiles st'.mirror, ?_, ?_⟩
  · unfold RCtx.apply
    rw [hev]
    show Option.map _ (exec stamp _ _) = _
    rw [show exec stamp (evs.flatMap (RCtx.eventSteps (H := Unit) (Δ := Unit) ⟨ds, target, stamp, junk, tmp⟩)) ⟨target, [], [[]], [], []⟩ = _ from hex]
    rfl
  · intro i
    rw [get_dn, hb.mirror, Ctx.result]
    split
    · next hi =>
      have hdn : ∀ b (x : Option (Node A C S)), (x.map (up b)).map dn = x := by
        intro b x; cases x <;> simp
      unfold Ctx.fin
      split
      · next hf =>
        obtain ⟨hd, hn⟩ := fast_ok h hG hT ht hi hf
        rw [patch_eq h hG hT ht i hn, hd]
        simp only [if_true, hdn]
      · rcases filler_or_changed h hG hT ht hi with ⟨hfi, hd⟩ | ⟨hfi, hd⟩
        · rw [hfi, hd, src_eq]; simp [hdn]
        · rw [hfi, hd, mirror_eq]; simp [hdn]
    · next hi =>
      have hd : isDiff size F G target i = false := by
        by_contra hd
        apply hi
        have := (changed_eq (F := F) (size := size) (stamp := stamp) (junk := junk) (tmp := tmp) hG hT).2 i
        exact (hs.touched.2 i).mpr ⟨i, this.mpr (by simpa using hd), List.prefix_refl _⟩
      rw [hd, mirror_eq]
      cases get target i <;> simp

end main
end Verif.RestoreDir

namespace Verif.RestoreDir
open Verif.Repo Verif.Collate Verif.FillIn Verif.TreeReducer Verif.MetaChain Verif.JoinSpec Verif.NestingSpec
set_option linter.unusedSectionVars false
variable {α A C S H Δ L : Type} [LinearOrder α] [DecidableEq A] [DecidableEq S] [DecidableEq H] [DecidableEq L]
variable {o : Ops A C H Δ L} {rsv : α → Prop} {st : State α A C S H Δ} {hist : Hist α A C S}

theorem allSome_forall₂ {β : Type} {l : List (Option β)} {r : List β} (h : allSome l = some r) : List.Forall₂ (fun x y => x = some y) l r := by
  induction l generalizing r with
  | nil => cases h; exact .nil
  | cons x l ih =>
    cases x with
    | none => cases h
    | some x =>
      obtain ⟨r', h1, rfl⟩ := Option.map_eq_some_iff.mp h
      exact .cons rfl (ih h1)

/-- What is known about the records of the backup that is restored. -/
structure Records (o : Ops A C H Δ L) (st : State α A C S H Δ) (mt t' : Nat) (T : Files α (Node A C S)) (l : List (Rec (List α) (MRec A S H))) :
    Prop where
  describes : Describes o T l
  read : ∀ p : List α → Bool, metaAtTime st.metas t' p = some (l.filter fun r => p r.idx)
  one : ∀ r ∈ l, ∃ n, get T r.idx = some n ∧ restoreOne o st mt t' r = some (r.idx, n)

theorem records (h : Rep o rsv st hist) {t : Nat} {x : Nat × Files α (Node A C S)} (hx : chosen hist t = some x) :
    ∃ mt l, mirrorTime st = some (some mt) ∧ setRestoreTime (incrementTimes st mt) t = some x.1 ∧ IsTree rsv x.2 ∧ Records o st mt x.1 x.2 l := by
  rcases h with ⟨rfl, -⟩ | ⟨P, T0, rest, L0, mrest, rfl, hs, hc⟩
  · simp [chosen] at hx
  have hm := chosen_mem hx
  obtain ⟨⟨t', l⟩, hl, he, hdes⟩ := forall₂_mem_left hs.desc _ hm
  simp only at he hdes; subst he
  refine ⟨P.t0, l, by simp [mirrorTime, hc.marks], by rw [setRestoreTime_eq (incrementTimes_mem hs hc) hs.times, hx]; rfl, hs.trees _ hm, hdes,
    fun p => hc.metas.read hl p, ?_⟩
  obtain ⟨recs, h1, h2⟩ := restore_at hs hc (t := x.1) (T := x.2) hm []
  rw [hc.metas.read hl] at h1
  cases h1
  have hall := allSome_forall₂ h2
  intro r hr
  have hr' : restoreOne o st P.t0 x.1 r ∈ ((l.filter fun r => ([] : List α).isPrefixOf r.idx).map (restoreOne o st P.t0 x.1)) :=
    List.mem_map.mpr ⟨r, List.mem_filter.mpr ⟨hr, by simp⟩, rfl⟩
  obtain ⟨y, hy, hye⟩ := forall₂_mem_left hall _ hr'
  obtain ⟨m, hm'⟩ := Option.isSome_iff_exists.mp (hdes.listing.2 r hr)
  have hyi : y.1 = r.idx := by
    unfold restoreOne at hye
    rw [hm'] at hye
    cases m with
    | dir a => cases hye; rfl
    | other a s => cases hye; rfl
    | reg a sz h =>
      simp only at hye
      obtain ⟨c, -, rfl⟩ := Option.map_eq_some_iff.mp hye
      rfl
  refine ⟨y.2, ?_, by rw [hye, ← hyi]⟩
  rw [(hs.trees _ hm).get_iff, ← hyi]
  exact (List.mem_filter.mp hy).1

/-- the part of a tree below a directory -/
def below (sub : List α) (T : Files α (Node A C S)) : Files α (Node A C S) :=
  (T.filter fun x => sub.isPrefixOf x.1).map fun x => (x.1.drop sub.length, x.2)

theorem drop_of_prefix {sub i : List α} (h : sub <+: i) : sub ++ i.drop sub.length = i := by
  obtain ⟨r, rfl⟩ := h
  simp

theorem drop_lt {sub i j : List α} (hi : sub <+: i) (hj : sub <+: j) (h : i < j) : i.drop sub.length < j.drop sub.length := by
  obtain ⟨r, rfl⟩ := hi
  obtain ⟨r', rfl⟩ := hj
  simp only [List.drop_left]
  induction sub with
  | nil => exact h
  | cons x sub ih =>
    apply ih
    rw [List.cons_append, List.cons_append, List.cons_lt_cons_iff] at h
    rcases h with h | h
    · exact absurd h (lt_irrefl _)
    · exact h.2

theorem mem_below {sub : List α} {T : Files α (Node A C S)} {x : List α × Node A C S} : x ∈ below sub T ↔ (sub ++ x.1, x.2) ∈ T := by
  unfold below
  rw [List.mem_map]
  constructor
  · rintro ⟨y, hy, rfl⟩
    obtain ⟨h1, h2⟩ := List.mem_filter.mp hy
    rw [List.isPrefixOf_iff_prefix] at h2
    simp only [drop_of_prefix h2]
    exact h1
  · intro h
    refine ⟨_, List.mem_filter.mpr ⟨h, by simp [List.isPrefixOf_iff_prefix]⟩, by simp⟩

theorem below_ordered {sub : List α} {T : Files α (Node A C S)} (h : T.Pairwise (fun x y => x.1 < y.1)) :
    (below sub T).Pairwise (fun x y => x.1 < y.1) := by
  unfold below
  rw [List.pairwise_map]
  refine (h.filter _).imp_of_mem ?_
  intro x y hx hy hlt
  have h1 := (List.mem_filter.mp hx).2
  have h2 := (List.mem_filter.mp hy).2
  rw [List.isPrefixOf_iff_prefix] at h1 h2
  exact drop_lt h1 h2 hlt

theorem get_below {sub : List α} {T : Files α (Node A C S)} (h : T.Pairwise (fun x y => x.1 < y.1)) (i : List α) :
    get (below sub T) i = get T (sub ++ i) := by
  apply Option.ext
  intro n
  rw [get_mem (below_ordered h), get_mem h, mem_below]

theorem tree_below {sub : List α} {T : Files α (Node A C S)} (h : IsTree rsv T) (hd : isDirNode (get T sub) = true) : IsTree rsv (below sub T) := by
  refine ⟨below_ordered h.ordered, ?_, ?_, ?_⟩
  · cases hg : get T sub with
    | none => rw [hg] at hd; cases hd
    | some n =>
      cases n with
      | dir a => exact ⟨a, mem_below.mpr (by simpa using (h.get_iff _ _).mp hg)⟩
      | _ => rw [hg] at hd; cases hd
  · intro x hx hne
    obtain ⟨a, ha⟩ := h.parent _ (mem_below.mp hx) (by simp [hne])
    exact ⟨a, mem_below.mpr (by simpa [List.dropLast_append_of_ne_nil hne] using ha)⟩
  · intro x hx n hn
    exact h.names _ (mem_below.mp hx) n (by simp [hn])

/-- is a digest recorded? -/
def flag (l : List (Rec (List α) (MRec A S H))) (sub : List α) (i : List α) : Bool :=
  match recAt l (sub ++ i) with
  | some (.reg _ _ (some _)) => true
  | _ => false

theorem forall₂_filter_map {κ ρ β : Type} {R : κ → ρ → Prop} {ks : List κ} {rs : List ρ} {d : ρ → Bool} {d' : κ → Bool} {f : ρ → Option β} {g : κ → β}
    (h : List.Forall₂ R ks rs) (hd : ∀ k r, R k r → d r = d' k) (hf : ∀ k r, R k r → f r = some (g k)) :
    (rs.filter d).map f = ((ks.filter d').map g).map some := by
  induction h with
  | nil => rfl
  | @cons k r ks rs hr _ ih =>
    rw [List.filter_cons, List.filter_cons, hd _ _ hr]
    split
    · simp [ih, hf _ _ hr]
    · exact ih

theorem allSome_some {β : Type} (l : List β) : allSome (l.map some) = some l := by
  induction l with
  | nil => rfl
  | cons x l ih => simp [allSome, ih]

theorem subtract_mem {l : List (Rec (List α) (MRec A S H))} {sub : List α} {r : Rec (List α) (MRec A S H)} :
    r ∈ subtract sub (l.filter fun r => sub.isPrefixOf r.idx) ↔ ⟨sub ++ r.idx, r.data⟩ ∈ l := by
  unfold subtract
  rw [List.mem_map]
  constructor
  · rintro ⟨y, hy, rfl⟩
    obtain ⟨h1, h2⟩ := List.mem_filter.mp hy
    rw [List.isPrefixOf_iff_prefix] at h2
    simp only [drop_of_prefix h2]
    exact h1
  · intro h
    refine ⟨_, List.mem_filter.mpr ⟨h, by simp [List.isPrefixOf_iff_prefix]⟩, by simp⟩

/-- the diffs are the differences -/
theorem diffsOf_ok {mt t' : Nat} {T target : Files α (Node A C S)} {l : List (Rec (List α) (MRec A S H))} (hdes : Describes o T l)
    (hone : ∀ r ∈ l, ∃ n, get T r.idx = some n ∧ restoreOne o st mt t' r = some (r.idx, n))
    (hT : T.Pairwise (fun x y => x.1 < y.1)) (sub : List α) (htg : target.Pairwise (fun x y => x.1 < y.1)) :
    ∃ ds, diffsOf o st mt t' sub (l.filter fun r => sub.isPrefixOf r.idx) target = some ds ∧
      DiffsOK o.size (flag l sub) (below sub T) target ds := by
  have hord : Ordered Rec.idx (subtract sub (l.filter fun r => sub.isPrefixOf r.idx)) := by
    unfold subtract
    show List.Pairwise _ _
    rw [List.pairwise_map]
    refine ((show List.Pairwise _ _ from hdes.listing.1).filter _).imp_of_mem ?_
    intro x y hx hy hlt
    have h1 := (List.mem_filter.mp hx).2
    have h2 := (List.mem_filter.mp hy).2
    rw [List.isPrefixOf_iff_prefix] at h1 h2
    exact drop_lt h1 h2 hlt
  obtain ⟨ks, h1, h2, h3⟩ := C11.collate2_outer_join Rec.idx Prod.fst _ target hord htg
  have hG : ∀ i, get (below sub T) i = get T (sub ++ i) := get_below hT
  -- a record and its file
  have hrec : ∀ r ∈ subtract sub (l.filter fun r => sub.isPrefixOf r.idx), ∃ m n, r.data = some m ∧ recAt l (sub ++ r.idx) = some m ∧
      get T (sub ++ r.idx) = some n ∧ Desc o (some n) (some m) ∧ restoreOne o st mt t' ⟨sub ++ r.idx, r.data⟩ = some (sub ++ r.idx, n) := by
    intro r hx
    have hx' := subtract_mem.mp hx
    obtain ⟨m, hm⟩ := Option.isSome_iff_exists.mp (hdes.listing.2 _ hx')
    have hm : r.data = some m := hm
    obtain ⟨n, hn1, hn2⟩ := hone _ hx'
    have hra : recAt l (sub ++ r.idx) = some m := (find_mem hdes.listing _ m).mpr (by rw [← hm]; exact hx')
    refine ⟨m, n, hm, hra, hn1, ?_, hn2⟩
    have := hdes.desc (sub ++ r.idx)
    rw [hra, hn1] at this
    exact this
  have hnone : ∀ k, (¬ ∃ r ∈ subtract sub (l.filter fun r => sub.isPrefixOf r.idx), r.idx = k) → get T (sub ++ k) = none := by
    intro k hk
    cases hg : get T (sub ++ k) with
    | none => rfl
    | some n =>
      exfalso
      have hd := hdes.desc (sub ++ k)
      rw [hg] at hd
      cases hra : recAt l (sub ++ k) with
      | none => rw [hra] at hd; cases n <;> exact hd.elim
      | some m =>
        exact hk ⟨⟨k, some m⟩, subtract_mem.mpr ((find_mem hdes.listing _ m).mp hra), rfl⟩
  have htget : ∀ y ∈ target, get target y.1 = some y.2 := fun y hy => (get_mem htg y.1 y.2).mpr hy
  have htnone : ∀ k, (¬ ∃ y ∈ target, y.1 = k) → get target k = none := by
    intro k hk
    cases hg : get target k with
    | none => rfl
    | some n => exact absurd ((get_isSome_iff target k).mp (by rw [hg]; rfl)) hk
  have hdiff : ∀ k p, IsRow Rec.idx Prod.fst (subtract sub (l.filter fun r => sub.isPrefixOf r.idx)) target k p →
      differs o p = isDiff o.size (flag l sub) (below sub T) target k := by
    rintro k ⟨p1, p2⟩ ⟨g1, g2, g3⟩
    simp only at g1 g2 g3
    unfold isDiff
    rw [hG]
    cases p1 with
    | none =>
      have hn := hnone k (by rintro ⟨r, hr', he⟩; have := (g2 r).mpr ⟨hr', he⟩; cases this)
      rw [hn]
      cases p2 with
      | none => exact absurd rfl g1
      | some y =>
        obtain ⟨hy, rfl⟩ := (g3 y).mp rfl
        rw [htget y hy]; rfl
    | some r =>
      obtain ⟨hr', rfl⟩ := (g2 r).mp rfl
      obtain ⟨m, n, e1, e2, e3, e4, -⟩ := hrec r hr'
      rw [e3]
      cases p2 with
      | none => rw [htnone _ (by rintro ⟨y, hy, he⟩; have := (g3 y).mpr ⟨hy, he⟩; cases this)]; rfl
      | some y =>
        obtain ⟨hy, hye⟩ := (g3 y).mp rfl
        rw [← hye, htget y hy]
        simp only [differs, e1, flag, hye, e2]
        congr 1
        cases n with
        | dir a => cases m <;> first | exact e4.elim | (have e4 : _ = _ := e4; subst e4; cases y.2 <;> rfl)
        | other a s => cases m <;> first | exact e4.elim | (obtain ⟨rfl, rfl⟩ := e4; cases y.2 <;> rfl)
        | reg a x =>
          cases m with
          | reg a' sz h =>
            obtain ⟨rfl, rfl, -⟩ := e4
            cases y.2 <;> cases h <;> rfl
          | _ => exact e4.elim
  have hget : ∀ k p, IsRow Rec.idx Prod.fst (subtract sub (l.filter fun r => sub.isPrefixOf r.idx)) target k p →
      getDiff o st mt t' sub p = some (k, get (below sub T) k) := by
    rintro k ⟨p1, p2⟩ ⟨g1, g2, g3⟩
    simp only at g1 g2 g3
    rw [hG]
    cases p1 with
    | none =>
      have hn := hnone k (by rintro ⟨r, hr', he⟩; have := (g2 r).mpr ⟨hr', he⟩; cases this)
      rw [hn]
      cases p2 with
      | none => exact absurd rfl g1
      | some y =>
        obtain ⟨hy, rfl⟩ := (g3 y).mp rfl
        rfl
    | some r =>
      obtain ⟨hr', rfl⟩ := (g2 r).mp rfl
      obtain ⟨m, n, e1, e2, e3, e4, e5⟩ := hrec r hr'
      rw [e3]
      simp only [getDiff, e5, Option.map_some]
  refine ⟨(ks.filter (isDiff o.size (flag l sub) (below sub T) target)).map fun k => (k, get (below sub T) k), ?_, ?_, ?_, ?_⟩
  · unfold diffsOf
    rw [forall₂_filter_map h3 hdiff hget, allSome_some]
  · rw [List.map_map]
    show List.Pairwise _ (List.map (fun k => k) _)
    rw [List.map_id']
    exact h1.filter _
  · intro k
    rw [List.map_map]
    show k ∈ List.map (fun k => k) _ ↔ _
    rw [List.map_id', List.mem_filter]
    constructor
    · exact fun h => h.2
    · intro h
      refine ⟨?_, h⟩
      rw [h2]
      by_contra hcon
      rw [not_or] at hcon
      unfold isDiff at h
      rw [hG, hnone k hcon.1, htnone k hcon.2] at h
      cases h
  · intro x hx
    obtain ⟨k, -, rfl⟩ := List.mem_map.mp hx
    rfl

theorem getDiffs_ok {mt t' : Nat} {T target : Files α (Node A C S)} {l : List (Rec (List α) (MRec A S H))} (hr : Records o st mt t' T l)
    (hT : T.Pairwise (fun x y => x.1 < y.1)) (sub : List α) (htg : target.Pairwise (fun x y => x.1 < y.1)) :
    ∃ ds, getDiffs o st mt t' sub target = some ds ∧ DiffsOK o.size (flag l sub) (below sub T) target ds := by
  obtain ⟨ds, h1, h2⟩ := diffsOf_ok (st := st) hr.describes hr.one hT sub htg
  exact ⟨ds, by simp only [getDiffs, hr.read, h1], h2⟩

end Verif.RestoreDir
