import Verif.Model.Repo
import Verif.Proof.Index
import Mathlib.Data.List.Induction
/- Lemmas about the file system operations of `Model/Repo`. -/
namespace Verif.Repo
open Verif.Collate Verif.FillIn Verif.TreeReducer Verif.MetaChain
set_option linter.unusedSectionVars false
variable {α A C S H Δ L V : Type} [LinearOrder α]

theorem get_filter (m : Files α V) (p : List α → Bool) (i : List α) :
    get (m.filter (fun x => p x.1)) i = if p i then get m i else none := by
  induction m with
  | nil => simp [get]
  | cons x m ih =>
    obtain ⟨k, v⟩ := x
    by_cases hk : k = i
    · subst hk
      by_cases hp : p k <;> simp [get, hp, ih]
    · by_cases hp : p k <;> simp [get, hp, ih, hk]

theorem get_del (m : Files α V) (i j : List α) :
    get (del m i) j = if j = i then none else get m j := by
  rw [del]
  have := get_filter m (fun k => k ≠ i) j
  rw [this]; by_cases h : j = i <;> simp [h]

theorem get_put (m : Files α V) (i j : List α) (v : V) :
    get (put m i v) j = if j = i then some v else get m j := by
  have := get_del m i j
  rw [del] at this
  simp only [put, get, this]
  by_cases h : i = j
  · simp [h]
  · simp [h, Ne.symm h]

theorem get_delTree (m : Files α V) (i j : List α) :
    get (delTree m i) j = if i <+: j then none else get m j := by
  rw [delTree]
  have := get_filter m (fun k => !(i.isPrefixOf k)) j
  rw [this]
  by_cases h : i <+: j <;> simp [h, List.isPrefixOf_iff_prefix]

theorem get_isSome_iff (m : Files α V) (i : List α) : (get m i).isSome ↔ ∃ x ∈ m, x.1 = i := by
  induction m with
  | nil => simp [get]
  | cons x m ih =>
    obtain ⟨k, v⟩ := x
    by_cases hk : k = i <;> simp [get, hk, ih]

theorem isDirAt_iff (m : Files α (Node A C S)) (i : List α) :
    isDirAt m i = true ↔ ∃ a, get m i = some (.dir a) := by
  unfold isDirAt
  split
  · next a h => simp [h]
  · next h => simp only [Bool.false_eq_true, false_iff]; rintro ⟨a, ha⟩; exact h a ha

theorem get_touch (stamp : A) (m : Files α (Node A C S)) (p j : List α) :
    get (touch stamp m p) j = if j = p ∧ isDirAt m p = true then some (.dir stamp) else get m j := by
  unfold touch
  by_cases hd : isDirAt m p = true
  · simp [hd, get_put]
  · simp [hd]

theorem isDirAt_of_get {m m' : Files α (Node A C S)} {i j : List α} (h : get m' i = get m j) :
    isDirAt m' i = isDirAt m j := by simp [isDirAt, h]

theorem isDirAt_touch (stamp : A) (m : Files α (Node A C S)) (p j : List α) :
    isDirAt (touch stamp m p) j = isDirAt m j := by
  by_cases h : j = p ∧ isDirAt m p = true
  · rw [Bool.eq_iff_iff]
    constructor
    · intro _; rw [h.1]; exact h.2
    · intro _; rw [isDirAt_iff]; exact ⟨stamp, by rw [get_touch, if_pos h]⟩
  · apply isDirAt_of_get; rw [get_touch, if_neg h]

theorem dropLast_ne {i : List α} (h : i ≠ []) : i.dropLast ≠ i := by
  intro e
  have := congrArg List.length e
  rw [List.length_dropLast] at this
  have := List.length_pos_iff.mpr h
  omega

/-- increments of one path -/
def incsAt (st : State α A C S H Δ) (j : List α) : List (IncFile α A C S Δ) :=
  st.incs.filter (fun f => f.idx = j)

/-- `st'` differs from `st` in the mirror only, at most at `i` and in the attributes of directory `p` -/
structure Eff (st st' : State α A C S H Δ) (i p : List α) (v : Option (Node A C S)) : Prop where
  frame : ∀ j, j ≠ i → j ≠ p → get st'.mirror j = get st.mirror j
  at_i : get st'.mirror i = v
  parent : isDirAt st'.mirror p = true
  incs : st'.incs = st.incs
  incdirs : st'.incdirs = st.incdirs
  metas : st'.metas = st.metas
  marks : st'.marks = st.marks

theorem isDirAt_put (m : Files α (Node A C S)) (i j : List α) (v : Node A C S) :
    isDirAt (put m i v) j = if j = i then v.isDir else isDirAt m j := by
  by_cases h : j = i
  · subst h
    have : get (put m j v) j = some v := by simp [get_put]
    rw [isDirAt, this]; cases v <;> simp [Node.isDir]
  · rw [if_neg h]; apply isDirAt_of_get; rw [get_put, if_neg h]

theorem isDirAt_del (m : Files α (Node A C S)) (i j : List α) :
    isDirAt (del m i) j = if j = i then false else isDirAt m j := by
  by_cases h : j = i
  · subst h
    have : get (del m j) j = none := by simp [get_del]
    rw [isDirAt, this]; simp
  · rw [if_neg h]; apply isDirAt_of_get; rw [get_del, if_neg h]

theorem isDirAt_delTree (m : Files α (Node A C S)) (i j : List α) :
    isDirAt (delTree m i) j = if i <+: j then false else isDirAt m j := by
  by_cases h : i <+: j
  · have : get (delTree m i) j = none := by rw [get_delTree, if_pos h]
    rw [isDirAt, this]; simp [h]
  · rw [if_neg h]; apply isDirAt_of_get; rw [get_delTree, if_neg h]

theorem not_prefix_dropLast {i : List α} (h : i ≠ []) : ¬ i <+: i.dropLast := by
  intro e
  have := e.length_le
  rw [List.length_dropLast] at this
  have := List.length_pos_iff.mpr h
  omega

theorem apply_write (stamp : A) (st : State α A C S H Δ) (i : List α) (n : Node A C S)
    (hi : i ≠ []) (hp : isDirAt st.mirror i.dropLast = true) (hd : isDirAt st.mirror i = false)
    (hn : n.isDir = false) :
    ∃ st', apply stamp (.write i n) st = some st' ∧ Eff st st' i i.dropLast (some n) := by
  have hne := dropLast_ne hi
  refine ⟨_, by rw [apply, if_pos ⟨hi, hp, by simp [hd], hn⟩], ?_⟩
  constructor
  · intro j h1 h2
    simp only [get_put, if_neg h1]
    split
    · rw [get_touch, if_neg (fun h => h2 h.1)]
    · rfl
  · simp [get_put]
  · simp only
    rw [isDirAt_put, if_neg hne]
    split
    · rw [isDirAt_touch, hp]
    · exact hp
  all_goals rfl

theorem apply_chattr (stamp : A) (st : State α A C S H Δ) (i : List α) (n : Node A C S) (a : A)
    (h : get st.mirror i = some n) :
    ∃ st', apply stamp (.chattr i a) st = some st' ∧
      (∀ j, j ≠ i → get st'.mirror j = get st.mirror j) ∧ get st'.mirror i = some (n.setAttr a) ∧
      st'.incs = st.incs ∧ st'.incdirs = st.incdirs ∧ st'.metas = st.metas ∧ st'.marks = st.marks := by
  refine ⟨{ st with mirror := put st.mirror i (n.setAttr a) }, by rw [apply, h], ?_, ?_, rfl, rfl, rfl, rfl⟩
  · intro j hj; simp [get_put, hj]
  · simp [get_put]

theorem apply_mkdir (stamp : A) (st : State α A C S H Δ) (i : List α)
    (hi : i ≠ []) (hp : isDirAt st.mirror i.dropLast = true) (hd : get st.mirror i = none) :
    ∃ st', apply stamp (.mkdir i) st = some st' ∧ Eff st st' i i.dropLast (some (.dir stamp)) := by
  have hne := dropLast_ne hi
  refine ⟨_, by rw [apply, if_pos ⟨hi, by simp [hd], hp⟩], ?_⟩
  constructor
  · intro j h1 h2
    simp only [get_put, if_neg h1, get_touch, if_neg (fun h : j = i.dropLast ∧ _ => h2 h.1)]
  · simp [get_put]
  · simp only
    rw [isDirAt_put, if_neg hne, isDirAt_touch, hp]
  all_goals rfl

theorem apply_rename (stamp : A) (st : State α A C S H Δ) (i j : List α) (n : Node A C S)
    (hi : i ≠ []) (hj : j ≠ []) (hij : i ≠ j) (he : i.dropLast = j.dropLast)
    (hg : get st.mirror i = some n) (hn : n.isDir = false)
    (hp : isDirAt st.mirror j.dropLast = true) (hd : isDirAt st.mirror j = false) :
    ∃ st', apply stamp (.rename i j) st = some st' ∧
      (∀ k, k ≠ i → k ≠ j → k ≠ j.dropLast → get st'.mirror k = get st.mirror k) ∧
      get st'.mirror i = none ∧ get st'.mirror j = some n ∧ isDirAt st'.mirror j.dropLast = true ∧
      st'.incs = st.incs ∧ st'.incdirs = st.incdirs ∧ st'.metas = st.metas ∧ st'.marks = st.marks := by
  have hne := dropLast_ne hj
  have hne' : j.dropLast ≠ i := by rw [← he]; exact dropLast_ne hi
  refine ⟨{ st with mirror := put (del (touch stamp st.mirror j.dropLast) i) j n },
    by rw [apply, hg]; simp only; rw [if_pos ⟨hi, hj, hij, he, hn, by simp [hd]⟩], ?_, ?_, ?_, ?_,
    rfl, rfl, rfl, rfl⟩
  · intro k h1 h2 h3
    simp only [get_put, if_neg h2, get_del, if_neg h1, get_touch, if_neg (fun h : k = j.dropLast ∧ _ => h3 h.1)]
  · simp [get_put, hij, get_del]
  · simp [get_put]
  · simp only
    rw [isDirAt_put, if_neg hne, isDirAt_del, if_neg hne', isDirAt_touch, hp]

theorem apply_rmdir (stamp : A) (st : State α A C S H Δ) (i : List α)
    (hi : i ≠ []) (hp : isDirAt st.mirror i.dropLast = true) (hd : isDirAt st.mirror i = true)
    (he : ∀ j, i <+: j → j ≠ i → get st.mirror j = none) :
    ∃ st', apply stamp (.rmdir i) st = some st' ∧ Eff st st' i i.dropLast none := by
  have hne := dropLast_ne hi
  have hall : ∀ x ∈ st.mirror, i <+: x.1 → x.1 = i := by
    intro x hx hpre
    by_contra hc
    have h1 := he x.1 hpre hc
    have h2 := (get_isSome_iff st.mirror x.1).mpr ⟨x, hx, rfl⟩
    rw [h1] at h2; simp at h2
  refine ⟨_, by rw [apply, if_pos ⟨hi, hd, hall⟩], ?_⟩
  constructor
  · intro j h1 h2
    simp only [get_del, if_neg h1, get_touch, if_neg (fun h : j = i.dropLast ∧ _ => h2 h.1)]
  · simp [get_del]
  · simp only
    rw [isDirAt_del, if_neg hne, isDirAt_touch, hp]
  all_goals rfl

theorem apply_delete (stamp : A) (st : State α A C S H Δ) (i : List α)
    (hi : i ≠ []) (hp : isDirAt st.mirror i.dropLast = true) (hd : (get st.mirror i).isSome = true) :
    ∃ st', apply stamp (.delete i) st = some st' ∧
      (∀ j, j ≠ i.dropLast → get st'.mirror j = if i <+: j then none else get st.mirror j) ∧
      isDirAt st'.mirror i.dropLast = true ∧
      st'.incs = st.incs ∧ st'.incdirs = st.incdirs ∧ st'.metas = st.metas ∧ st'.marks = st.marks := by
  refine ⟨{ st with mirror := delTree (touch stamp st.mirror i.dropLast) i },
    by rw [apply, if_pos ⟨hi, hd⟩], ?_, ?_, rfl, rfl, rfl, rfl⟩
  · intro j h2
    simp only [get_delTree, get_touch, if_neg (fun h : j = i.dropLast ∧ _ => h2 h.1)]
  · simp only
    rw [isDirAt_delTree, if_neg (not_prefix_dropLast hi), isDirAt_touch, hp]

/-- deleting something which has nothing below it -/
theorem apply_delete_leaf (stamp : A) (st : State α A C S H Δ) (i : List α)
    (hi : i ≠ []) (hp : isDirAt st.mirror i.dropLast = true) (hd : (get st.mirror i).isSome = true)
    (he : ∀ j, i <+: j → j ≠ i → get st.mirror j = none) :
    ∃ st', apply stamp (.delete i) st = some st' ∧ Eff st st' i i.dropLast none := by
  obtain ⟨st', h1, h2, h3, h4, h5, h6, h7⟩ := apply_delete stamp st i hi hp hd
  refine ⟨st', h1, ?_, ?_, h3, h4, h5, h6, h7⟩
  · intro j hj hjp
    rw [h2 j hjp]
    split
    · next h => rw [he j h hj]
    · rfl
  · rw [h2 i (dropLast_ne hi).symm, if_pos (List.prefix_refl i)]

/-! ### Closedness is kept by every operation -/

/-- everything but the root is in a directory -/
def Closed (m : Files α (Node A C S)) : Prop :=
  ∀ i, i ≠ [] → (get m i).isSome = true → isDirAt m i.dropLast = true

theorem Closed.below {m : Files α (Node A C S)} (h : Closed m) {i j : List α} (hp : i <+: j) (hne : i ≠ j)
    (hj : (get m j).isSome = true) : isDirAt m i = true := by
  obtain ⟨t, rfl⟩ := hp
  induction t using List.reverseRecOn with
  | nil => simp at hne
  | append_singleton t x ih =>
    have hd := h (i ++ (t ++ [x])) (by simp) hj
    rw [← List.append_assoc, List.dropLast_concat] at hd
    by_cases ht : t = []
    · subst ht; simpa using hd
    · refine ih ?_ ?_
      · simpa using ht
      · rw [isDirAt_iff] at hd; obtain ⟨a, ha⟩ := hd; simp [ha]

theorem Closed.none_below {m : Files α (Node A C S)} (h : Closed m) {i : List α} (hd : isDirAt m i = false) :
    ∀ j, i <+: j → j ≠ i → get m j = none := by
  intro j hp hne
  by_contra hc
  have := h.below hp (Ne.symm hne) (by simpa [Option.isSome_iff_ne_none] using hc)
  rw [hd] at this; simp at this

/-- file-system well-formedness: the tree is closed under parents, the root is a directory, the same for the
increments directory, and every increment file is in an existing directory. -/
structure FsWF (st : State α A C S H Δ) : Prop where
  closed : Closed st.mirror
  root : isDirAt st.mirror [] = true
  incroot : [] ∈ st.incdirs
  incclosed : ∀ i ∈ st.incdirs, i.dropLast ∈ st.incdirs
  incparent : ∀ f ∈ st.incs, f.idx.dropLast ∈ st.incdirs

theorem closed_put {m : Files α (Node A C S)} {i : List α} {v : Node A C S} (h : Closed m) 
    (hp : i ≠ [] → isDirAt m i.dropLast = true) (hd : isDirAt m i = true → v.isDir = true) :
    Closed (put m i v) := by
  intro j hj hs
  rw [isDirAt_put]
  have hdir : isDirAt m j.dropLast = true := by
    by_cases e : j = i
    · subst e; exact hp hj
    · rw [get_put, if_neg e] at hs; exact h j hj hs
  split
  · next e => exact hd (e ▸ hdir)
  · exact hdir

theorem closed_touch {m : Files α (Node A C S)} (h : Closed m) (stamp : A) (p : List α) :
    Closed (touch stamp m p) := by
  intro j hj hs
  rw [isDirAt_touch]
  apply h j hj
  rw [get_touch] at hs
  split at hs
  · next e => rw [e.1]; obtain ⟨a, ha⟩ := (isDirAt_iff m p).mp e.2; simp [ha]
  · exact hs

theorem closed_del {m : Files α (Node A C S)} {i : List α} (h : Closed m)
    (he : ∀ j, i <+: j → j ≠ i → get m j = none) : Closed (del m i) := by
  intro j hj hs
  rw [get_del] at hs
  by_cases e : j = i
  · simp [e] at hs
  · rw [if_neg e] at hs
    rw [isDirAt_del, if_neg, h j hj hs]
    intro e'
    have := he j (e' ▸ List.dropLast_prefix j) e
    rw [this] at hs; simp at hs

theorem closed_delTree {m : Files α (Node A C S)} {i : List α} (h : Closed m) : Closed (delTree m i) := by
  intro j hj hs
  rw [get_delTree] at hs
  by_cases e : i <+: j
  · simp [e] at hs
  · rw [if_neg e] at hs
    rw [isDirAt_delTree, if_neg, h j hj hs]
    intro e'
    exact e (e'.trans (List.dropLast_prefix j))

theorem apply_fsWF {stamp : A} {s : Step α A C S H Δ} {st st' : State α A C S H Δ}
    (ha : apply stamp s st = some st') (h : FsWF st) : FsWF st' := by
  obtain ⟨h1, h2, h3, h4, h5⟩ := h
  cases s with
  | write i n =>
    rw [apply] at ha
    split at ha
    · next hc =>
      obtain ⟨hi, hp, hd, hn⟩ := hc
      simp only [Option.some.injEq] at ha; subst ha
      refine ⟨closed_put ?_ ?_ ?_, ?_, h3, h4, h5⟩
      · split
        · exact closed_touch h1 _ _
        · exact h1
      · intro _; split
        · rw [isDirAt_touch]; exact hp
        · exact hp
      · intro hd'; exfalso; apply hd
        split at hd'
        · rw [isDirAt_touch] at hd'; exact hd'
        · exact hd'
      · simp only
        rw [isDirAt_put, if_neg (Ne.symm hi)]
        split
        · rw [isDirAt_touch]; exact h2
        · exact h2
    · cases ha
  | rename i j =>
    rw [apply] at ha
    split at ha
    · cases ha
    · next n hg =>
      split at ha
      · next hc =>
        obtain ⟨hi, hj, hij, he, hn, hd⟩ := hc
        simp only [Option.some.injEq] at ha; subst ha
        have hid : isDirAt st.mirror i = false := by
          rw [isDirAt, hg]; cases n <;> simp_all [Node.isDir]
        have hc1 : Closed (del (touch stamp st.mirror j.dropLast) i) := by
          apply closed_del (closed_touch h1 _ _)
          exact (closed_touch h1 _ _).none_below (by rw [isDirAt_touch]; exact hid)
        refine ⟨closed_put hc1 ?_ ?_, ?_, h3, h4, h5⟩
        · intro _
          rw [isDirAt_del, if_neg (by rw [← he]; exact dropLast_ne hi), isDirAt_touch, ← he]
          exact h1 i hi (by simp [hg])
        · intro hd'; exfalso; apply hd
          rw [isDirAt_del, if_neg (Ne.symm hij), isDirAt_touch] at hd'; exact hd'
        · simp only
          rw [isDirAt_put, if_neg (Ne.symm hj), isDirAt_del, if_neg (Ne.symm hi), isDirAt_touch]; exact h2
      · cases ha
  | delete i =>
    rw [apply] at ha
    split at ha
    · next hc =>
      simp only [Option.some.injEq] at ha; subst ha
      refine ⟨closed_delTree (closed_touch h1 _ _), ?_, h3, h4, h5⟩
      simp only
      rw [isDirAt_delTree, if_neg (by simpa using hc.1), isDirAt_touch]; exact h2
    · cases ha
  | mkdir i =>
    rw [apply] at ha
    split at ha
    · next hc =>
      simp only [Option.some.injEq] at ha; subst ha
      refine ⟨closed_put (closed_touch h1 _ _) ?_ (by simp [Node.isDir]), ?_, h3, h4, h5⟩
      · intro _; rw [isDirAt_touch]; exact hc.2.2
      · simp only
        rw [isDirAt_put, if_neg (Ne.symm hc.1), isDirAt_touch]; exact h2
    · cases ha
  | rmdir i =>
    rw [apply] at ha
    split at ha
    · next hc =>
      simp only [Option.some.injEq] at ha; subst ha
      refine ⟨closed_del (closed_touch h1 _ _) ?_, ?_, h3, h4, h5⟩
      · intro j hp hne
        by_contra hcon
        have hsome : (get st.mirror j).isSome = true := by
          rw [get_touch] at hcon
          split at hcon
          · next e =>
            exfalso
            rw [e.1] at hp
            exact not_prefix_dropLast hc.1 hp
          · simpa [Option.isSome_iff_ne_none] using hcon
        obtain ⟨x, hx, rfl⟩ := (get_isSome_iff _ _).mp hsome
        exact hne (hc.2.2 x hx hp)
      · simp only
        rw [isDirAt_del, if_neg (Ne.symm hc.1), isDirAt_touch]; exact h2
    · cases ha
  | chattr i a =>
    rw [apply] at ha
    split at ha
    · cases ha
    · next n hg =>
      simp only [Option.some.injEq] at ha; subst ha
      have hk : ∀ n : Node A C S, (n.setAttr a).isDir = n.isDir := by intro n; cases n <;> rfl
      have hdn : isDirAt st.mirror i = n.isDir := by rw [isDirAt, hg]; cases n <;> rfl
      refine ⟨closed_put h1 ?_ ?_, ?_, h3, h4, h5⟩
      · intro hi; exact h1 i hi (by simp [hg])
      · rw [hk, hdn]; exact id
      · simp only; rw [isDirAt_put]
        split
        · next e => subst e; rw [hk, ← hdn]; exact h2
        · exact h2
  | mkIncDir i =>
    rw [apply] at ha
    split at ha
    · next hc =>
      simp only [Option.some.injEq] at ha; subst ha
      refine ⟨h1, h2, by simp [h3], ?_, fun f hf => by simp [h5 f hf]⟩
      intro j hj
      rcases List.mem_cons.mp hj with rfl | hj
      · simp [hc.2.1]
      · simp [h4 j hj]
    · cases ha
  | newInc f =>
    rw [apply] at ha
    split at ha
    · next hc =>
      simp only [Option.some.injEq] at ha; subst ha
      refine ⟨h1, h2, h3, h4, ?_⟩
      intro g hg
      rcases List.mem_cons.mp hg with rfl | hg
      · rcases hc.1 with e | e
        · rw [e]; exact h3
        · exact e
      · exact h5 g hg
    · cases ha
  | fillInc f =>
    rw [apply] at ha
    simp only [Option.some.injEq] at ha; subst ha
    refine ⟨h1, h2, h3, h4, ?_⟩
    intro g hg
    obtain ⟨g', hg', rfl⟩ := List.mem_map.mp hg
    split
    · next e => rw [← e.1]; exact h5 g' hg'
    · exact h5 g' hg'
  | delInc i t =>
    rw [apply] at ha
    simp only [Option.some.injEq] at ha; subst ha
    exact ⟨h1, h2, h3, h4, fun g hg => h5 g (List.mem_filter.mp hg).1⟩
  | putMeta f => rw [apply] at ha; simp only [Option.some.injEq] at ha; subst ha; exact ⟨h1, h2, h3, h4, h5⟩
  | delMeta t b => rw [apply] at ha; simp only [Option.some.injEq] at ha; subst ha; exact ⟨h1, h2, h3, h4, h5⟩
  | mark t =>
    rw [apply] at ha
    split at ha
    · cases ha
    · simp only [Option.some.injEq] at ha; subst ha; exact ⟨h1, h2, h3, h4, h5⟩
  | unmark t => rw [apply] at ha; simp only [Option.some.injEq] at ha; subst ha; exact ⟨h1, h2, h3, h4, h5⟩

/-! ### Running operations, with a condition that holds at every moment -/

/-- All operations succeed, `I` holds before, between and after them, `Q` holds at the end. -/
def Safe (stamp : A) (I : State α A C S H Δ → Prop) :
    List (Step α A C S H Δ) → State α A C S H Δ → (State α A C S H Δ → Prop) → Prop
  | [], st, Q => I st ∧ Q st
  | s :: ss, st, Q => I st ∧ ∃ st', apply stamp s st = some st' ∧ Safe stamp I ss st' Q

theorem Safe.pre {stamp : A} {I} {ss : List (Step α A C S H Δ)} {st Q} (h : Safe stamp I ss st Q) : I st := by
  cases ss <;> exact h.1

theorem Safe.append {stamp : A} {I} {a b : List (Step α A C S H Δ)} {st} {Q Q' : State α A C S H Δ → Prop}
    (h : Safe stamp I a st Q) (hb : ∀ st', I st' → Q st' → Safe stamp I b st' Q') : Safe stamp I (a ++ b) st Q' := by
  induction a generalizing st with
  | nil => exact hb st h.1 h.2
  | cons s a ih =>
    obtain ⟨h1, st', h2, h3⟩ := h
    exact ⟨h1, st', h2, ih h3⟩

theorem Safe.weaken {stamp : A} {I} {a : List (Step α A C S H Δ)} {st} {Q Q' : State α A C S H Δ → Prop}
    (h : Safe stamp I a st Q) (hb : ∀ st', I st' → Q st' → Q' st') : Safe stamp I a st Q' := by
  have := h.append (b := []) (Q' := Q') (fun st' hi hq => ⟨hi, hb st' hi hq⟩)
  simpa using this

theorem Safe.exec {stamp : A} {I} {a : List (Step α A C S H Δ)} {st} {Q : State α A C S H Δ → Prop}
    (h : Safe stamp I a st Q) : ∃ st', Repo.exec stamp a st = some st' ∧ Q st' ∧ I st' := by
  induction a generalizing st with
  | nil => exact ⟨st, rfl, h.2, h.1⟩
  | cons s a ih =>
    obtain ⟨h1, st', h2, h3⟩ := h
    obtain ⟨st'', h4, h5⟩ := ih h3
    exact ⟨st'', by rw [Repo.exec, h2]; exact h4, h5⟩

/-- the condition holds after any number of operations -/
theorem Safe.take {stamp : A} {I} {a : List (Step α A C S H Δ)} {st} {Q : State α A C S H Δ → Prop}
    (h : Safe stamp I a st Q) (n : Nat) : ∃ st', Repo.exec stamp (a.take n) st = some st' ∧ I st' := by
  induction a generalizing st n with
  | nil => exact ⟨st, by simp [Repo.exec], h.1⟩
  | cons s a ih =>
    obtain ⟨h1, st', h2, h3⟩ := h
    cases n with
    | zero => exact ⟨st, by simp [Repo.exec], h1⟩
    | succ n =>
      obtain ⟨st'', h4, h5⟩ := ih h3 n
      exact ⟨st'', by rw [List.take_succ_cons, Repo.exec, h2]; exact h4, h5⟩

theorem Safe.cons {stamp : A} {I} {s : Step α A C S H Δ} {a : List (Step α A C S H Δ)} {st st'}
    {Q : State α A C S H Δ → Prop} (hi : I st) (ha : apply stamp s st = some st')
    (h : Safe stamp I a st' Q) : Safe stamp I (s :: a) st Q := ⟨hi, st', ha, h⟩

theorem Safe.imp {stamp : A} {I J : State α A C S H Δ → Prop} {a : List (Step α A C S H Δ)} {st}
    {Q : State α A C S H Δ → Prop}
    (h : Safe stamp I a st Q) (hij : ∀ s, I s → J s) : Safe stamp J a st Q := by
  induction a generalizing st with
  | nil => exact ⟨hij _ h.1, h.2⟩
  | cons s a ih => obtain ⟨h1, st', h2, h3⟩ := h; exact ⟨hij _ h1, st', h2, ih h3⟩

theorem Safe.fsWF {stamp : A} {I : State α A C S H Δ → Prop} {a : List (Step α A C S H Δ)} {st}
    {Q : State α A C S H Δ → Prop}
    (h : Safe stamp I a st Q) (hw : FsWF st) :
    Safe stamp (fun s => I s ∧ FsWF s) a st (fun s => Q s) := by
  induction a generalizing st with
  | nil => exact ⟨⟨h.1, hw⟩, h.2⟩
  | cons s a ih => obtain ⟨h1, st', h2, h3⟩ := h; exact ⟨⟨h1, hw⟩, st', h2, ih h3 (apply_fsWF h2 hw)⟩

end Verif.Repo
