import Verif.Model.RepoStats
import Verif.Props.C41
import Verif.Props.C01
/-
C41 for whole sessions: what the statistics of a backup say about the source and the previous backup.
-/
namespace Verif.Repo
open Verif.Collate Verif.FillIn Verif.TreeReducer Verif.MetaChain Verif.JoinSpec
set_option linter.unusedSectionVars false
variable {α A C S H Δ L : Type} [LinearOrder α] [DecidableEq A] [DecidableEq S] [DecidableEq H] [DecidableEq L]
variable {o : Ops A C H Δ L} {rsv : α → Prop} {st : State α A C S H Δ} {hist : Hist α A C S}

/-! ## Specification -/

/-- size of a file: only regular files have one -/
def sizeOf (o : Ops A C H Δ L) : Option (Node A C S) → Nat
  | some (.reg _ x) => o.size x
  | _ => 0

/-- The two versions of a file look the same: type, attributes, size or target. -/
def looksSame (o : Ops A C H Δ L) : Option (Node A C S) → Option (Node A C S) → Bool
  | some (.dir a), some (.dir a') => a = a'
  | some (.reg a x), some (.reg a' x') => a = a' && o.size x == o.size x'
  | some (.other a s), some (.other a' s') => a = a' && s = s'
  | _, _ => false

/-- The transfer of the file fails: it is needed, not about a directory and something goes wrong. -/
def lost (o : Ops A C H Δ L) (s : Sess α A C S H Δ) (old : Files α (Node A C S)) (k : List α) : Bool :=
  !looksSame o (get s.src k) (get old k) && s.fails k && (get s.src k).isSome && !isDirNode (get s.src k) &&
    !isDirNode (get old k)

/-- the number of files and bytes of the tree at the paths that satisfy `q` -/
def files (T : Files α (Node A C S)) (q : List α → Bool) : Nat := (T.filter (fun x => q x.1)).length
def bytesAt (o : Ops A C H Δ L) (T : Files α (Node A C S)) (q : List α → Bool) : Nat :=
  ((T.filter (fun x => q x.1)).map (fun x => sizeOf o (some x.2))).sum

/-- Is a path reported as changed? It looks different and was transferred; or something below it looks different, and it
happens to be still in the cache (`cached`). -/
def reported (o : Ops A C H Δ L) (s : Sess α A C S H Δ) (old : Files α (Node A C S)) (cached : List α → Bool) (k : List α) : Bool :=
  if looksSame o (get s.src k) (get old k) then
    cached k && (s.src.map Prod.fst ++ old.map Prod.fst).any (fun x => k.isPrefixOf x && !looksSame o (get s.src x) (get old x))
  else !lost o s old k

/-- The statistics of a session from `old` to `s.src`. -/
structure StatsOf (o : Ops A C H Δ L) (s : Sess α A C S H Δ) (old : Files α (Node A C S)) (cached : List α → Bool)
    (t : SStats.Totals) : Prop where
  sourceFiles : t.sourceFiles = files s.src (fun k => !lost o s old k)
  sourceFileSize : t.sourceFileSize = bytesAt o s.src (fun k => !lost o s old k)
  mirrorFiles : t.mirrorFiles = files old (fun k => !lost o s old k)
  mirrorFileSize : t.mirrorFileSize = bytesAt o old (fun k => !lost o s old k)
  newFiles : t.newFiles = files s.src (fun k => !lost o s old k && (get old k).isNone)
  newFileSize : t.newFileSize = bytesAt o s.src (fun k => !lost o s old k && (get old k).isNone)
  deletedFiles : t.deletedFiles = files old (fun k => (get s.src k).isNone)
  deletedFileSize : t.deletedFileSize = bytesAt o old (fun k => (get s.src k).isNone)
  changedFiles : t.changedFiles = files s.src (fun k => (get old k).isSome && reported o s old cached k)
  changedSourceSize : t.changedSourceSize = bytesAt o s.src (fun k => (get old k).isSome && reported o s old cached k)
  changedMirrorSize : t.changedMirrorSize = bytesAt o old (fun k => (get s.src k).isSome && reported o s old cached k)
  errors : t.errors = 0

/-! ## Proof -/

theorem total_map {β γ : Type} (l : List β) (g : β → γ) (q : γ → Bool) (f : γ → Nat) :
    SStats.total (l.map g) q f = ((l.filter (fun x => q (g x))).map (fun x => f (g x))).sum := by
  unfold SStats.total
  rw [List.filter_map, List.map_map]; rfl

theorem sum_filter_some {κ : Type} (ks : List κ) (q p : κ → Bool) (f : κ → Nat) (hf : ∀ k, p k = false → f k = 0) :
    ((ks.filter q).map f).sum = ((ks.filter (fun k => p k && q k)).map f).sum := by
  induction ks with
  | nil => rfl
  | cons k ks ih =>
    by_cases hq : q k <;> by_cases hp : p k
    · simp [hq, hp, ih]
    · simp [hq, hp, ih, hf k (by simpa using hp)]
    · simp [hq, ih]
    · simp [hq, ih]

theorem keys_of {T : Files α (Node A C S)} {ks : List (List α)} (hT : T.Pairwise (fun x y => x.1 < y.1))
    (hks : ks.Pairwise (· < ·)) (hsub : ∀ k, (get T k).isSome = true → k ∈ ks) :
    ks.filter (fun k => (get T k).isSome) = T.map Prod.fst := by
  apply C12.sorted_unique (hks.filter _) (List.pairwise_map.mpr hT)
  intro k
  rw [List.mem_filter, List.mem_map]
  constructor
  · rintro ⟨-, h⟩
    obtain ⟨n, hn⟩ := Option.isSome_iff_exists.mp h
    exact ⟨(k, n), (get_mem hT k n).mp hn, rfl⟩
  · rintro ⟨x, hx, rfl⟩
    have : get T x.1 = some x.2 := (get_mem hT x.1 x.2).mpr hx
    have hs : (get T x.1).isSome = true := by rw [this]; rfl
    exact ⟨hsub _ hs, hs⟩

theorem sum_keys {T : Files α (Node A C S)} {ks : List (List α)} (hT : T.Pairwise (fun x y => x.1 < y.1))
    (hks : ks.Pairwise (· < ·)) (hsub : ∀ k, (get T k).isSome = true → k ∈ ks) (q : List α → Bool) (f : Option (Node A C S) → Nat)
    (hf : f none = 0) :
    ((ks.filter q).map (fun k => f (get T k))).sum = ((T.filter (fun x => q x.1)).map (fun x => f (some x.2))).sum := by
  rw [sum_filter_some ks q (fun k => (get T k).isSome) _ (by
    intro k hk
    have : get T k = none := by simpa using hk
    rw [this, hf])]
  have e : ks.filter (fun k => (get T k).isSome && q k) = (T.filter (fun x => q x.1)).map Prod.fst := by
    have h1 : ks.filter (fun k => (get T k).isSome && q k) = (ks.filter (fun k => (get T k).isSome)).filter q := by
      rw [List.filter_filter]
      exact List.filter_congr (fun k _ => Bool.and_comm _ _)
    rw [h1, keys_of hT hks hsub, List.filter_map]; rfl
  rw [e, List.map_map]
  congr 1
  apply List.map_congr_left
  intro x hx
  have : get T x.1 = some x.2 := (get_mem hT x.1 x.2).mpr (List.mem_of_mem_filter hx)
  simp only [Function.comp, this]

theorem count_keys {T : Files α (Node A C S)} {ks : List (List α)} (hT : T.Pairwise (fun x y => x.1 < y.1))
    (hks : ks.Pairwise (· < ·)) (hsub : ∀ k, (get T k).isSome = true → k ∈ ks) (q : List α → Bool) :
    ks.countP (fun k => (get T k).isSome && q k) = files T q := by
  have := sum_keys hT hks hsub q (fun n => if n.isSome then 1 else 0) rfl
  unfold files
  have e1 : ∀ l : List (List α), (l.map (fun k => if (get T k).isSome then 1 else 0)).sum = l.countP (fun k => (get T k).isSome) := by
    intro l
    induction l with
    | nil => rfl
    | cons k l ih => rw [List.map_cons, List.sum_cons, ih, List.countP_cons]; omega
  rw [e1, List.countP_filter] at this
  rw [this]
  simp

/-- what the session sees of the previous backup -/
structure Seen (o : Ops A C H Δ L) (c : Ctx α A C S H Δ) (old : Files α (Node A C S)) : Prop where
  sorted : Sorted c
  ordered : old.Pairwise (fun x y => x.1 < y.1)
  desc : ∀ k, Desc o (get old k) (c.dst k)
  mirror : ∀ k, (c.dst k).isSome = (c.mirror k).isSome

variable {c : Ctx α A C S H Δ} {old : Files α (Node A C S)}

theorem changedPair_desc {n t : Option (Node A C S)} {r : Option (MRec A S H)} (h : Desc o t r) :
    changedPair o n r = !looksSame o n t := by
  cases t with
  | none =>
    cases r with
    | none => cases n with
      | none => rfl
      | some n => cases n <;> rfl
    | some r => exact h.elim
  | some t =>
    cases r with
    | none => cases t <;> exact h.elim
    | some r =>
      cases n with
      | none => rfl
      | some n =>
        cases t <;> cases r <;> first | exact h.elim | skip
        · cases h; cases n <;> rfl
        · obtain ⟨h1, h2, h3⟩ := h; subst h1 h2; cases n <;> rfl
        · obtain ⟨h1, h2⟩ := h; subst h1 h2; cases n <;> rfl

theorem isSome_desc {t : Option (Node A C S)} {r : Option (MRec A S H)} (h : Desc o t r) : r.isSome = t.isSome := by
  cases t with
  | none => cases r <;> first | rfl | exact h.elim
  | some t => cases r <;> first | rfl | (cases t <;> exact h.elim)

theorem bytes_src (n : Option (Node A C S)) : SStats.bytes (n.map (statFile o)) = sizeOf o n := by
  rcases n with _ | (_ | _ | _) <;> rfl

theorem bytes_dst {t : Option (Node A C S)} {r : Option (MRec A S H)} (h : Desc o t r) :
    SStats.bytes (r.map statRec) = sizeOf o t := by
  cases t with
  | none => cases r <;> first | rfl | exact h.elim
  | some t =>
    cases r with
    | none => cases t <;> exact h.elim
    | some r =>
      cases t <;> cases r <;> first | exact h.elim | rfl | skip
      exact h.2.1

theorem Seen.filler (h : Seen o c old) {k : List α} (hk : looksSame o (c.src k) (get old k) = true) :
    c.isFiller o k = (c.s.src.map Prod.fst ++ old.map Prod.fst).any
      (fun x => k.isPrefixOf x && !looksSame o (get c.s.src x) (get old x)) := by
  rw [Bool.eq_iff_iff]
  have hnc : k ∉ c.changed o := by
    intro hm
    have := ((h.sorted.changed (o := o)).2 k).mp hm
    rw [changedPair_desc (h.desc k), hk] at this
    simp at this
  obtain ⟨f1, f2, f3⟩ := C14.fillIn_spec _ (h.sorted.changed (o := o)).1
  have hfill : c.isFiller o k = true ↔ ∃ x ∈ c.changed o, k <+: x := by
    constructor
    · intro hf
      exact (h.sorted.touched.2 k).mp (List.mem_map.mpr ⟨(false, k), by simpa [Ctx.isFiller] using hf, rfl⟩)
    · intro hx
      obtain ⟨⟨b, y⟩, hy, rfl⟩ := List.mem_map.mp ((h.sorted.touched (o := o)).2 k |>.mpr hx)
      cases b with
      | true =>
        exfalso; apply hnc
        rw [← f1]
        exact List.mem_map.mpr ⟨(true, y), List.mem_filter.mpr ⟨hy, rfl⟩, rfl⟩
      | false => simpa [Ctx.isFiller] using hy
  rw [hfill, List.any_eq_true]
  constructor
  · rintro ⟨x, hx, hp⟩
    obtain ⟨h1, h2⟩ := ((h.sorted.changed (o := o)).2 x).mp hx
    rw [changedPair_desc (h.desc x)] at h2
    refine ⟨x, ?_, ?_⟩
    · rw [isSome_desc (h.desc x)] at h1
      rcases h1 with h1 | h1
      · obtain ⟨n, hn⟩ := Option.isSome_iff_exists.mp h1
        exact List.mem_append_left _ (List.mem_map.mpr ⟨_, (get_mem h.sorted.src x n).mp hn, rfl⟩)
      · obtain ⟨n, hn⟩ := Option.isSome_iff_exists.mp h1
        exact List.mem_append_right _ (List.mem_map.mpr ⟨_, (get_mem h.ordered x n).mp hn, rfl⟩)
    · simp only [Bool.and_eq_true, List.isPrefixOf_iff_prefix]
      exact ⟨hp, h2⟩
  · rintro ⟨x, hx, hp⟩
    simp only [Bool.and_eq_true, List.isPrefixOf_iff_prefix] at hp
    refine ⟨x, ((h.sorted.changed (o := o)).2 x).mpr ⟨?_, by rw [changedPair_desc (h.desc x)]; exact hp.2⟩, hp.1⟩
    rw [isSome_desc (h.desc x)]
    rcases List.mem_append.mp hx with hx | hx
    · left
      obtain ⟨y, hy, rfl⟩ := List.mem_map.mp hx
      have : c.src y.1 = some y.2 := (get_mem h.sorted.src y.1 y.2).mpr hy
      rw [this]; rfl
    · right
      obtain ⟨y, hy, rfl⟩ := List.mem_map.mp hx
      have : get old y.1 = some y.2 := (get_mem h.ordered y.1 y.2).mpr hy
      rw [this]; rfl

/-- the flags of a pair -/
theorem Seen.flags (h : Seen o c old) (cached : List α → Bool) (k : List α)
    (hk : (c.src k).isSome = true ∨ (get old k).isSome = true) :
    (c.statPair o cached (k, c.src k, c.dst k)).done = reported o c.s old cached k ∧
    (c.statPair o cached (k, c.src k, c.dst k)).counted = !lost o c.s old k := by
  have hch := changedPair_desc (n := c.src k) (h.desc k)
  have hsrc : get c.s.src k = c.src k := rfl
  simp only [Ctx.statPair, SStats.Pair.done, SStats.Pair.counted, Ctx.success, reported, lost, hch, hsrc]
  by_cases hs : looksSame o (c.src k) (get old k) = true
  · have hf := h.filler hs
    simp only [hs, Bool.not_true, Bool.false_eq_true, if_false, if_true, hf]
    generalize (cached k) = a
    generalize List.any _ _ = b
    cases a <;> cases b <;> simp
  · simp only [hs, Bool.not_false, if_true, Bool.not_true, Bool.false_eq_true, if_false, Bool.true_and, Bool.false_or]
    cases hn : c.src k with
    | none =>
      rw [hn] at hk
      have hd : (c.mirror k).isSome = true := by
        rw [← h.mirror, isSome_desc (h.desc k)]
        simpa using hk
      simp [hd]
    | some n =>
      have hdd := isDirRec_of_desc (h.desc k)
      simp only [hdd]
      by_cases hdir : (n.isDir || isDirNode (get old k)) = true
      · rw [if_pos hdir]
        have hsn : isDirNode (some n) = n.isDir := rfl
        rw [hsn]
        rcases Bool.or_eq_true _ _ |>.mp hdir with hd | hd <;> simp [hd]
      · rw [if_neg hdir]
        have hdir' : n.isDir = false ∧ isDirNode (get old k) = false := by simpa using hdir
        have hp := patch_cases (o := o) (c := c) (i := k) (by rw [hn]; exact hdir'.1) (by rw [hn]; rfl)
        cases hpp : c.patch o k with
        | failed => 
          have hsn : isDirNode (some n) = n.isDir := rfl
          simp [hp.mp hpp, hsn, hdir']
        | unchanged tf =>
          have : c.s.fails k = false := by
            cases hf : c.s.fails k with
            | false => rfl
            | true => rw [hp.mpr hf] at hpp; cases hpp
          simp [this]
        | done tf =>
          have : c.s.fails k = false := by
            cases hf : c.s.fails k with
            | false => rfl
            | true => rw [hp.mpr hf] at hpp; cases hpp
          simp [this]

/-- what the session sees after the first backup -/
theorem seen_next {P : Prot α A C S H Δ} {T0 rest L0 mrest} {s : Sess α A C S H Δ}
    (hs : Static o rsv P T0 rest L0 mrest) (hc : Clean o P T0 L0 mrest st)
    (hv : ValidSess o rsv ((P.t0, T0) :: rest) s) : Seen o (nextCtx st s P L0) T0 :=
  ⟨sorted_next hs hv, (hs.trees (P.t0, T0) (by simp)).ordered, hs.desc0.desc,
    fun k => (ctxOK_next hs hc hv).dst_isSome k⟩

theorem seen_first (a : A) {s : Sess α A C S H Δ} (hv : ValidSess o rsv [] s) :
    Seen o (firstCtx a s) [([], .dir a)] := by
  refine ⟨(before_first a hv).sorted, by simp, ?_, fun k => (ctxOK_first a hv).dst_isSome k⟩
  intro k
  by_cases hk : k = []
  · subst hk; simp [get, Ctx.dst, firstCtx, Desc]
  · have : ¬ [] = k := fun e => hk e.symm
    simp [get, Ctx.dst, firstCtx, this, Desc]

theorem pairsOf_append (a b : List SStats.Event) : SStats.pairsOf (a ++ b) = SStats.pairsOf a ++ SStats.pairsOf b := by
  unfold SStats.pairsOf; rw [List.filterMap_append]
theorem incsOf_append (a b : List SStats.Event) : SStats.incsOf (a ++ b) = SStats.incsOf a ++ SStats.incsOf b := by
  unfold SStats.incsOf; rw [List.filterMap_append]
theorem errsOf_append (a b : List SStats.Event) : SStats.errsOf (a ++ b) = SStats.errsOf a ++ SStats.errsOf b := by
  unfold SStats.errsOf; rw [List.filterMap_append]

/-- the path of the increment file that an operation makes -/
def madeInc : Step α A C S H Δ → Option (List α)
  | .newInc f => some f.idx
  | _ => none

theorem of_incs (steps : List (Step α A C S H Δ)) (sz : List α → Nat) :
    SStats.pairsOf (steps.filterMap (statInc sz)) = [] ∧ SStats.errsOf (steps.filterMap (statInc sz)) = [] ∧
    (SStats.incsOf (steps.filterMap (statInc sz))).length = (steps.filterMap (statInc sz)).length ∧
    SStats.total (SStats.incsOf (steps.filterMap (statInc sz))) (fun _ => true) (fun f => SStats.bytes (some f)) =
      ((steps.filterMap madeInc).map sz).sum := by
  induction steps with
  | nil => exact ⟨rfl, rfl, rfl, rfl⟩
  | cons x steps ih =>
    rw [List.filterMap_cons]
    cases hx : statInc sz x with
    | none =>
      have hm : madeInc x = none := by cases x <;> first | rfl | simp [statInc] at hx
      rw [List.filterMap_cons, hm]
      exact ih
    | some e =>
      have : ∃ i, e = .increment ⟨true, true, sz i⟩ ∧ madeInc x = some i := by
        cases x <;> simp [statInc] at hx
        exact ⟨_, hx.symm, rfl⟩
      obtain ⟨i, rfl, hm⟩ := this
      refine ⟨ih.1, ih.2.1, ?_, ?_⟩
      · simp only [SStats.incsOf, List.filterMap_cons, List.length_cons, Nat.add_right_cancel_iff]
        exact ih.2.2.1
      · rw [List.filterMap_cons, hm]
        simp only [List.map_cons, List.sum_cons, ← ih.2.2.2]
        simp [SStats.incsOf, SStats.total, SStats.bytes]

theorem of_pairs {β : Type} (l : List β) (f : β → SStats.Pair) :
    SStats.pairsOf (l.map (fun p => .pair (f p))) = l.map f ∧ SStats.errsOf (l.map (fun p => .pair (f p))) = [] ∧
    SStats.incsOf (l.map (fun p => .pair (f p))) = [] := by
  unfold SStats.pairsOf SStats.incsOf SStats.errsOf
  induction l with
  | nil => exact ⟨rfl, rfl, rfl⟩
  | cons x l ih => simp [ih]

theorem Seen.stats (h : Seen o c old) (cached : List α → Bool) (incs : List (Step α A C S H Δ)) (sz : List α → Nat) :
    let t := SStats.session (incs.filterMap (statInc sz) ++ c.pairs.map (fun p => .pair (c.statPair o cached p)))
    StatsOf o c.s old cached t ∧ t.incrementFiles = (incs.filterMap (statInc sz)).length ∧
      t.incrementFileSize = ((incs.filterMap madeInc).map sz).sum := by
  intro t
  obtain ⟨ks, k1, k2, k3⟩ := h.sorted.pairs
  obtain ⟨i1, i2, i3, i4⟩ := of_incs incs sz
  obtain ⟨p1, p2, p3⟩ := of_pairs c.pairs (c.statPair o cached)
  have hsubs : ∀ k, (get c.s.src k).isSome = true → k ∈ ks := fun k hk => (k2 k).mpr (.inl hk)
  have hsubo : ∀ k, (get old k).isSome = true → k ∈ ks := fun k hk => (k2 k).mpr (.inr (by rw [isSome_desc (h.desc k)]; exact hk))
  have hfl := fun k (hk : k ∈ ks) => h.flags cached k (by
    have := (k2 k).mp hk
    rw [isSome_desc (h.desc k)] at this; exact this)
  have ht : t = SStats.expected (incs.filterMap (statInc sz) ++ c.pairs.map (fun p => .pair (c.statPair o cached p))) := by
    apply SStats.totals_are_sums
    intro p hp
    rw [pairsOf_append, i1, p1, List.nil_append] at hp
    obtain ⟨q, -, rfl⟩ := List.mem_map.mp hp
    constructor
    · intro f hf
      simp only [Ctx.statPair, Option.map_eq_some_iff] at hf
      obtain ⟨n, -, rfl⟩ := hf
      cases n <;> rfl
    · intro f hf
      simp only [Ctx.statPair, Option.map_eq_some_iff] at hf
      obtain ⟨n, -, rfl⟩ := hf
      cases n <;> rfl
  have hps : SStats.pairsOf (incs.filterMap (statInc sz) ++ c.pairs.map (fun p => .pair (c.statPair o cached p))) =
      ks.map (fun k => c.statPair o cached (k, c.src k, c.dst k)) := by
    rw [pairsOf_append, i1, p1, List.nil_append, k3, List.map_map]; rfl
  have hsome : ∀ k, (c.statPair o cached (k, c.src k, c.dst k)).src.isSome = (get c.s.src k).isSome ∧
      (c.statPair o cached (k, c.src k, c.dst k)).dst.isSome = (get old k).isSome := by
    intro k
    refine ⟨by simp only [Ctx.statPair, Option.isSome_map]; rfl, ?_⟩
    simp only [Ctx.statPair, Option.isSome_map]; exact isSome_desc (h.desc k)
  have hnone : ∀ k, (c.statPair o cached (k, c.src k, c.dst k)).src.isNone = (get c.s.src k).isNone ∧
      (c.statPair o cached (k, c.src k, c.dst k)).dst.isNone = (get old k).isNone := by
    intro k
    simp only [← Option.not_isSome, (hsome k).1, (hsome k).2, and_self]
  have hb1 : ∀ k, SStats.bytes (c.statPair o cached (k, c.src k, c.dst k)).src = sizeOf o (get c.s.src k) :=
    fun k => bytes_src _
  have hb2 : ∀ k, SStats.bytes (c.statPair o cached (k, c.src k, c.dst k)).dst = sizeOf o (get old k) :=
    fun k => bytes_dst (h.desc k)
  have hls : ∀ k, (get c.s.src k).isNone = true → lost o c.s old k = false := by
    intro k hk
    have : get c.s.src k = none := by simpa using hk
    simp [lost, this]
  have hrep : ∀ k, (get c.s.src k).isNone = true ∨ (get old k).isNone = true → reported o c.s old cached k = !lost o c.s old k := by
    intro k hk
    have : looksSame o (get c.s.src k) (get old k) = false := by
      rcases hk with hk | hk
      · have : get c.s.src k = none := by simpa using hk
        rw [this]; rfl
      · have : get old k = none := by simpa using hk
        rw [this]
        cases get c.s.src k with
        | none => rfl
        | some n => cases n <;> rfl
    simp [reported, this]
  -- the three ways to count
  have cnt : ∀ (T : Files α (Node A C S)), T.Pairwise (fun x y => x.1 < y.1) → (∀ k, (get T k).isSome = true → k ∈ ks) →
      ∀ (q : SStats.Pair → Bool) (q' : List α → Bool),
      (∀ k ∈ ks, q (c.statPair o cached (k, c.src k, c.dst k)) = ((get T k).isSome && q' k)) →
      (ks.map (fun k => c.statPair o cached (k, c.src k, c.dst k))).countP q = files T q' := by
    intro T hT hsub q q' hq
    rw [List.countP_map, ← count_keys hT k1 hsub]
    apply List.countP_congr
    intro k hk
    simp only [Function.comp, hq k hk]
  have tot : ∀ (T : Files α (Node A C S)), T.Pairwise (fun x y => x.1 < y.1) → (∀ k, (get T k).isSome = true → k ∈ ks) →
      ∀ (q : SStats.Pair → Bool) (f : SStats.Pair → Nat) (q' : List α → Bool),
      (∀ k ∈ ks, (get T k).isSome = true → q (c.statPair o cached (k, c.src k, c.dst k)) = q' k) →
      (∀ k, f (c.statPair o cached (k, c.src k, c.dst k)) = sizeOf o (get T k)) →
      SStats.total (ks.map (fun k => c.statPair o cached (k, c.src k, c.dst k))) q f = bytesAt o T q' := by
    intro T hT hsub q f q' hq hf
    rw [total_map]
    simp only [hf]
    unfold bytesAt
    rw [← sum_keys hT k1 hsub q' (sizeOf o) rfl]
    have hz : ∀ k, (get T k).isSome = false → sizeOf o (get T k) = 0 := by
      intro k hk
      have : get T k = none := by simpa using hk
      rw [this]; rfl
    rw [sum_filter_some ks _ (fun k => (get T k).isSome) _ hz, sum_filter_some ks q' (fun k => (get T k).isSome) _ hz]
    congr 2
    apply List.filter_congr
    intro k hk
    by_cases hs : (get T k).isSome = true
    · simp only [hs, Bool.true_and]; exact hq k hk hs
    · simp [hs]
  refine ⟨?_, ?_⟩
  · have hS := h.sorted.src
    have hO := h.ordered
    constructor
    · rw [ht]; simp only [SStats.expected, hps]
      apply cnt _ hS hsubs
      intro k hk; rw [(hfl k hk).2, (hsome k).1, Bool.and_comm]
    · rw [ht]; simp only [SStats.expected, hps]
      apply tot _ hS hsubs _ _ _ _ hb1
      intro k hk _; rw [(hfl k hk).2]
    · rw [ht]; simp only [SStats.expected, hps]
      apply cnt _ hO hsubo
      intro k hk; rw [(hfl k hk).2, (hsome k).2, Bool.and_comm]
    · rw [ht]; simp only [SStats.expected, hps]
      apply tot _ hO hsubo _ _ _ _ hb2
      intro k hk _; rw [(hfl k hk).2]
    · rw [ht]; simp only [SStats.expected, hps]
      apply cnt _ hS hsubs
      intro k hk
      rw [SStats.Pair.isNew, (hfl k hk).1, (hsome k).1, (hnone k).2]
      by_cases hn : (get old k).isNone = true
      · rw [hrep k (.inr hn)]; cases lost o c.s old k <;> cases (get c.s.src k).isSome <;> simp [hn]
      · simp [hn]
    · rw [ht]; simp only [SStats.expected, hps]
      apply tot _ hS hsubs _ _ _ _ hb1
      intro k hk hs
      rw [SStats.Pair.isNew, (hfl k hk).1, (hsome k).1, (hnone k).2, hs]
      by_cases hn : (get old k).isNone = true
      · rw [hrep k (.inr hn)]; simp
      · simp [hn]
    · rw [ht]; simp only [SStats.expected, hps]
      apply cnt _ hO hsubo
      intro k hk
      rw [SStats.Pair.isGone, (hfl k hk).1, (hsome k).2, (hnone k).1]
      by_cases hn : (get c.s.src k).isNone = true
      · rw [hrep k (.inl hn), hls k hn]; simp [hn]
      · simp [hn]
    · rw [ht]; simp only [SStats.expected, hps]
      apply tot _ hO hsubo _ _ _ _ hb2
      intro k hk hs
      rw [SStats.Pair.isGone, (hfl k hk).1, (hsome k).2, (hnone k).1, hs]
      by_cases hn : (get c.s.src k).isNone = true
      · rw [hrep k (.inl hn), hls k hn]; simp [hn]
      · simp [hn]
    · rw [ht]; simp only [SStats.expected, hps]
      apply cnt _ hS hsubs
      intro k hk
      rw [SStats.Pair.isBoth, (hfl k hk).1, (hsome k).1, (hsome k).2]
      cases reported o c.s old cached k <;> cases (get c.s.src k).isSome <;> simp
    · rw [ht]; simp only [SStats.expected, hps]
      apply tot _ hS hsubs _ _ _ _ hb1
      intro k hk hs
      rw [SStats.Pair.isBoth, (hfl k hk).1, (hsome k).1, (hsome k).2, hs]
      cases reported o c.s old cached k <;> simp
    · rw [ht]; simp only [SStats.expected, hps]
      apply tot _ hO hsubo _ _ _ _ hb2
      intro k hk hs
      rw [SStats.Pair.isBoth, (hfl k hk).1, (hsome k).1, (hsome k).2, hs]
      cases reported o c.s old cached k <;> simp
    · rw [ht]; simp only [SStats.expected, errsOf_append, i2, p2]; rfl
  · rw [ht]; simp only [SStats.expected, incsOf_append, p3, List.append_nil, i3, i4, and_self]

/-! ### increments -/

theorem apply_incs (stamp : A) {x : Step α A C S H Δ} {st st' : State α A C S H Δ} (h : apply stamp x st = some st')
    (hd : ∀ i t, x ≠ .delInc i t) (sz : List α → Nat) :
    st'.incs.length = st.incs.length + ([x].filterMap (statInc sz)).length := by
  cases x with
  | write i n => simp only [apply] at h; split at h <;> cases h; rfl
  | rename i j =>
    simp only [apply] at h
    split at h
    · cases h
    · split at h <;> cases h; rfl
  | delete i => simp only [apply] at h; split at h <;> cases h; rfl
  | mkdir i => simp only [apply] at h; split at h <;> cases h; rfl
  | rmdir i => simp only [apply] at h; split at h <;> cases h; rfl
  | chattr i a => simp only [apply] at h; split at h <;> cases h; rfl
  | mkIncDir i => simp only [apply] at h; split at h <;> cases h; rfl
  | newInc f => simp only [apply] at h; split at h <;> cases h; simp [statInc]
  | fillInc f => simp only [apply] at h; cases h; simp [statInc]
  | delInc i t => exact absurd rfl (hd i t)
  | putMeta f => simp only [apply] at h; cases h; rfl
  | delMeta t s => simp only [apply] at h; cases h; rfl
  | mark t => simp only [apply] at h; split at h <;> cases h; rfl
  | unmark t => simp only [apply] at h; cases h; rfl

theorem exec_incs (stamp : A) (sz : List α → Nat) {steps : List (Step α A C S H Δ)} {st st' : State α A C S H Δ}
    (hd : ∀ x ∈ steps, ∀ i t, x ≠ .delInc i t)
    (h : exec stamp steps st = some st') : st'.incs.length = st.incs.length + (steps.filterMap (statInc sz)).length := by
  induction steps generalizing st with
  | nil => cases h; rfl
  | cons x steps ih =>
    simp only [exec] at h
    obtain ⟨st1, h1, h2⟩ := Option.bind_eq_some_iff.mp h
    rw [ih (fun y hy => hd y (List.mem_cons_of_mem _ hy)) h2, apply_incs stamp h1 (hd x List.mem_cons_self) sz]
    have : (x :: steps).filterMap (statInc sz) = [x].filterMap (statInc sz) ++ steps.filterMap (statInc sz) := by
      rw [← List.filterMap_append]; rfl
    rw [this, List.length_append]; omega

theorem apply_incSizes (stamp : A) {x : Step α A C S H Δ} {st st' : State α A C S H Δ} (h : apply stamp x st = some st')
    (hd : ∀ i t, x ≠ .delInc i t) (sz : List α → Nat) :
    (st'.incs.map (fun f => sz f.idx)).sum = (st.incs.map (fun f => sz f.idx)).sum + (([x].filterMap madeInc).map sz).sum := by
  cases x with
  | write i n => simp only [apply] at h; split at h <;> cases h; rfl
  | rename i j =>
    simp only [apply] at h
    split at h
    · cases h
    · split at h <;> cases h; rfl
  | delete i => simp only [apply] at h; split at h <;> cases h; rfl
  | mkdir i => simp only [apply] at h; split at h <;> cases h; rfl
  | rmdir i => simp only [apply] at h; split at h <;> cases h; rfl
  | chattr i a => simp only [apply] at h; split at h <;> cases h; rfl
  | mkIncDir i => simp only [apply] at h; split at h <;> cases h; rfl
  | newInc f => simp only [apply] at h; split at h <;> cases h; simp [madeInc, Nat.add_comm]
  | fillInc f =>
    simp only [apply] at h; cases h
    simp only [List.filterMap_cons, madeInc, List.filterMap_nil, List.map_nil, List.sum_nil, Nat.add_zero, List.map_map]
    congr 1
    apply List.map_congr_left
    intro g _
    simp only [Function.comp]
    split
    · next hg => simp_all
    · rfl
  | delInc i t => exact absurd rfl (hd i t)
  | putMeta f => simp only [apply] at h; cases h; rfl
  | delMeta t s => simp only [apply] at h; cases h; rfl
  | mark t => simp only [apply] at h; split at h <;> cases h; rfl
  | unmark t => simp only [apply] at h; cases h; rfl

theorem exec_incSizes (stamp : A) (sz : List α → Nat) {steps : List (Step α A C S H Δ)} {st st' : State α A C S H Δ}
    (hd : ∀ x ∈ steps, ∀ i t, x ≠ .delInc i t)
    (h : exec stamp steps st = some st') : (st'.incs.map (fun f => sz f.idx)).sum =
      (st.incs.map (fun f => sz f.idx)).sum + ((steps.filterMap madeInc).map sz).sum := by
  induction steps generalizing st with
  | nil => cases h; rfl
  | cons x steps ih =>
    simp only [exec] at h
    obtain ⟨st1, h1, h2⟩ := Option.bind_eq_some_iff.mp h
    rw [ih (fun y hy => hd y (List.mem_cons_of_mem _ hy)) h2, apply_incSizes stamp h1 (hd x List.mem_cons_self) sz]
    have : (x :: steps).filterMap (madeInc (A := A) (C := C) (S := S) (H := H) (Δ := Δ)) = [x].filterMap madeInc ++ steps.filterMap madeInc := by
      rw [← List.filterMap_append]; rfl
    rw [this, List.map_append, List.sum_append]; omega

/-- an operation of a session does not delete increments -/
def noDel : Step α A C S H Δ → Bool
  | .delInc _ _ => false
  | _ => true

theorem writeTmp_noDel (i : List α) (n : Option (Node A C S)) : ((c.writeTmp i n : List (Step α A C S H Δ))).all noDel = true := by
  cases n <;> rfl

theorem makeIncrement_noDel (i : List α) (a b : Bool) : (c.makeIncrement o i a b).all noDel = true := by
  unfold Ctx.makeIncrement
  split
  · rfl
  · rw [List.all_append, Bool.and_eq_true]
    constructor
    · split <;> rfl
    · split
      · rfl
      · rfl
      · split
        · split <;> rfl
        · rfl
      · rfl

theorem event_noDel (e : Event α) : (c.eventSteps o e).all noDel = true := by
  cases e with
  | fast i =>
    simp only [Ctx.eventSteps, Ctx.fastSteps]
    split
    · simp only [List.all_append, writeTmp_noDel]; rfl
    · simp only [List.all_append, writeTmp_noDel]; rfl
    · simp only [List.all_append, writeTmp_noDel, makeIncrement_noDel]; rfl
    · split <;> simp only [List.all_append, makeIncrement_noDel] <;> rfl
  | start i =>
    simp only [Ctx.eventSteps, Ctx.startSteps]
    generalize (if c.isFiller o i = true then isDirNode (c.mirror i) else isDirNode (c.src i)) = b
    split
    · rw [List.all_append, makeIncrement_noDel, Bool.true_and]
      split
      · rfl
      · split <;> rfl
    · simp only [List.all_append, writeTmp_noDel, makeIncrement_noDel]; rfl
  | finish i =>
    simp only [Ctx.eventSteps, Ctx.finishSteps]
    split <;> rfl

theorem sessionSteps_noDel {s : Sess α A C S H Δ} {steps} (h : sessionSteps o st s = some steps) : steps.all noDel = true := by
  unfold sessionSteps at h
  split at h
  · cases h
  · split at h
    · cases h
    · split at h
      · cases h
      · simp only at h
        split at h
        · next evs conv h1 h2 =>
          have hconv : conv.all noDel = true := by
            unfold convertSteps at h2
            split at h2 <;> cases h2 <;> rfl
          have hevs : ∀ c : Ctx α A C S H Δ, (evs.flatMap (c.eventSteps o)).all noDel = true := by
            intro c
            rw [List.all_flatMap, List.all_eq_true]
            exact fun e _ => event_noDel e
          split at h <;> cases h <;>
            simp [noDel, hconv, -List.all_flatMap, hevs]
        · cases h

/-- **C41.** The statistics of a backup of any source into any repository (whatever it went through), after the first: all
numbers are the counts and sums over the source and the previous backup, with the files left out whose transfer failed; and
there is one increment file more for each one counted, and the sizes of the increment files grow by the size counted. `cached`: which directories are still in the cache when they are
finished; `sz`: what sizes the increment files have. -/
theorem session_statistics {t0 : Nat} {T0 : Files α (Node A C S)} (h : Reach o rsv false st ((t0, T0) :: hist))
    {s : Sess α A C S H Δ} (hv : ValidSess o rsv ((t0, T0) :: hist) s) (cached : List α → Bool) (sz : List α → Nat) :
    ∃ t st', sessionStats o cached sz st s = some t ∧ backup o st s = some st' ∧ StatsOf o s T0 cached t ∧
      st'.incs.length = st.incs.length + t.incrementFiles ∧
      (st'.incs.map (fun f => sz f.idx)).sum = (st.incs.map (fun f => sz f.idx)).sum + t.incrementFileSize := by
  have hrep := (reach_inv h).1 rfl
  rcases hrep with ⟨he, -⟩ | ⟨P, T0', rest, L0, mrest, he, hs, hc⟩
  · cases he
  · cases he
    obtain ⟨work, st', h1, h2, -⟩ := session_next hs hc hv
    have hdest : destOf o st (some P.t0) = some L0 := by
      simp only [destOf]
      rw [hc.metas.read (t := P.t0) (L := L0) (by simp)]
      simp
    have hmt : mirrorTime st = some (some P.t0) := by simp [mirrorTime, hc.marks]
    obtain ⟨g1, g2, g3⟩ := (seen_next hs hc hv).stats cached (.mark s.now :: (work ++ [.unmark P.t0])) sz
    have hnd : ∀ x ∈ _, ∀ i t, x ≠ Step.delInc i t := fun x hx i t e => by
      have := List.all_eq_true.mp (sessionSteps_noDel h1) x hx
      rw [e] at this; cases this
    refine ⟨_, st', ?_, ?_, g1, ?_, ?_⟩
    · unfold sessionStats
      rw [hmt, h1]
      simp only [hdest]
      rfl
    · unfold backup; rw [h1]; exact h2
    · rw [g2]
      exact exec_incs s.stamp sz hnd h2
    · rw [g3]
      exact exec_incSizes s.stamp sz hnd h2

/-- **C41.** The same for the first backup, into an empty directory: the previous state is just the directory. -/
theorem first_statistics (a : A) {s : Sess α A C S H Δ} (hv : ValidSess o rsv [] s) (cached : List α → Bool) (sz : List α → Nat) :
    ∃ t st', sessionStats o cached sz ⟨[([], .dir a)], [], [[]], [], []⟩ s = some t ∧
      backup o ⟨[([], .dir a)], [], [[]], [], []⟩ s = some st' ∧ StatsOf o s [([], .dir a)] cached t ∧
      st'.incs.length = t.incrementFiles ∧ (st'.incs.map (fun f => sz f.idx)).sum = t.incrementFileSize := by
  obtain ⟨st', h2, -⟩ := session_first (o := o) a hv
  have hb := h2
  unfold backup at hb
  obtain ⟨steps, h1, h3⟩ := Option.bind_eq_some_iff.mp hb
  have hdest : destOf o (firstCtx a s).st none = some [⟨[], some (.dir a)⟩] := by
    simp [destOf, firstCtx, srcRec, Sort.sortBy, Sort.insertBy]
  obtain ⟨g1, g2, g3⟩ := (seen_first (o := o) a hv).stats cached steps sz
  have hnd : ∀ x ∈ _, ∀ i t, x ≠ Step.delInc i t := fun x hx i t e => by
    have := List.all_eq_true.mp (sessionSteps_noDel h1) x hx
    rw [e] at this; cases this
  refine ⟨_, st', ?_, h2, g1, ?_, ?_⟩
  · unfold sessionStats
    have hmt : mirrorTime (⟨[([], .dir a)], [], [[]], [], []⟩ : State α A C S H Δ) = some none := rfl
    rw [hmt, h1]
    simp only
    have : destOf o (⟨[([], .dir a)], [], [[]], [], []⟩ : State α A C S H Δ) none = _ := hdest
    rw [this]
    rfl
  · rw [g2]
    simpa using exec_incs s.stamp sz hnd h3
  · rw [g3]
    simpa using exec_incSizes s.stamp sz hnd h3

/-- **C41.** Without failed transfers: the number of files and bytes in the source and in the previous backup. -/
theorem statistics_complete {s : Sess α A C S H Δ} {old : Files α (Node A C S)} {cached} {t : SStats.Totals}
    (h : StatsOf o s old cached t) (hf : ∀ k, s.fails k = false) :
    t.sourceFiles = s.src.length ∧ t.mirrorFiles = old.length ∧
    t.sourceFileSize = (s.src.map (fun x => sizeOf o (some x.2))).sum ∧
    t.mirrorFileSize = (old.map (fun x => sizeOf o (some x.2))).sum := by
  have hl : ∀ k, lost o s old k = false := by intro k; simp [lost, hf]
  have h1 := h.sourceFiles
  have h2 := h.mirrorFiles
  have h3 := h.sourceFileSize
  have h4 := h.mirrorFileSize
  simp only [files, bytesAt, hl, Bool.not_false] at h1 h2 h3 h4
  simp only [List.filter_true] at h1 h2 h3 h4
  exact ⟨h1, h2, h3, h4⟩

open Demo in
/-- the second backup of the example repository: one file modified, a directory replaced by a file, a new directory with
a file, a link gone -/
example : (sessionStats ops (fun _ => true) (fun _ => 0) st1 (sess 20 src2)).map
    (fun t => ((t.sourceFiles, t.mirrorFiles, t.newFiles, t.deletedFiles), (t.changedFiles, t.sourceFileSize, t.mirrorFileSize, t.incrementFiles)))
    = some ((5, 4, 2, 1), (3, 15, 3, 6)) := by decide +kernel

open Demo in
example : ∃ t, sessionStats ops (fun _ => true) (fun _ => 0) st1 (sess 20 src2) = some t ∧
    StatsOf ops (sess 20 src2) src1 (fun _ => true) t :=
  let ⟨t, _, h1, _, h2, _, _⟩ := session_statistics reach1 valid2 (fun _ => true) (fun _ => 0)
  ⟨t, h1, h2⟩

open Demo in
/-- a session in which a file fails -/
example : (sessionStats ops (fun _ => true) (fun _ => 0) st1 { sess 20 src2 with fails := fun i => i == [1] }).map
    (fun t => (t.sourceFiles, t.mirrorFiles, t.changedFiles)) = some (4, 3, 2) := by decide +kernel

open Demo in
/-- **C41, finding.** A directory in which a file changes is counted as a changed file although nothing about it changed
(as long as it is in the cache). -/
example : (sessionStats ops (fun _ => true) (fun _ => 0) st1 (sess 20 [([], .dir 6), ([1], .reg 7 3), ([2], .dir 1), ([2, 5], .other 1 8)])).map
    (fun t => t.changedFiles) = some 2 := by decide +kernel

end Verif.Repo
