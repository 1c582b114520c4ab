import Verif.Proof.RepoWalk
import Verif.Props.C11
import Verif.Proof.MetaChain
/- The pairs a session looks at, and the whole body of the session. -/
namespace Verif.Repo
open Verif.Collate Verif.FillIn Verif.TreeReducer Verif.MetaChain Verif.NestingSpec Verif.JoinSpec
set_option linter.unusedSectionVars false
variable {α A C S H Δ L : Type} [LinearOrder α] [DecidableEq A] [DecidableEq S] [DecidableEq H]
variable {o : Ops A C H Δ L} {P : Prot α A C S H Δ} {M : Dir (List α) (MRec A S H)} {K : List Nat}
  {st st' : State α A C S H Δ} {stamp : A} {c : Ctx α A C S H Δ}

/-- the inputs are sorted -/
structure Sorted (c : Ctx α A C S H Δ) : Prop where
  src : Ordered Prod.fst c.s.src
  dest : IsListing c.dest

theorem get_mem {V : Type} {m : Files α V} (h : Ordered Prod.fst m) (i : List α) (v : V) :
    get m i = some v ↔ (i, v) ∈ m := by
  induction m with
  | nil => simp [get]
  | cons x m ih =>
    obtain ⟨k, w⟩ := x
    obtain ⟨h1, h2⟩ := List.pairwise_cons.mp h
    by_cases hk : k = i
    · subst hk
      simp only [get, if_true, Option.some.injEq, List.mem_cons, Prod.mk.injEq, true_and]
      constructor
      · intro e; exact .inl e.symm
      · rintro (e | e)
        · exact e.symm
        · exact absurd (h1 _ e) (lt_irrefl _)
    · simp only [get, hk, if_false, ih h2, List.mem_cons, Prod.mk.injEq]
      constructor
      · exact .inr
      · rintro (⟨e, _⟩ | e)
        · exact absurd e.symm hk
        · exact e

theorem find_mem {l : List (Rec (List α) (MRec A S H))} (h : IsListing l) (i : List α) (m : MRec A S H) :
    (l.find? (fun r => r.idx = i)).bind (·.data) = some m ↔ ⟨i, some m⟩ ∈ l := by
  have hf : ∀ x, l.find? (fun r => decide (r.idx = i)) = some x ↔ x ∈ l ∧ x.idx = i := by
    intro x
    constructor
    · intro hx
      exact ⟨List.mem_of_find?_eq_some hx, by simpa using List.find?_some hx⟩
    · rintro ⟨h1, h2⟩
      cases hx : l.find? (fun r => decide (r.idx = i)) with
      | none =>
        have := List.find?_eq_none.mp hx x h1
        simp [h2] at this
      | some y =>
        have hy1 := List.mem_of_find?_eq_some hx
        have hy2 : y.idx = i := by simpa using List.find?_some hx
        rw [ordered_inj (idx := Rec.idx) h.1 h1 hy1 (h2.trans hy2.symm)]
  constructor
  · intro hb
    cases hx : l.find? (fun r => decide (r.idx = i)) with
    | none => rw [hx] at hb; cases hb
    | some x =>
      rw [hx] at hb
      obtain ⟨h1, h2⟩ := (hf x).mp hx
      simp only [Option.bind_some] at hb
      obtain ⟨xi, xd⟩ := x
      simp only at h2 hb; subst h2 hb; exact h1
  · intro hm
    rw [(hf ⟨i, some m⟩).mpr ⟨hm, rfl⟩]; rfl

theorem Sorted.src_iff (h : Sorted c) (i : List α) (n : Node A C S) : c.src i = some n ↔ (i, n) ∈ c.s.src :=
  get_mem h.src i n

theorem Sorted.dst_iff (h : Sorted c) (i : List α) (m : MRec A S H) : c.dst i = some m ↔ ⟨i, some m⟩ ∈ c.dest :=
  find_mem h.dest i m

/-- a row of the outer join is what source and destination have there -/
theorem row_eq (h : Sorted c) {k : List α} {r} (hr : IsRow Prod.fst Rec.idx c.s.src c.dest k r) :
    rowPair r = some (k, c.src k, c.dst k) ∧
      ((c.src k).isSome = true ∨ (c.dst k).isSome = true) := by
  obtain ⟨h1, h2, h3⟩ := hr
  obtain ⟨x, y⟩ := r
  simp only at h2 h3
  have hy : y.bind (·.data) = c.dst k := by
    apply Option.ext
    intro m
    rw [h.dst_iff]
    cases y with
    | none =>
      simp only [Option.bind_none, reduceCtorEq, false_iff]
      intro hm
      have := (h3 ⟨k, some m⟩).mpr ⟨hm, rfl⟩; cases this
    | some y =>
      obtain ⟨g1, g2⟩ := (h3 y).mp rfl
      simp only [Option.bind_some]
      constructor
      · intro e
        obtain ⟨yi, yd⟩ := y
        simp only at g2 e; subst g2 e; exact g1
      · intro hm
        have := (h3 ⟨k, some m⟩).mpr ⟨hm, rfl⟩
        cases this; rfl
  have hx : x.map Prod.snd = c.src k := by
    apply Option.ext
    intro m
    rw [h.src_iff]
    cases x with
    | none =>
      simp only [Option.map_none, reduceCtorEq, false_iff]
      intro hm
      have := (h2 (k, m)).mpr ⟨hm, rfl⟩; cases this
    | some x =>
      obtain ⟨g1, g2⟩ := (h2 x).mp rfl
      simp only [Option.map_some, Option.some.injEq]
      constructor
      · intro e
        obtain ⟨xi, xd⟩ := x
        simp only at g2 e; subst g2 e; exact g1
      · intro hm
        have := (h2 (k, m)).mpr ⟨hm, rfl⟩
        cases this; rfl
  cases x with
  | some x =>
    have : x.1 = k := ((h2 x).mp rfl).2
    simp only [Option.map_some] at hx
    refine ⟨by simp only [rowPair]; rw [this, hy, hx], .inl (by rw [← hx]; rfl)⟩
  | none =>
    cases y with
    | none => simp at h1
    | some y =>
      have h4 := (h3 y).mp rfl
      simp only [Option.map_none] at hx
      simp only [Option.bind_some] at hy
      refine ⟨by simp only [rowPair]; rw [h4.2, hy, ← hx], .inr ?_⟩
      rw [← hy]; exact h.dest.2 y h4.1

theorem filterMap_forall₂ {κ ρ β : Type} {R : κ → ρ → Prop} {ks : List κ} {rs : List ρ} {f : ρ → Option β}
    {g : κ → β} (h : List.Forall₂ R ks rs) (hf : ∀ k r, R k r → f r = some (g k)) :
    rs.filterMap f = ks.map g := by
  induction h with
  | nil => rfl
  | cons hr _ ih => simp [hf _ _ hr, ih]

/-- the pairs: one for each path in source or destination, in order -/
theorem Sorted.pairs (h : Sorted c) : ∃ ks : List (List α), ks.Pairwise (· < ·) ∧
    (∀ k, k ∈ ks ↔ (c.src k).isSome = true ∨ (c.dst k).isSome = true) ∧
    c.pairs = ks.map (fun k => (k, c.src k, c.dst k)) := by
  obtain ⟨ks, h1, h2, h3⟩ := C11.collate2_outer_join Prod.fst Rec.idx c.s.src c.dest h.src h.dest.1
  refine ⟨ks, h1, ?_, filterMap_forall₂ h3 (fun k r hr => (row_eq h hr).1)⟩
  intro k
  constructor
  · intro hk
    obtain ⟨r, _, hr⟩ := forall₂_mem_left h3 k hk
    exact (row_eq h hr).2
  · intro hk
    rw [h2]
    rcases hk with hk | hk
    · left
      obtain ⟨n, hn⟩ := Option.isSome_iff_exists.mp hk
      exact ⟨_, (h.src_iff k n).mp hn, rfl⟩
    · right
      obtain ⟨n, hn⟩ := Option.isSome_iff_exists.mp hk
      exact ⟨_, (h.dst_iff k n).mp hn, rfl⟩

theorem Sorted.changed (h : Sorted c) : (c.changed o).Pairwise (· < ·) ∧
    ∀ k, k ∈ c.changed o ↔ ((c.src k).isSome = true ∨ (c.dst k).isSome = true) ∧
      changedPair o (c.src k) (c.dst k) = true := by
  obtain ⟨ks, h1, h2, h3⟩ := h.pairs
  have e : c.changed o = ks.filter (fun k => changedPair o (c.src k) (c.dst k)) := by
    unfold Ctx.changed
    rw [h3, List.filterMap_map]
    clear h1 h2 h3
    induction ks with
    | nil => rfl
    | cons k ks ih =>
      rw [List.filterMap_cons, List.filter_cons, ih]
      simp only [Function.comp]
      by_cases hk : changedPair o (c.src k) (c.dst k) = true <;> simp [hk]
  rw [e]
  refine ⟨h1.filter _, ?_⟩
  intro k; rw [List.mem_filter, h2]

/-! ### What is filled in -/

/-- the paths that are processed -/
def Ctx.touched (o : Ops A C H Δ L) (c : Ctx α A C S H Δ) : List (List α) := (c.filled o).map Prod.snd

theorem Sorted.touched (h : Sorted c) : (c.touched o).Pairwise (· < ·) ∧
    ∀ q, q ∈ c.touched o ↔ ∃ x ∈ c.changed o, q <+: x :=
  ⟨(C14.fillIn_spec _ (h.changed (o := o)).1).2.1, (C14.fillIn_spec _ (h.changed (o := o)).1).2.2⟩

theorem Sorted.filler (h : Sorted c) {i : List α} (hf : c.isFiller o i = true) : i ∉ c.changed o := by
  obtain ⟨h1, h2, h3⟩ := C14.fillIn_spec _ (h.changed (o := o)).1
  intro hi
  rw [← h1] at hi
  obtain ⟨x, hx, rfl⟩ := List.mem_map.mp hi
  obtain ⟨hx1, hx2⟩ := List.mem_filter.mp hx
  have hf' : (false, x.2) ∈ fillIn (c.changed o) := by simpa [Ctx.isFiller, Ctx.filled] using hf
  have := ordered_inj (idx := Prod.snd) (List.pairwise_map.mp h2) hx1 hf' rfl
  rw [this] at hx2; cases hx2

theorem isDirNode_mirror_iff (i : List α) : isDirNode (c.mirror i) = isDirAt c.st.mirror i := by
  unfold Ctx.mirror isDirAt isDirNode
  cases h : get c.st.mirror i with
  | none => rfl
  | some x => cases x <;> rfl

theorem CtxOK.dst_dir (hc : CtxOK o c P) (i : List α) : isDirRec (c.dst i) = isDirNode (c.mirror i) := by
  have := hc.kind i
  cases h1 : c.dst i with
  | none =>
    cases h2 : c.mirror i with
    | none => rfl
    | some y => rw [h1, h2] at this; exact this.elim
  | some x =>
    cases h2 : c.mirror i with
    | none => rw [h1, h2] at this; cases x <;> exact this.elim
    | some y => rw [h1, h2] at this; cases x <;> cases y <;> first | rfl | exact this.elim

theorem CtxOK.dst_isSome (hc : CtxOK o c P) (i : List α) : (c.dst i).isSome = (c.mirror i).isSome := by
  have := hc.kind i
  cases h1 : c.dst i with
  | none =>
    cases h2 : c.mirror i with
    | none => rfl
    | some y => rw [h1, h2] at this; exact this.elim
  | some x =>
    cases h2 : c.mirror i with
    | none => rw [h1, h2] at this; cases x <;> exact this.elim
    | some y => rfl

/-- a parent of anything that is there is a directory on one of the two sides -/
theorem CtxOK.parent_dir (hc : CtxOK o c P) {p x : List α} (hx : (c.src x).isSome = true ∨ (c.dst x).isSome = true)
    (hp : p <+: x) (hne : p ≠ x) : isDirNode (c.src p) = true ∨ isDirNode (c.mirror p) = true := by
  rcases hx with hx | hx
  · left
    by_contra hcon
    have := hc.src_none_below (i := p) (j := x) (by simpa using hcon) ⟨hp, hne⟩
    rw [this] at hx; cases hx
  · right
    rw [isDirNode_mirror_iff]
    exact hc.wf.closed.below hp hne (by rw [hc.dst_isSome] at hx; exact hx)

theorem isFast_false_of_dir (hc : CtxOK o c P) {p : List α}
    (h : isDirNode (c.src p) = true ∨ isDirNode (c.mirror p) = true) : c.isFast p = false := by
  unfold Ctx.isFast
  rw [hc.dst_dir]
  rcases h with h | h <;> simp [h]

theorem filler_dirs (hc : CtxOK o c P) (hs : Sorted c) {i : List α} (hf : c.isFiller o i = true) :
    isDirNode (c.src i) = true ∧ isDirNode (c.mirror i) = true := by
  have hni := hs.filler hf
  have hmem : i ∈ c.touched o := List.mem_map.mpr ⟨(false, i), by simpa [Ctx.isFiller] using hf, rfl⟩
  obtain ⟨x, hx, hpx⟩ := (hs.touched.2 i).mp hmem
  have hne : i ≠ x := by rintro rfl; exact hni hx
  obtain ⟨hxs, -⟩ := (hs.changed.2 x).mp hx
  have hdir := hc.parent_dir hxs hpx hne
  have hsome : (c.src i).isSome = true ∨ (c.dst i).isSome = true := by
    rcases hdir with h | h
    · left; cases h' : c.src i with
      | none => rw [h'] at h; cases h
      | some _ => rfl
    · right; rw [hc.dst_isSome]; cases h' : c.mirror i with
      | none => rw [h'] at h; cases h
      | some _ => rfl
  have hnc : changedPair o (c.src i) (c.dst i) = false := by
    by_contra hcon
    exact hni ((hs.changed.2 i).mpr ⟨hsome, by simpa using hcon⟩)
  rw [← hc.dst_dir] at hdir ⊢
  cases h1 : c.src i with
  | none => rw [h1] at hnc; simp [changedPair] at hnc
  | some n =>
    cases h2 : c.dst i with
    | none => rw [h1, h2] at hnc; simp [changedPair] at hnc
    | some m =>
      rw [h1, h2] at hnc hdir
      cases n <;> cases m <;> simp_all [changedPair, eqMeta, isDirNode, isDirRec, Node.isDir, MRec.isDir]

theorem canFast_eq (hc : CtxOK o c P) (hs : Sorted c) {x : Bool × List α} (hx : x ∈ c.filled o) :
    c.canFast x = c.isFast x.2 := by
  obtain ⟨f, i⟩ := x
  cases f with
  | true => rfl
  | false =>
    have hf : c.isFiller o i = true := by simpa [Ctx.isFiller] using hx
    obtain ⟨h1, h2⟩ := filler_dirs hc hs hf
    simp [Ctx.canFast, Ctx.isFast, h1, h2]

/-! ### The events -/

theorem runFrom_flags (xs : List (List α × Bool)) (s : St α) {ev : List (Event α)} (h : runFrom s xs = some ev) :
    (∀ i ∈ fasts ev, (i, true) ∈ xs) ∧ (∀ i ∈ starts ev, (i, false) ∈ xs) := by
  have hfin : ∀ l : List (List α), fasts (l.map Event.finish) = [] ∧ starts (l.map Event.finish) = [] := by
    intro l; induction l with
    | nil => exact ⟨rfl, rfl⟩
    | cons x l ih => simpa [fasts, starts] using ih
  have hfb : ∀ (index : List α) (bs : List (List α)),
      fasts (finishBranches index bs).1 = [] ∧ starts (finishBranches index bs).1 = [] := by
    intro index bs
    induction bs with
    | nil => exact ⟨rfl, rfl⟩
    | cons b bs ih =>
      unfold finishBranches
      split
      · simpa [fasts, starts] using ih
      · exact ⟨rfl, rfl⟩
  induction xs generalizing s ev with
  | nil =>
    simp only [runFrom, Option.some.injEq] at h
    subst h
    unfold finishProcessing
    split
    · simp [fasts, starts]
    · simp [hfin]
  | cons x xs ih =>
    obtain ⟨i, f⟩ := x
    simp only [runFrom] at h
    split at h
    · cases h
    · cases h
    · next ev1 st' hcall =>
      obtain ⟨ev2, h2, rfl⟩ := Option.map_eq_some_iff.mp h
      obtain ⟨k1, k2⟩ := ih st' h2
      have hev1 : (∀ j ∈ fasts ev1, j = i ∧ f = true) ∧ (∀ j ∈ starts ev1, j = i ∧ f = false) := by
        unfold call at hcall
        split at hcall
        · split at hcall
          · next hf => cases hcall; simp [fasts, starts, hf]
          · next hf => cases hcall; simpa [fasts, starts] using hf
        · split at hcall
          · cases hcall; simp [fasts, starts]
          · split at hcall
            · cases hcall
            · split at hcall
              · cases hcall
              · next cur _ _ e b bs hfe =>
                have := hfb i s.branches
                rw [hfe] at this
                split at hcall
                · next hf =>
                  cases hcall
                  simp [fasts_append, starts_append, this.1, this.2, fasts, starts, hf]
                · next hf =>
                  cases hcall
                  simp only [fasts_append, starts_append, this.1, this.2, fasts, starts]
                  simpa using hf
      constructor
      · intro j hj
        rw [fasts_append, List.mem_append] at hj
        rcases hj with hj | hj
        · obtain ⟨rfl, rfl⟩ := hev1.1 j hj; simp
        · simp [k1 j hj]
      · intro j hj
        rw [starts_append, List.mem_append] at hj
        rcases hj with hj | hj
        · obtain ⟨rfl, rfl⟩ := hev1.2 j hj; simp
        · simp [k2 j hj]

theorem processed_cases {ev : List (Event α)} {i : List α} (h : i ∈ processed ev) :
    i ∈ fasts ev ∨ i ∈ starts ev := by
  induction ev with
  | nil => simp [processed] at h
  | cons e ev ih => cases e <;> (simp_all [processed, fasts, starts]; try tauto)

/-- the tree walk: nothing to do, or one well-formed walk from the root -/
theorem events_spec (hc : CtxOK o c P) (hs : Sorted c) :
    (c.touched o = [] ∧ c.events o = some []) ∨
    ∃ inner, c.events o = some (.start [] :: (inner ++ [.finish []])) ∧ Tight [] inner ∧
      c.touched o = [] :: processed inner ∧ WalkOK o c inner := by
  obtain ⟨ht1, ht2⟩ := hs.touched (o := o)
  cases hfl : c.filled o with
  | nil => left; exact ⟨by simp [Ctx.touched, hfl], by simp [Ctx.events, hfl, run, runFrom, finishProcessing, init]⟩
  | cons x rest =>
    right
    have htc : c.touched o = x.2 :: rest.map Prod.snd := by simp [Ctx.touched, hfl]
    have hroot : x.2 = [] := by
      have h1 : x.2 ∈ c.touched o := by rw [htc]; simp
      obtain ⟨y, hy, _⟩ := (ht2 _).mp h1
      have h2 : ([] : List α) ∈ c.touched o := (ht2 _).mpr ⟨y, hy, List.nil_prefix⟩
      rw [htc] at h2 ht1
      rcases List.mem_cons.mp h2 with h2 | h2
      · exact h2.symm
      · have := (List.pairwise_cons.mp ht1).1 _ h2
        exact absurd (prefix_le (List.nil_prefix (l := x.2))) (not_le.mpr this)
    have hxf : x ∈ c.filled o := by rw [hfl]; simp
    have hfr : c.canFast x = false := by
      rw [canFast_eq hc hs hxf, hroot]
      exact isFast_false_of_dir hc (.inl hc.src_root)
    let xs := rest.map (fun y => (y.2, c.canFast y))
    have hxs : xs.map Prod.fst = rest.map Prod.snd := by simp [xs]
    have hev : c.events o = run (([], false) :: xs) := by
      unfold Ctx.events
      rw [hfl]; simp [hroot, hfr, xs]
    obtain ⟨inner, h1, h2, h3⟩ := C13.reducer_nested [] xs
      (by rw [hxs]; rw [htc, hroot] at ht1; exact ht1) (fun _ _ => List.nil_prefix)
    have htc' : c.touched o = [] :: processed inner := by rw [htc, hroot, h3, hxs]
    have hfl' := runFrom_flags (([], false) :: xs) init h1
    have hflag : ∀ i b, (i, b) ∈ (([], false) :: xs) → c.isFast i = b := by
      intro i b hib
      rcases List.mem_cons.mp hib with hib | hib
      · cases hib; exact isFast_false_of_dir hc (.inl hc.src_root)
      · obtain ⟨y, hy, hye⟩ := List.mem_map.mp hib
        cases hye
        exact (canFast_eq hc hs (by rw [hfl]; simp [hy])).symm
    have hfi : ∀ i ∈ fasts inner, c.isFast i = true := by
      intro i hi
      exact hflag i true (hfl'.1 i (by simp [fasts, fasts_append, hi]))
    have hsi : ∀ i ∈ starts inner, c.isFast i = false := by
      intro i hi
      exact hflag i false (hfl'.2 i (by simp [starts, starts_append, hi]))
    have hbelow := nested_below h2
    refine ⟨inner, by rw [hev]; exact h1, ?_, htc', hfi, hsi, ?_, ?_⟩
    · refine tight_of_nested h2 ?_ ?_
      · rw [htc'] at ht1; exact (List.pairwise_cons.mp ht1).2
      · intro j hj p hp hne
        have hjt : j ∈ c.touched o := by rw [htc']; simp [hj]
        obtain ⟨x, hx, hjx⟩ := (ht2 j).mp hjt
        have hpt : p ∈ c.touched o := (ht2 p).mpr ⟨x, hx, hp.trans hjx⟩
        rw [htc'] at hpt
        rcases List.mem_cons.mp hpt with hpt | hpt
        · left; rw [hpt]; exact List.prefix_refl _
        · right
          obtain ⟨hxs, -⟩ := (hs.changed.2 x).mp hx
          have hpne : p ≠ x := by
            rintro rfl
            exact hne (hp.eq_of_length_le hjx.length_le)
          have := isFast_false_of_dir hc (hc.parent_dir hxs (hp.trans hjx) hpne)
          rcases processed_cases hpt with h | h
          · rw [hfi p h] at this; cases this
          · exact h
    · intro i hi hsi' j hb hm
      have hsj := hc.src_none_below hsi' hb
      have hdj : (c.dst j).isSome = true := by rw [hc.dst_isSome]; exact hm
      have hjc : j ∈ c.changed o := (hs.changed.2 j).mpr ⟨.inr hdj, by rw [hsj]; cases c.dst j <;> rfl⟩
      have : j ∈ c.touched o := (ht2 j).mpr ⟨j, hjc, List.prefix_refl _⟩
      rw [htc'] at this
      rcases List.mem_cons.mp this with h | h
      · subst h
        exfalso
        exact hb.2 (List.prefix_nil.mp hb.1)
      · exact h
    · intro i hi htmp
      have : i ∈ c.touched o := by rw [htc']; simp [hi]
      obtain ⟨x, hx, hix⟩ := (ht2 i).mp this
      have htx : c.s.tmp ∈ x := hix.subset htmp
      obtain ⟨hxs, -⟩ := (hs.changed.2 x).mp hx
      rw [hc.src_tmp x htx, hc.dst_isSome, hc.mir_tmp x htx] at hxs
      simp at hxs

/-- what is at path `i` after the session -/
def Ctx.result (o : Ops A C H Δ L) (c : Ctx α A C S H Δ) (i : List α) : Option (Node A C S) :=
  if i ∈ c.touched o then c.fin o i else c.mirror i

/-- the state after the body of the session -/
structure Body (o : Ops A C H Δ L) (P : Prot α A C S H Δ) (c : Ctx α A C S H Δ) (st' : State α A C S H Δ) :
    Prop where
  mirror : ∀ i, get st'.mirror i = c.result o i
  rf : ∀ i, RF o P i (get st'.mirror i) (incsAt st' i)
  root : c.prev.isSome = true → c.touched o ≠ [] → incsAt st' [] = ⟨[], P.t0, .dir⟩ :: P.incs0 []
  incs : ∀ i, incsAt st' i = incFile P i (if i ∈ c.touched o then c.finInc o i else none) ++ P.incs0 i

theorem CtxOK.rf_untouched (hc : CtxOK o c P) {i : List α} : RF o P i (c.mirror i) (incsAt c.st i) := by
  refine ⟨none, by rw [hc.incs0]; rfl, ?_⟩
  intro a y hy
  obtain ⟨a', h, _⟩ := hc.prot i a y hy
  rw [h]; rfl

theorem body_safe (hc : CtxOK o c P) (hs : Sorted c) (hst : st.mirror = c.st.mirror ∧ st.incs = c.st.incs ∧
    st.incdirs = c.st.incdirs) (hB : BI o P M K st) :
    ∃ evs, c.events o = some evs ∧
      Safe stamp (BI o P M K) (evs.flatMap (c.eventSteps o)) st (Body o P c) := by
  obtain ⟨e1, e2, e3⟩ := hst
  have hincs : ∀ j, incsAt st j = incsAt c.st j := incsAt_congr e2
  rcases events_spec hc hs with ⟨h1, h2⟩ | ⟨inner, h1, h2, h3, h4⟩
  · refine ⟨[], h2, hB, ?_, ?_, ?_, ?_⟩
    · intro i; rw [e1]; simp [Ctx.result, h1, Ctx.mirror]
    · intro i; rw [e1, hincs]; exact hc.rf_untouched
    · intro _ h; exact absurd h1 h
    · intro i; rw [hincs, hc.incs0]; simp [h1, incFile]
  · refine ⟨_, h1, ?_⟩
    have hfil : ∀ i, c.isFiller o i = true → isDirNode (c.src i) = true ∧ isDirNode (c.mirror i) = true :=
      fun i hi => filler_dirs hc hs hi
    have hmroot : isDirNode (c.mirror []) = true := by rw [isDirNode_mirror_iff]; exact hc.wf.root
    have hdir : ∃ a, (if c.isFiller o [] then c.mirror [] else c.src []) = some (.dir a) := by
      have : isDirNode (if c.isFiller o [] then c.mirror [] else c.src []) = true := by
        split
        · exact hmroot
        · exact hc.src_root
      revert this
      cases (if c.isFiller o [] then c.mirror [] else c.src []) with
      | none => intro h; cases h
      | some x => cases x <;> simp [isDirNode, Node.isDir]
    obtain ⟨a, ha⟩ := hdir
    have hsteps : (Event.start [] :: (inner ++ [.finish []])).flatMap (c.eventSteps o) =
        c.makeIncrement o [] true false ++ (inner.flatMap (c.eventSteps o) ++ [.chattr [] a]) := by
      have k1 : c.startSteps o [] = c.makeIncrement o [] true false := by
        unfold Ctx.startSteps
        have : (if c.isFiller o [] = true then isDirNode (c.mirror []) else isDirNode (c.src [])) = true := by
          split
          · exact hmroot
          · exact hc.src_root
        simp only [this, if_true]
        rw [if_pos hmroot, List.append_nil]
      have k2 : c.finishSteps o [] = [.chattr [] a] := by
        unfold Ctx.finishSteps; rw [ha]
      simp [List.flatMap_cons, List.flatMap_append, Ctx.eventSteps, k1, k2]
    rw [hsteps]
    have hAt : ∀ j, At c st j := fun j => ⟨by rw [e1]; rfl, hincs j, by rw [e3]⟩
    refine (makeIncrement_safe hc hB (hAt []) (fun _ => .inl rfl) (by simp)).append ?_
    intro st₁ hB₁ k₁
    have hnr : ([] : List α) ∉ processed inner := by
      intro h; exact (tight_below h2 _ h).2 rfl
    refine (walk_safe hc hfil h2 st₁ hB₁ h4 (by rw [k₁.mirror, e1]; exact hc.wf.root) ?_ ?_ ?_).append ?_
    · rw [k₁.mirror, e1]; exact hc.mir_tmp _ (by simp)
    · intro _; exact k₁.incmono _ (by rw [e3]; exact hc.wf.incroot)
    · intro i hi j hij
      have hj : j ≠ [] := by
        rintro rfl
        rw [List.prefix_nil.mp hij] at hi; exact hnr hi
      exact ⟨by rw [k₁.mirror]; exact (hAt j).mirror, by rw [k₁.incs j hj]; exact (hAt j).incs,
        by rw [k₁.incdirs j hj]; exact (hAt j).incdirs⟩
    · rintro st₂ hB₂ ⟨hF, hP⟩
      obtain ⟨b, hb⟩ := (isDirAt_iff _ _).mp hF.dir
      have hinc : incsAt st₂ [] = incFile P [] (c.incOf o [] false) ++ P.incs0 [] := by
        rw [hF.incs _ hnr, k₁.incs_i]
      refine chattr_safe hB₂ hb (by rw [hinc]; exact RI_inc_any hc (by simp [Node.setAttr])) ?_
      intro st₃ hB₃ g1 g2 g3 g4
      refine ⟨hB₃, ?_, ?_, ?_, ?_⟩
      · intro i
        unfold Ctx.result
        by_cases hi : i = []
        · subst hi
          rw [g2, if_pos (by rw [h3]; simp)]
          have hfr : c.isFast [] = false := isFast_false_of_dir hc (.inl hc.src_root)
          simp only [Ctx.fin, hfr, Node.setAttr]
          exact ha.symm
        · rw [g1 i hi]
          by_cases hip : i ∈ processed inner
          · rw [if_pos (by rw [h3]; simp [hip])]
            exact (hP i hip).fin
          · rw [if_neg (by rw [h3]; simp [hi, hip]), hF.mirror i hip hi, k₁.mirror, e1]; rfl
      · intro i
        rw [incsAt_congr g3]
        by_cases hi : i = []
        · subst hi; rw [hinc]; exact rf_inc_any hc
        · rw [g1 i hi]
          by_cases hip : i ∈ processed inner
          · exact (hP i hip).rf
          · rw [hF.mirror i hip hi, hF.incs i hip, k₁.mirror, k₁.incs i hi, e1, hincs]
            exact hc.rf_untouched
      · intro hp _
        rw [incsAt_congr g3, hinc]
        obtain ⟨t, ht⟩ := Option.isSome_iff_exists.mp hp
        unfold Ctx.incOf
        rw [ht]
        cases hx : c.mirror [] with
        | none => rw [hx] at hmroot; cases hmroot
        | some x => cases x <;> first | rfl | (rw [hx] at hmroot; cases hmroot)
      · intro i
        rw [incsAt_congr g3]
        by_cases hi : i = []
        · subst hi
          rw [hinc, if_pos (by rw [h3]; simp)]
          have hfr : c.isFast [] = false := isFast_false_of_dir hc (.inl hc.src_root)
          simp [Ctx.finInc, hfr]
        · by_cases hip : i ∈ processed inner
          · rw [if_pos (by rw [h3]; simp [hip])]
            exact (hP i hip).inc
          · rw [if_neg (by rw [h3]; simp [hi, hip]), hF.incs i hip, k₁.incs i hi, hincs, hc.incs0]
            rfl

end Verif.Repo
