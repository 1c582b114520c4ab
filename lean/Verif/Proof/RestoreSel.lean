import Verif.Proof.Forest
import Verif.Proof.RestoreAt
import Verif.Props.C27
import Verif.Spec.RestoreSel
/- Restoring with selection options. -/
namespace Verif.RestoreDir
open Verif.Repo Verif.Collate Verif.FillIn Verif.TreeReducer Verif.MetaChain Verif.Selection
set_option linter.unusedSectionVars false
variable {α A C S H Δ L : Type} [LinearOrder α] [DecidableEq A] [DecidableEq S] [DecidableEq H] [DecidableEq L]
variable {o : Ops A C H Δ L} {rsv : α → Prop} {st : State α A C S H Δ} {k : Look A S} {cs : List (Cond α)}

theorem ByTree.excl (h : ByTree cs) {i : List α} {f : File} (hn : decide' cs i f ≠ .excl) : ¬ Excluded cs i := by
  rintro ⟨j, g, h1, h2, h3⟩
  exact hn (h j g i f h1 h2 h3)

theorem excluded_nil : ¬ Excluded cs ([] : List α) := by
  rintro ⟨j, f, h1, h2, -⟩
  exact h1 (List.prefix_nil.mp h2)

theorem Excluded.mono {i j : List α} (h : Excluded cs i) (hp : i <+: j) : Excluded cs j := by
  obtain ⟨k, f, h1, h2, h3⟩ := h
  exact ⟨k, f, h1, h2.trans hp, h3⟩

theorem node_isdir (hk : ∀ s, k.kind s ≠ .dir) (n : Node A C S) : (k.node o n).isdir = n.isDir := by
  cases n with
  | dir a => rfl
  | reg a x => rfl
  | other a s => simpa [Look.node, File.isdir, Node.isDir] using hk s

theorem record_eq {n : Node A C S} {m : MRec A S H} (h : Desc o (some n) (some m)) : k.record (some m) = k.node o n := by
  cases n with
  | dir a => cases m <;> first | exact h.elim | (have h : _ = _ := h; subst h; rfl)
  | reg a x => cases m <;> first | exact h.elim | (obtain ⟨rfl, rfl, -⟩ := h; rfl)
  | other a s => cases m <;> first | exact h.elim | (obtain ⟨rfl, rfl⟩ := h; rfl)

/-- the files of a tree except its top -/
theorem lists_of (hk : ∀ s, k.kind s ≠ .dir) {G : Files α (Node A C S)} (hG : Part rsv G) :
    Lists ((G.filter fun x => x.1 ≠ []).map fun x => (x.1, k.node o x.2)) := by
  refine ⟨?_, ?_, ?_⟩
  · rw [List.pairwise_map]
    exact hG.ordered.filter _
  · intro x hx
    obtain ⟨y, hy, rfl⟩ := List.mem_map.mp hx
    simpa using (List.mem_filter.mp hy).2
  · intro x hx hd
    obtain ⟨y, hy, rfl⟩ := List.mem_map.mp hx
    obtain ⟨h1, h2⟩ := List.mem_filter.mp hy
    obtain ⟨a, ha⟩ := hG.parent y h1 (by simpa using h2)
    exact ⟨k.node o (.dir a), List.mem_map.mpr ⟨(y.1.dropLast, .dir a), List.mem_filter.mpr ⟨ha, by simpa using hd⟩, rfl⟩, by
      rw [node_isdir hk]; rfl⟩

theorem mem_lists {G : Files α (Node A C S)} {i : List α} {f : File} :
    (i, f) ∈ ((G.filter fun x => x.1 ≠ []).map fun x => (x.1, k.node o x.2)) ↔ i ≠ [] ∧ ∃ n, (i, n) ∈ G ∧ f = k.node o n := by
  constructor
  · intro h
    obtain ⟨y, hy, he⟩ := List.mem_map.mp h
    obtain ⟨h1, h2⟩ := List.mem_filter.mp hy
    obtain ⟨rfl, rfl⟩ := Prod.mk.inj he
    exact ⟨by simpa using h2, y.2, h1, rfl⟩
  · rintro ⟨h1, n, h2, rfl⟩
    exact List.mem_map.mpr ⟨(i, n), List.mem_filter.mpr ⟨h2, by simpa using h1⟩, rfl⟩

/-- what the selection from a directory keeps -/
theorem iterate_spec (hk : ∀ s, k.kind s ≠ .dir) (hp : ∀ c ∈ cs, C26.Plain c) (hb : ByTree cs) {G : Files α (Node A C S)} (hG : Part rsv G)
    {root : Node A C S} (hr : root.isDir = true) :
    ∃ out, iterate cs (k.node o root) (forestOf ((G.filter fun x => x.1 ≠ []).map fun x => (x.1, k.node o x.2))) = some out ∧
      (∀ i ∈ out, ¬ Excluded cs i) ∧ [] ∈ out ∧ (NoScan cs → ∀ i, (Repo.get G i).isSome = true → ¬ Excluded cs i → i ∈ out) := by
  obtain ⟨hl, hok, -⟩ := forestOf_spec _ (lists_of (o := o) hk hG)
  obtain ⟨out, h1, -, h2⟩ := C27.iterates_selected_partial hp (k.node o root) (by rw [node_isdir hk]; exact hr) _ hok
  have hl0 := hl []
  simp only [List.nil_append] at hl0
  rw [show (fun x : List α × File => (x.1, x.2)) = id from rfl, List.map_id] at hl0
  rw [hl0] at h2
  refine ⟨out, h1, ?_, (h2 []).mpr (.inl rfl), ?_⟩
  · intro i hi
    rcases (h2 i).mp hi with rfl | ⟨f, -, -, h3⟩
    · exact excluded_nil
    · apply hb.excl (f := f)
      rcases h3 with h3 | ⟨h3, -⟩ <;> rw [h3] <;> simp
  · intro hns i hi hne
    rw [h2]
    by_cases h0 : i = []
    · exact .inl h0
    · right
      obtain ⟨n, hn⟩ := Option.isSome_iff_exists.mp hi
      refine ⟨k.node o n, mem_lists.mpr ⟨h0, n, (get_mem hG.ordered _ _).mp hn, rfl⟩, ?_, ?_⟩
      · intro j g hj hji _ hex
        exact hne ⟨j, g, (mem_lists.mp hj).1, hji, hex⟩
      · left
        cases hv : decide' cs i (k.node o n) with
        | incl => rfl
        | scan => exact absurd hv (hns _ _)
        | excl => exact absurd ⟨i, _, h0, List.prefix_refl _, hv⟩ hne

theorem keptFiles_spec (hk : ∀ s, k.kind s ≠ .dir) (hp : ∀ c ∈ cs, C26.Plain c) (hb : ByTree cs) {G : Files α (Node A C S)} (hG : Part rsv G) :
    ∃ out : List (List α), keptFiles k o cs G = some (G.filter fun x => x.1 ∈ out) ∧ (∀ i ∈ out, ¬ Excluded cs i) ∧
      (NoScan cs → ∀ i, (Repo.get G i).isSome = true → ¬ Excluded cs i → i ∈ out) := by
  have hroot : ∀ i, (Repo.get G i).isSome = true → i ≠ [] → isDirNode (Repo.get G []) = true := fun i hi hne => hG.root hi hne
  unfold keptFiles
  cases hg : Repo.get G [] with
  | none =>
    have hnil : G = [] := by
      cases G with
      | nil => rfl
      | cons x G =>
        exfalso
        have hx : (Repo.get (x :: G) x.1).isSome = true := (get_isSome_iff _ _).mpr ⟨x, by simp, rfl⟩
        by_cases h0 : x.1 = []
        · rw [h0, hg] at hx; cases hx
        · have := hroot _ hx h0
          rw [hg] at this; cases this
    exact ⟨[], by simp [hnil], by simp, by intro _ i hi; rw [hnil] at hi; cases hi⟩
  | some n =>
    by_cases hd : n.isDir = true
    · obtain ⟨out, h1, h2, -, h3⟩ := iterate_spec (o := o) (k := k) hk hp hb hG hd
      exact ⟨out, by simp only [h1], h2, h3⟩
    · have h1 := C27.single_file cs (k.node o n) (by rw [node_isdir hk]; simpa using hd)
        (forestOf ((G.filter fun x => x.1 ≠ []).map fun x => (x.1, k.node o x.2)))
      refine ⟨[[]], by simp only [h1], by simpa using excluded_nil, ?_⟩
      intro _ i hi _
      by_contra hne
      have := hroot i hi (by simpa using hne)
      rw [hg] at this
      exact hd this

/-- what the selection from the records keeps -/
theorem keptRecs_spec (hk : ∀ s, k.kind s ≠ .dir) (hp : ∀ c ∈ cs, C26.Plain c) (hb : ByTree cs) {T : Files α (Node A C S)} (hT : IsTree rsv T)
    {l : List (Rec (List α) (MRec A S H))} (hd : Describes o T l)
    (hroot : ∀ n, Repo.get T [] = some n → decide' cs [] (k.node o n) ≠ .excl)
    (hscan : ∀ i n, Repo.get T i = some n → decide' cs i (k.node o n) = .scan → n.isDir = true) :
    ∃ out : List (List α), keptRecs k cs l = some (l.filter fun r => r.idx ∈ out) ∧ (∀ i ∈ out, ¬ Excluded cs i) ∧ (out = [] ∨ [] ∈ out) ∧
      (NoScan cs → ∀ i, (Repo.get T i).isSome = true → ¬ Excluded cs i → i ∈ out) := by
  obtain ⟨a, ha⟩ := hT.root
  have hP : Part rsv T := ⟨hT.ordered, hT.parent, hT.names⟩
  have hmap : (l.map fun r => (r.idx, k.record r.data)) = metadata (k.node o (.dir a))
      (forestOf ((T.filter fun x => x.1 ≠ []).map fun x => (x.1, k.node o x.2))) := by
    obtain ⟨hl, -, -⟩ := forestOf_spec _ (lists_of (o := o) hk hP)
    have hl0 := hl []
    simp only [List.nil_append] at hl0
    rw [show (fun x : List α × File => (x.1, x.2)) = id from rfl, List.map_id] at hl0
    have hfull : (l.map fun r => (r.idx, k.record r.data)) = T.map fun x => (x.1, k.node o x.2) := by
      have e : (l.map fun r => r.idx) = T.map Prod.fst := by
        refine C12.sorted_unique ?_ ?_ ?_
        · rw [List.pairwise_map]; exact hd.listing.1
        · rw [List.pairwise_map]; exact hT.ordered
        · intro i
          constructor
          · intro hi
            obtain ⟨r, hr, rfl⟩ := List.mem_map.mp hi
            obtain ⟨m, hm⟩ := Option.isSome_iff_exists.mp (hd.listing.2 r hr)
            have hra : recAt l r.idx = some m := (find_mem hd.listing _ m).mpr (by rw [← hm]; exact hr)
            have := hd.desc r.idx
            rw [hra] at this
            cases hg : Repo.get T r.idx with
            | none => rw [hg] at this; exact this.elim
            | some n => exact List.mem_map.mpr ⟨(r.idx, n), (get_mem hT.ordered _ _).mp hg, rfl⟩
          · intro hi
            obtain ⟨x, hx, rfl⟩ := List.mem_map.mp hi
            have := hd.desc x.1
            rw [(get_mem hT.ordered x.1 x.2).mpr hx] at this
            cases hra : recAt l x.1 with
            | none => rw [hra] at this; obtain ⟨_, n⟩ := x; cases n <;> exact this.elim
            | some m => exact List.mem_map.mpr ⟨⟨x.1, some m⟩, (find_mem hd.listing _ m).mp hra, rfl⟩
      apply List.ext_getElem
      · have := congrArg List.length e; simpa using this
      · intro n h1 h2
        simp only [List.getElem_map]
        have hlen1 : n < l.length := by simpa using h1
        have hlen2 : n < T.length := by simpa using h2
        have hi : l[n].idx = T[n].1 := by
          have h3 : (l.map fun r => r.idx)[n]'(by simpa using hlen1) = (T.map Prod.fst)[n]'(by simpa using hlen2) := by
            simp only [e]
          simpa using h3
        have hr : l[n] ∈ l := List.getElem_mem _
        obtain ⟨m, hm⟩ := Option.isSome_iff_exists.mp (hd.listing.2 _ hr)
        have hra : recAt l l[n].idx = some m := (find_mem hd.listing _ m).mpr (by rw [← hm]; exact hr)
        have hde := hd.desc l[n].idx
        have hgT : Repo.get T T[n].1 = some T[n].2 := (get_mem hT.ordered _ _).mpr (List.getElem_mem _)
        rw [hra, hi, hgT] at hde
        rw [hm, record_eq hde, hi]
    have hTsplit : T.map (fun x => (x.1, k.node o x.2)) = ([], k.node o (.dir a)) ::
        ((T.filter fun x => x.1 ≠ []).map fun x => (x.1, k.node o x.2)) := by
      cases hTc : T with
      | nil => rw [hTc] at ha; cases ha
      | cons x T' =>
        have ho := hT.ordered
        rw [hTc] at ho ha
        obtain ⟨ho1, ho2⟩ := List.pairwise_cons.mp ho
        have hx : x = ([], .dir a) := by
          rcases List.mem_cons.mp ha with h | h
          · exact h.symm
          · have := ho1 _ h
            exact absurd this (by simp)
        subst hx
        rw [List.filter_cons_of_neg (by simp), List.filter_eq_self.mpr]
        · rfl
        · intro y hy
          have := ho1 y hy
          simp only [ne_eq, decide_not, Bool.not_eq_true', decide_eq_false_iff_not]
          intro h0
          rw [h0] at this
          exact lt_irrefl _ this
    rw [hfull, hTsplit]
    simp only [metadata, node_isdir hk, Node.isDir, if_true, hl0]
  obtain ⟨hl, hok, -⟩ := forestOf_spec _ (lists_of (o := o) hk hP)
  have hl0 := hl []
  simp only [List.nil_append] at hl0
  rw [show (fun x : List α × File => (x.1, x.2)) = id from rfl, List.map_id] at hl0
  have hg0 : Repo.get T [] = some (.dir a) := (get_mem hT.ordered _ _).mpr ha
  have hsc : ∀ i f, (i, f) ∈ listing [] (forestOf ((T.filter fun x => x.1 ≠ []).map fun x => (x.1, k.node o x.2))) → decide' cs i f = .scan →
      f.isdir = true := by
    rw [hl0]
    intro i f hi hv
    obtain ⟨-, n, hn, rfl⟩ := mem_lists.mp hi
    rw [node_isdir hk]
    exact hscan i n ((get_mem hT.ordered _ _).mpr hn) hv
  have hex : ∀ j g i f, (j, g) ∈ listing [] (forestOf ((T.filter fun x => x.1 ≠ []).map fun x => (x.1, k.node o x.2))) →
      (i, f) ∈ listing [] (forestOf ((T.filter fun x => x.1 ≠ []).map fun x => (x.1, k.node o x.2))) → decide' cs j g = .excl → j <+: i →
      f.isdir = true → decide' cs i f = .excl := by
    rw [hl0]
    intro j g i f hj _ hv hji _
    exact hb j g i f (mem_lists.mp hj).1 hji hv
  obtain ⟨o₁, o₂, h1, h2, h3, h4, h5⟩ := C28.metadata_selection_partial hp (k.node o (.dir a)) (by rw [node_isdir hk]; rfl) _ hok (hroot _ hg0) hsc hex
  obtain ⟨o₁', h1', g1, g2, g3⟩ := iterate_spec (o := o) (k := k) hk hp hb hP (root := .dir a) rfl
  rw [h1] at h1'
  cases h1'
  refine ⟨o₂, by simp only [keptRecs, hmap, h2], ?_, ?_, ?_⟩
  · intro i hi
    rcases h5 i hi with h | ⟨f, -, hv⟩
    · exact g1 i h
    · exact hb.excl (f := f) (by rw [hv]; simp)
  · rcases h4 [] g2 with h | ⟨-, h⟩
    · exact .inr h
    · exact .inl h
  · intro hns i hi hne
    rcases h4 i (g3 hns i hi hne) with h | ⟨rfl, h⟩
    · exact h
    · obtain ⟨o₃, e1, e2⟩ := C28.metadata_selection_same hp (k.node o (.dir a)) (by rw [node_isdir hk]; rfl) _ hok (by
          cases hv : decide' cs [] (k.node o (.dir a)) with
          | incl => rfl
          | scan => exact absurd hv (hns _ _)
          | excl => exact absurd hv (hroot _ hg0)) (fun i f _ hv => hns i f hv) hex
      rw [h2] at e2
      rw [h1] at e1
      cases e1
      cases e2
      exact g2

/-! ### The diffs -/

theorem below_nil (T : Files α (Node A C S)) (hT : T.Pairwise (fun x y => x.1 < y.1)) : ∀ i, Repo.get (below [] T) i = Repo.get T i := by
  intro i
  rw [get_below hT]; rfl

theorem recAt_filter {l : List (Rec (List α) (MRec A S H))} (hl : IsListing l) (p : List α → Bool) (i : List α) :
    recAt (l.filter fun r => p r.idx) i = if p i then recAt l i else none := by
  have hl' : IsListing (l.filter fun r => p r.idx) := ⟨hl.1.filter _, fun r hr => hl.2 r (List.mem_filter.mp hr).1⟩
  have key : ∀ m, recAt (l.filter fun r => p r.idx) i = some m ↔ p i = true ∧ recAt l i = some m := by
    intro m
    unfold recAt
    rw [find_mem hl', find_mem hl, List.mem_filter]
    exact And.comm
  by_cases hp : p i = true
  · rw [if_pos hp]
    cases h : recAt l i with
    | some m => exact (key m).mpr ⟨hp, h⟩
    | none =>
      cases h' : recAt (l.filter fun r => p r.idx) i with
      | none => rfl
      | some m => rw [((key m).mp h').2] at h; cases h
  · rw [if_neg hp]
    cases h' : recAt (l.filter fun r => p r.idx) i with
    | none => rfl
    | some m => exact absurd ((key m).mp h').1 hp

theorem describes_filter {T : Files α (Node A C S)} {l : List (Rec (List α) (MRec A S H))} (hd : Describes o T l) (p : List α → Bool) :
    Describes o (T.filter fun x => p x.1) (l.filter fun r => p r.idx) := by
  refine ⟨⟨hd.listing.1.filter _, fun r hr => hd.listing.2 r (List.mem_filter.mp hr).1⟩, ?_⟩
  intro i
  rw [get_filter, recAt_filter hd.listing]
  by_cases hp : p i = true
  · simp only [hp, if_true]; exact hd.desc i
  · simp only [hp, Bool.false_eq_true, if_false]; trivial

/-- the diffs of selected records and files -/
theorem sel_diffs {mt t' : Nat} {T target : Files α (Node A C S)} {l : List (Rec (List α) (MRec A S H))} (hr : Records o st mt t' T l)
    (hT : T.Pairwise (fun x y => x.1 < y.1)) (htg : target.Pairwise (fun x y => x.1 < y.1)) (p q : List α → Bool) :
    ∃ ds, diffsOf o st mt t' [] (l.filter fun r => p r.idx) (target.filter fun x => q x.1) = some ds ∧
      DiffsOK o.size (fun i => p i && flag l [] i) (T.filter fun x => p x.1) (target.filter fun x => q x.1) ds := by
  have hone : ∀ r ∈ l.filter (fun r => p r.idx), ∃ n, Repo.get (T.filter fun x => p x.1) r.idx = some n ∧ restoreOne o st mt t' r = some (r.idx, n) := by
    intro r hr'
    obtain ⟨h1, h2⟩ := List.mem_filter.mp hr'
    obtain ⟨n, h3, h4⟩ := hr.one r h1
    refine ⟨n, ?_, h4⟩
    rw [get_filter (p := p)]
    have h2' : p r.idx = true := h2
    rw [h2']; exact h3
  obtain ⟨ds, h1, h2⟩ := diffsOf_ok (st := st) (describes_filter hr.describes p) hone (hT.filter _) [] (htg.filter _)
  have hall : ((l.filter fun r => p r.idx).filter fun r => ([] : List α).isPrefixOf r.idx) = l.filter fun r => p r.idx := by
    rw [List.filter_eq_self]; intro a _; rfl
  rw [hall] at h1
  have hflag : flag (l.filter fun r => p r.idx) [] = fun i => p i && flag l [] i := by
    funext i
    unfold flag
    rw [recAt_filter hr.describes.listing]
    by_cases hp : p ([] ++ i) = true
    · have hp' : p i = true := hp
      simp only [hp, hp', if_true, Bool.true_and]
    · have hp' : p i = false := by simpa using hp
      simp only [List.nil_append, hp', Bool.false_eq_true, if_false, Bool.false_and]
  rw [hflag] at h2
  have hb := below_nil (T.filter fun x => p x.1) (hT.filter _)
  refine ⟨ds, h1, h2.ordered, ?_, ?_⟩
  · intro i
    rw [h2.mem]
    unfold isDiff
    rw [hb]
  · intro x hx
    rw [h2.val x hx, hb]

/-! ### What is left alone -/

/-- the operation leaves excluded paths as they are in `W` -/
def Spares (cs : List (Cond α)) (W : Files α (Node A C S)) (top tmp : α) (stamp : A) (s : Step α A C S H Δ) : Prop :=
  ∀ st st' : State α A C S H Δ, apply stamp s st = some st' → ∀ i, tmp ∉ i → Excluded cs i → Repo.get st.mirror (top :: i) = Repo.get W (top :: i) →
    Repo.get st'.mirror (top :: i) = Repo.get W (top :: i)

theorem exec_spares {W : Files α (Node A C S)} {top tmp : α} {stamp : A} {ss : List (Step α A C S H Δ)} (hs : ∀ s ∈ ss, Spares cs W top tmp stamp s)
    {st st' : State α A C S H Δ} (h : exec stamp ss st = some st') {i : List α} (ht : tmp ∉ i) (he : Excluded cs i)
    (h0 : Repo.get st.mirror (top :: i) = Repo.get W (top :: i)) : Repo.get st'.mirror (top :: i) = Repo.get W (top :: i) := by
  induction ss generalizing st with
  | nil => cases h; exact h0
  | cons s ss ih =>
    obtain ⟨st1, h1, h2⟩ := Option.bind_eq_some_iff.mp h
    exact ih (fun s hs' => hs s (by simp [hs'])) h2 (hs s (by simp) st st1 h1 i ht he h0)

/-- the paths which an operation is about, for event `p` -/
def about (top tmp : α) (p : List α) : Step α A C S H Δ → Prop
  | .write i _ => i = tmpOf tmp (top :: p)
  | .rename i j => i = tmpOf tmp (top :: p) ∧ j = top :: p
  | .delete i => i = top :: p
  | .mkdir i => i = top :: p
  | .rmdir i => i = top :: p
  | .chattr i _ => i = top :: p
  | _ => False

theorem about_spares {W : Files α (Node A C S)} {top tmp : α} {stamp : A} {p : List α} {s : Step α A C S H Δ} (ha : about top tmp p s)
    (hp : ¬ Excluded cs p) (hdel : s = .delete (top :: p) → ∀ i, p <+: i → i ≠ p → Repo.get W (top :: i) = none) : Spares cs W top tmp stamp s := by
  intro st st' h i ht he h0
  have hne : top :: i ≠ top :: p := by
    intro e
    rw [List.cons.inj e |>.2] at he
    exact hp he
  have hdl : top :: i ≠ (top :: p).dropLast := by
    intro e
    cases p with
    | nil => simp at e
    | cons x p =>
      rw [List.dropLast_cons_of_ne_nil (by simp)] at e
      have := (List.cons.inj e).2
      rw [this] at he
      exact hp (he.mono (List.dropLast_prefix _))
  have htd : (tmpOf tmp (top :: p)).dropLast = (top :: p).dropLast := by simp [tmpOf]
  have htn : top :: i ≠ tmpOf tmp (top :: p) := by
    intro e
    have hm : tmp ∈ tmpOf tmp (top :: p) := by simp [tmpOf]
    rw [← e] at hm
    rcases List.mem_cons.mp hm with h | h
    · -- then the temporary file is the target itself
      cases p with
      | nil =>
        have : top :: i = [tmp] := by simpa [tmpOf] using e
        have := (List.cons.inj this).2
        subst this
        exact excluded_nil he
      | cons x p =>
        have : top :: i = top :: ((x :: p).dropLast ++ [tmp]) := by rw [e]; simp [tmpOf, List.dropLast_cons_of_ne_nil]
        have := (List.cons.inj this).2
        exact ht (by rw [this]; simp)
    · exact ht h
  have htouch : ∀ (m : Files α (Node A C S)), Repo.get (touch stamp m (top :: p).dropLast) (top :: i) = Repo.get m (top :: i) := by
    intro m
    rw [get_touch, if_neg]
    exact fun h => hdl h.1
  rw [← h0]
  cases s with
  | write j n =>
    have ha : j = tmpOf tmp (top :: p) := ha
    subst ha
    simp only [apply] at h
    split at h
    · cases h
      simp only [get_put, if_neg htn]
      split
      · rw [htd]; exact htouch _
      · rfl
    · cases h
  | rename j j' =>
    obtain ⟨rfl, rfl⟩ : j = tmpOf tmp (top :: p) ∧ j' = top :: p := ha
    simp only [apply] at h
    cases hg : Repo.get st.mirror (tmpOf tmp (top :: p)) with
    | none => rw [hg] at h; cases h
    | some n =>
      rw [hg] at h
      simp only at h
      split at h
      · cases h
        simp only [get_put, if_neg hne, get_del, if_neg htn]
        exact htouch _
      · cases h
  | delete j =>
    have ha : j = top :: p := ha
    subst ha
    simp only [apply] at h
    split at h
    · cases h
      simp only [get_delTree]
      by_cases hpi : (top :: p) <+: (top :: i)
      · rw [if_pos hpi, h0, hdel rfl i (by simpa using hpi) (fun e => hne (by rw [e]))]
      · rw [if_neg hpi]; exact htouch _
    · cases h
  | mkdir j =>
    have ha : j = top :: p := ha
    subst ha
    simp only [apply] at h
    split at h
    · cases h
      simp only [get_put, if_neg hne]
      exact htouch _
    · cases h
  | rmdir j =>
    have ha : j = top :: p := ha
    subst ha
    simp only [apply] at h
    split at h
    · cases h
      simp only [get_del, if_neg hne]
      exact htouch _
    · cases h
  | chattr j a =>
    have ha : j = top :: p := ha
    subst ha
    simp only [apply] at h
    cases hg : Repo.get st.mirror (top :: p) with
    | none => rw [hg] at h; cases h
    | some n =>
      rw [hg] at h
      cases h
      simp only [get_put, if_neg hne]
  | _ => exact ha.elim

/-- the operations of an event -/
theorem stepsAt_about {c : RCtx α A C S} {top : α} (e : Event α) {s : Step α A C S H Δ} (hs : s ∈ c.stepsAt top e) :
    about top c.tmp (evIdx e) s ∧ (s = .delete (top :: evIdx e) → (∀ i, e = .fast i → c.canFast i = true) → isDirNode (c.base (evIdx e)) = false) := by
  have hw : ∀ i (x : Option (Node A C S)) (s : Step α A C S H Δ), s ∈ c.writeAt top i x → about top c.tmp i s ∧ s ≠ .delete (top :: i) := by
    intro i x s hs
    cases x with
    | none => cases hs
    | some n =>
      simp only [RCtx.writeAt, List.mem_cons, List.not_mem_nil, or_false] at hs
      rcases hs with rfl | rfl <;> exact ⟨rfl, by simp⟩
  cases e with
  | fast i =>
    simp only [RCtx.stepsAt, RCtx.fastAt] at hs
    refine ⟨?_, fun _ hc => ?_⟩
    · cases hd : c.diff i with
      | none =>
        rw [hd] at hs
        simp only [List.mem_singleton] at hs
        subst hs; rfl
      | some n =>
        rw [hd] at hs
        rcases List.mem_append.mp hs with hs | hs
        · exact (hw i _ s hs).1
        · simp only [List.mem_singleton] at hs
          subst hs; exact ⟨rfl, rfl⟩
    · have := hc i rfl
      unfold RCtx.canFast at this
      simp only [Bool.and_eq_true, Bool.not_eq_true'] at this
      exact this.2
  | start i =>
    simp only [RCtx.stepsAt, RCtx.startAt] at hs
    by_cases hd : isDirNode (c.diff i) = true
    · rw [if_pos hd] at hs
      by_cases hb : isDirNode (c.base i) = true
      · simp [hb] at hs
      · refine ⟨?_, fun _ _ => by simpa [evIdx] using hb⟩
        rw [if_neg hb] at hs
        rcases List.mem_append.mp hs with hs | hs
        · split at hs
          · simp only [List.mem_singleton] at hs; subst hs; rfl
          · cases hs
        · simp only [List.mem_singleton] at hs; subst hs; rfl
    · rw [if_neg hd] at hs
      exact ⟨(hw i _ s hs).1, fun h => absurd h (hw i _ s hs).2⟩
  | finish i =>
    simp only [RCtx.stepsAt, RCtx.finishAt] at hs
    cases hd : c.diff i with
    | none =>
      rw [hd] at hs
      simp only [List.mem_singleton] at hs
      subst hs; exact ⟨rfl, by simp⟩
    | some n =>
      rw [hd] at hs
      cases n with
      | dir a => simp only [List.mem_singleton] at hs; subst hs; exact ⟨rfl, by simp⟩
      | reg a x =>
        simp only [List.mem_cons, List.not_mem_nil, or_false] at hs
        rcases hs with rfl | rfl
        · exact ⟨rfl, by simp⟩
        · exact ⟨⟨rfl, rfl⟩, by simp⟩
      | other a x =>
        simp only [List.mem_cons, List.not_mem_nil, or_false] at hs
        rcases hs with rfl | rfl
        · exact ⟨rfl, by simp⟩
        · exact ⟨⟨rfl, rfl⟩, by simp⟩

/-- All operations leave excluded paths alone if no diff is about one. -/
theorem steps_spare {W : Files α (Node A C S)} (hW : IsTree rsv W) {ds : List (List α × Option (Node A C S))} {top tmp : α} {stamp : A} {junk : List α → C}
    (ho : (ds.map Prod.fst).Pairwise (· < ·)) (hd : ∀ x ∈ ds, ¬ Excluded cs x.1) {evs : List (Event α)}
    (hev : RCtx.events ⟨ds, targetFiles top W, stamp, junk, tmp⟩ = some evs) :
    ∀ s ∈ evs.flatMap (RCtx.stepsAt (H := H) (Δ := Δ) ⟨ds, targetFiles top W, stamp, junk, tmp⟩ top), Spares cs W top tmp stamp s := by
  intro s hs
  obtain ⟨e, he, hse⟩ := List.mem_flatMap.mp hs
  obtain ⟨h1, h2⟩ := stepsAt_about e hse
  have hidx : evIdx e ∈ (fillIn (ds.map Prod.fst)).map Prod.snd := by
    rcases runFrom_idx _ _ hev e he with k | k
    · simpa [RCtx.filled, Function.comp_def] using k
    · simp [init] at k
  rw [(C14.fillIn_spec _ ho).2.2] at hidx
  obtain ⟨x, hx, hp⟩ := hidx
  obtain ⟨y, hy, rfl⟩ := List.mem_map.mp hx
  have hne : ¬ Excluded cs (evIdx e) := fun h => hd y hy (h.mono hp)
  refine about_spares h1 hne ?_
  intro hsd i hpi hi
  have hb := h2 hsd (by
    rintro j rfl
    have := (runFrom_flags _ _ hev).1 j (mem_fasts he)
    obtain ⟨x, hx, hxe⟩ := List.mem_map.mp this
    obtain ⟨h3, h4⟩ := Prod.mk.inj hxe
    rw [← h3]; exact h4)
  have hb : isDirNode (Repo.get (targetFiles top W) (evIdx e)) = false := hb
  rw [← get_targetFiles hW.ordered]
  cases hg : Repo.get (targetFiles top W) i with
  | none => rfl
  | some n =>
    exfalso
    have hP := part_target (top := top) hW
    -- the directory above
    obtain ⟨r, hr⟩ := hpi
    have hrne : r ≠ [] := by rintro rfl; exact hi (by simpa using hr.symm)
    have hpre : evIdx e ++ [r.head hrne] <+: i := by
      rw [← hr]
      refine (List.prefix_append_right_inj _).mpr ?_
      exact ⟨r.tail, by simp⟩
    have hs' := hP.prefix (by rw [hg]; rfl) hpre
    obtain ⟨m, hm⟩ := Option.isSome_iff_exists.mp hs'
    obtain ⟨a, ha⟩ := hP.parent _ ((get_mem hP.ordered _ _).mp hm) (by simp)
    rw [List.dropLast_concat] at ha
    rw [(get_mem hP.ordered _ _).mpr ha] at hb
    cases hb

end Verif.RestoreDir
