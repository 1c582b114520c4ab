import Verif.Proof.FStatsSum
/-
Lemmas about file statistics: whole trees (C68).
-/
set_option linter.unusedSectionVars false

namespace Verif.FStats
open Verif

section
variable {α : Type} [DecidableEq α]

/-- a listing of a tree of files -/
def IsForest (es : List (FS α)) : Prop := (∃ v F, es = ([], v) :: pre F ∧ WF [] F) ∧ ∀ x ∈ es, Le zero x.2

/-- a tree as it is made -/
structure Good (t : Node α) : Prop where
  name : t.name = []
  wf : WF [] t.children
  super : Super t.children
  le : Le t.children.sum t.v

theorem ge_iff (a b : Vals) : a.ge b = true ↔ b.changed ≤ a.changed ∨ b.source ≤ a.source ∨ b.inc ≤ a.inc := by
  simp only [Vals.ge, Bool.or_eq_true, decide_eq_true_eq, or_assoc]

theorem below_nil (es : List (FS α)) : below es [] = es := below_all fun _ _ => List.nil_prefix

theorem below_cons_nil {v : Vals} {F : Forest α} {d : List α} (hd : d ≠ []) : below (([], v) :: pre F) d = below (pre F) d := by
  simp [below, List.prefix_nil, hd]

theorem mem_tot {F : Forest α} (hw : WF [] F) (v : Vals) (d : List α) (x : Vals) :
    (d, x) ∈ pre (tot F) ↔ (∃ y, (d, y) ∈ pre F) ∧ x = total (([], v) :: pre F) d := by
  rw [pre_tot hw, List.mem_map]
  constructor
  · rintro ⟨⟨d', y⟩, hy, e⟩
    simp only [Prod.mk.injEq] at e
    obtain ⟨rfl, rfl⟩ := e
    obtain ⟨m, l, e⟩ := hw.below _ hy
    refine ⟨⟨y, hy⟩, ?_⟩
    rw [total_eq, below_cons_nil]
    simp only at e
    rw [e]; simp
  · rintro ⟨⟨y, hy⟩, rfl⟩
    refine ⟨(d, y), hy, ?_⟩
    obtain ⟨m, l, e⟩ := hw.below _ hy
    rw [total_eq, below_cons_nil]
    simp only at e
    rw [e]; simp

theorem makeTree_eq {v : Vals} {F : Forest α} (hw : WF [] F) (hn : ∀ x ∈ ([], v) :: pre F, Le zero x.2) (cut : Vals) :
    makeTree cut (([], v) :: pre F) =
      if (total (([], v) :: pre F) []).ge cut then some ⟨[], total (([], v) :: pre F) [], prune cut (tot F)⟩ else none := by
  have hs : Super (tot F) := super_tot fun x hx => hn x (by simp [hx])
  have ht : total (([], v) :: pre F) [] = v + (tot F).sum := by rw [total_eq, below_nil, sum_tot]; rfl
  have hle : Le (tot F).sum (v + (tot F).sum) := by
    have := hn ([], v) (by simp)
    simp only [Le, add_changed, add_source, add_inc, zero] at *
    omega
  rw [makeTree, accumulate_eq hw, ht]
  simp only [Option.bind_some, List.filter_append, filter_post hs]
  by_cases hg : (v + (tot F).sum).ge cut = true
  · rw [if_pos hg]
    have : ([(([] : List α), v + (tot F).sum)].filter fun fs => fs.2.ge cut) = [([], v + (tot F).sum)] := by simp [hg]
    rw [this, makeRoot_eq (wf_prune (wf_tot hw))]
  · rw [if_neg hg]
    have h1 : ([(([] : List α), v + (tot F).sum)].filter fun fs => fs.2.ge cut) = [] := by simp [hg]
    have h2 : post (prune cut (tot F)) = [] := by
      rw [← filter_post hs, List.filter_eq_nil_iff]
      intro x hx hx'
      exact hg (((hs.le_sum x (mem_post.1 hx)).trans hle).ge hx')
    rw [h1, h2]; rfl

/-- what a tree made from a listing is like -/
theorem makeTree_spec {es : List (FS α)} (h : IsForest es) (cut : Vals) :
    (¬ Important cut es [] → makeTree cut es = none) ∧
    (Important cut es [] → ∃ t, makeTree cut es = some t ∧ Good t ∧ ∀ d x, (d, x) ∈ t.files ↔ Important cut es d ∧ x = total es d) := by
  obtain ⟨⟨v, F, rfl, hw⟩, hn⟩ := h
  have hI : Important cut (([], v) :: pre F) [] ↔ (total (([], v) :: pre F) []).ge cut = true := by
    rw [ge_iff]
    exact ⟨fun h => h.2, fun h => ⟨⟨([], v), by simp, rfl⟩, h⟩⟩
  rw [hI, makeTree_eq hw hn]
  refine ⟨fun h => by rw [if_neg h], fun h => ⟨_, by rw [if_pos h], ?_, ?_⟩⟩
  · have hs : Super (tot F) := super_tot fun x hx => hn x (by simp [hx])
    refine ⟨rfl, wf_prune (wf_tot hw), (super_prune hs).1, (super_prune hs).2.trans ?_⟩
    rw [total_eq, below_nil, sum_tot, show sumOf (([], v) :: pre F) = v + sumOf (pre F) from rfl]
    have := hn ([], v) (by simp)
    simp only [Le, add_changed, add_source, add_inc, zero] at *
    omega
  · have hs : Super (tot F) := super_tot fun x hx => hn x (by simp [hx])
    intro d x
    simp only [Node.files, List.mem_cons, Prod.mk.injEq, files_eq]
    rw [mem_prune hs, mem_tot hw v, ge_iff]
    constructor
    · rintro (⟨rfl, rfl⟩ | ⟨⟨⟨y, hy⟩, rfl⟩, h3⟩)
      · exact ⟨hI.2 h, rfl⟩
      · exact ⟨⟨⟨(d, y), by simp [hy], rfl⟩, h3⟩, rfl⟩
    · rintro ⟨⟨⟨y, hy, e⟩, h3⟩, rfl⟩
      rcases List.mem_cons.1 hy with rfl | hy
      · exact .inl ⟨e.symm, by rw [← e]⟩
      · exact .inr ⟨⟨⟨y.2, e ▸ hy⟩, rfl⟩, h3⟩

/-- no two files of a tree have the same name -/
theorem wf_unique {p : List α} {F : Forest α} (h : WF p F) {d : List α} {x y : Vals} (hx : (d, x) ∈ pre F) (hy : (d, y) ∈ pre F) : x = y := by
  induction F generalizing p with
  | nil => simp [pre] at hx
  | cons a v c r ih1 ih2 =>
    have hca := (wf_names h).1
    have hra := (wf_names h).2
    simp only [pre, List.mem_cons, List.mem_append, Prod.mk.injEq] at hx hy
    rcases hx with ⟨rfl, rfl⟩ | hx | hx <;> rcases hy with ⟨h1, rfl⟩ | hy | hy
    · rfl
    · exact absurd rfl (hca _ hy).2
    · exact absurd (List.prefix_refl _) (hra _ hy)
    · exact absurd h1 (hca _ hx).2
    · exact ih1 h.2.1 hx hy
    · exact absurd (hca _ hx).1 (hra (d, y) hy)
    · subst h1; exact absurd (List.prefix_refl _) (hra _ hx)
    · exact absurd (hca _ hy).1 (hra (d, x) hx)
    · exact ih2 h.2.2.1 hx hy

theorem Good.root_not {t : Node α} (h : Good t) {x : Vals} : ([], x) ∉ pre t.children := fun hx => by
  obtain ⟨m, l, e⟩ := h.wf.below _ hx
  simp at e

theorem Good.mem {t : Node α} (h : Good t) (d : List α) (x : Vals) : (d, x) ∈ t.files ↔ (d = [] ∧ x = t.v) ∨ (d, x) ∈ pre t.children := by
  simp [Node.files, files_eq, h.name]

theorem Good.unique {t : Node α} (h : Good t) {d : List α} {x y : Vals} (hx : (d, x) ∈ t.files) (hy : (d, y) ∈ t.files) : x = y := by
  rw [h.mem] at hx hy
  rcases hx with ⟨rfl, rfl⟩ | hx <;> rcases hy with ⟨h1, rfl⟩ | hy
  · rfl
  · exact absurd hy h.root_not
  · subst h1; exact absurd hx h.root_not
  · exact wf_unique h.wf hx hy

theorem mergeTree_spec {a b : Node α} (ha : Good a) (hb : Good b) : ∃ t, mergeTree a b = some t ∧ Good t ∧
    ∀ d x, (d, x) ∈ t.files ↔ (∃ y z, (d, y) ∈ a.files ∧ (d, z) ∈ b.files ∧ x = y + z) ∨ ((d, x) ∈ a.files ∧ ¬ At b.files d) ∨ ((d, x) ∈ b.files ∧ ¬ At a.files d) := by
  obtain ⟨m1, m2, m3, m4⟩ := merge_spec a.children ha.wf hb.wf
  have hv : a.v - a.children.sum + (a.children.merge b.children).sum + (b.v - b.children.sum) = a.v + b.v := by
    rw [m2]
    apply Vals.ext' <;> simp <;> omega
  refine ⟨⟨[], a.v + b.v, a.children.merge b.children⟩, ?_, ?_, ?_⟩
  · simp only [mergeTree, ha.name, hb.name, hv, ne_eq, not_true_eq_false, if_false]
  · refine ⟨rfl, m1, m3 ha.super hb.super, ?_⟩
    simp only [m2]
    have h1 := ha.le
    have h2 := hb.le
    clear m4
    simp only [Le, add_changed, add_source, add_inc] at *
    omega
  · have hg : Good (⟨[], a.v + b.v, a.children.merge b.children⟩ : Node α) := by
      refine ⟨rfl, m1, m3 ha.super hb.super, ?_⟩
      simp only [m2]
      have h1 := ha.le
      have h2 := hb.le
      clear m4
      simp only [Le, add_changed, add_source, add_inc] at *
      omega
    intro d x
    simp only [hg.mem, ha.mem, hb.mem, m4, At]
    by_cases hd : d = []
    · subst hd
      have r1 := fun x => ha.root_not (x := x)
      have r2 := fun x => hb.root_not (x := x)
      simp [r1, r2]
    · simp [hd]

/-! ### sums over sessions -/

theorem sumVals_cons (a : Vals) (l : List Vals) : sumVals (a :: l) = a + sumVals l := Vals.ext' (by simp [sumVals]) (by simp [sumVals]) (by simp [sumVals])
theorem sumVals_append (l l' : List Vals) : sumVals (l ++ l') = sumVals l + sumVals l' := Vals.ext' (by simp [sumVals]) (by simp [sumVals]) (by simp [sumVals])
theorem sumVals_one (a : Vals) : sumVals [a] = a := Vals.ext' (by simp [sumVals]) (by simp [sumVals]) (by simp [sumVals])

/-- the tree after some sessions -/
structure After (ss : List (Vals × List (FS α))) (t : Tree α) : Prop where
  good : Good t.root
  cutoff : t.cutoff = sumVals (ss.map Prod.fst)
  files : ∀ d x, (d, x) ∈ t.root.files ↔ (∃ s ∈ ss, Important s.1 s.2 d) ∧ x = sumVals (ss.map (contribution d))

theorem contribution_pos {s : Vals × List (FS α)} {d : List α} (h : Important s.1 s.2 d) : contribution d s = total s.2 d := if_pos h
theorem contribution_neg {s : Vals × List (FS α)} {d : List α} (h : ¬ Important s.1 s.2 d) : contribution d s = zero := if_neg h

theorem sum_none {ss : List (Vals × List (FS α))} {d : List α} (h : ¬ ∃ s ∈ ss, Important s.1 s.2 d) : sumVals (ss.map (contribution d)) = zero := by
  induction ss with
  | nil => rfl
  | cons s ss ih =>
    rw [List.map_cons, sumVals_cons, contribution_neg fun hs => h ⟨s, by simp, hs⟩, ih fun ⟨s', hs', hi⟩ => h ⟨s', by simp [hs'], hi⟩]
    rfl

theorem after_one {s : Vals × List (FS α)} (hs : IsForest s.2) (hi : Important s.1 s.2 []) : ∃ t, make s.1 s.2 = some t ∧ After [s] t := by
  obtain ⟨t, h1, h2, h3⟩ := (makeTree_spec hs s.1).2 hi
  refine ⟨⟨s.1, t⟩, by rw [make, h1]; rfl, h2, by simp [sumVals_one], fun d x => ?_⟩
  rw [h3]
  constructor
  · rintro ⟨h4, rfl⟩
    exact ⟨⟨s, by simp, h4⟩, by rw [List.map_singleton, sumVals_one, contribution_pos h4]⟩
  · rintro ⟨⟨s', hs', h4⟩, rfl⟩
    rw [List.mem_singleton] at hs'
    subst hs'
    exact ⟨h4, by rw [List.map_singleton, sumVals_one, contribution_pos h4]⟩

theorem after_add {ss : List (Vals × List (FS α))} {t : Tree α} (ht : After ss t) {s : Vals × List (FS α)} {t' : Tree α} (ht' : After [s] t') :
    ∃ u, addTrees t t' = some u ∧ After (ss ++ [s]) u := by
  obtain ⟨r, h1, h2, h3⟩ := mergeTree_spec ht.good ht'.good
  refine ⟨⟨t.cutoff + t'.cutoff, r⟩, by rw [addTrees, h1]; rfl, h2, ?_, ?_⟩
  · simp only [ht.cutoff, ht'.cutoff, List.map_append, sumVals_append]
  · have hAt : At t.root.files = fun d => ∃ s ∈ ss, Important s.1 s.2 d := by
      funext d
      refine propext ⟨fun ⟨x, hx⟩ => ((ht.files d x).1 hx).1, fun h => ⟨_, (ht.files d _).2 ⟨h, rfl⟩⟩⟩
    have hAt' : At t'.root.files = fun d => Important s.1 s.2 d := by
      funext d
      refine propext ⟨fun ⟨x, hx⟩ => ?_, fun h => ⟨_, (ht'.files d _).2 ⟨⟨s, by simp, h⟩, rfl⟩⟩⟩
      obtain ⟨s', hs', hi⟩ := ((ht'.files d x).1 hx).1
      rw [List.mem_singleton] at hs'
      exact hs' ▸ hi
    intro d x
    simp only [h3, hAt, hAt', ht.files, ht'.files, List.map_append, sumVals_append, List.map_singleton, sumVals_one, List.mem_append, List.mem_singleton]
    constructor
    · rintro (⟨y, z, ⟨h4, rfl⟩, ⟨h5, rfl⟩, rfl⟩ | ⟨⟨⟨s', h4, h4'⟩, rfl⟩, h5⟩ | ⟨⟨⟨s', rfl, h4⟩, rfl⟩, h5⟩)
      · obtain ⟨s', h4, h4'⟩ := h4
        exact ⟨⟨s', .inl h4, h4'⟩, rfl⟩
      · exact ⟨⟨s', .inl h4, h4'⟩, by rw [contribution_neg h5, vadd_zero]⟩
      · exact ⟨⟨s', .inr rfl, h4⟩, by rw [sum_none h5, vzero_add]⟩
    · rintro ⟨h4, rfl⟩
      by_cases ha : ∃ s ∈ ss, Important s.1 s.2 d <;> by_cases hb : Important s.1 s.2 d
      · exact .inl ⟨_, _, ⟨ha, rfl⟩, ⟨⟨s, rfl, hb⟩, rfl⟩, rfl⟩
      · exact .inr (.inl ⟨⟨ha, by rw [contribution_neg hb, vadd_zero]⟩, hb⟩)
      · exact .inr (.inr ⟨⟨⟨s, rfl, hb⟩, by rw [sum_none ha, vzero_add]⟩, ha⟩)
      · obtain ⟨s', h5 | rfl, h6⟩ := h4
        · exact absurd ⟨s', h5, h6⟩ ha
        · exact absurd h6 hb

theorem after_fold (ss' : List (Vals × List (FS α))) : ∀ {ss : List (Vals × List (FS α))} {t : Tree α}, After ss t → (∀ s ∈ ss', IsForest s.2) →
    (∀ s ∈ ss', Important s.1 s.2 []) → ∃ u, ss'.foldlM (fun t s => (make s.1 s.2).bind fun t' => addTrees t t') t = some u ∧ After (ss ++ ss') u := by
  induction ss' with
  | nil => intro ss t ht _ _; exact ⟨t, rfl, by rwa [List.append_nil]⟩
  | cons s ss' ih =>
    intro ss t ht hf hi
    obtain ⟨t', h1, h2⟩ := after_one (hf s (by simp)) (hi s (by simp))
    obtain ⟨u, h3, h4⟩ := after_add ht h2
    obtain ⟨w, h5, h6⟩ := ih h4 (fun s hs => hf s (by simp [hs])) (fun s hs => hi s (by simp [hs]))
    refine ⟨w, ?_, by simpa using h6⟩
    simp only [List.foldlM_cons, h1, Option.bind_some, h3, Option.bind_eq_bind, h5]

theorem filesSum_after {ss : List (Vals × List (FS α))} (hne : ss ≠ []) (hf : ∀ s ∈ ss, IsForest s.2) (hi : ∀ s ∈ ss, Important s.1 s.2 []) :
    ∃ t, filesSum ss = some t ∧ After ss t := by
  cases ss with
  | nil => exact absurd rfl hne
  | cons s ss =>
    obtain ⟨t, h1, h2⟩ := after_one (hf s (by simp)) (hi s (by simp))
    obtain ⟨u, h3, h4⟩ := after_fold ss h2 (fun s hs => hf s (by simp [hs])) (fun s hs => hi s (by simp [hs]))
    exact ⟨u, by rw [filesSum, h1]; exact h3, h4⟩

theorem fold_none (ss' : List (Vals × List (FS α))) (hf : ∀ s ∈ ss', IsForest s.2) {s : Vals × List (FS α)} (hs : s ∈ ss') (hi : ¬ Important s.1 s.2 []) (t : Tree α) :
    ss'.foldlM (fun t s => (make s.1 s.2).bind fun t' => addTrees t t') t = none := by
  induction ss' generalizing t with
  | nil => simp at hs
  | cons s' ss' ih =>
    simp only [List.foldlM_cons, Option.bind_eq_bind]
    rcases List.mem_cons.1 hs with rfl | hs
    · rw [make, (makeTree_spec (hf s (by simp)) s.1).1 hi]; rfl
    · cases ((make s'.1 s'.2).bind fun t' => addTrees t t') with
      | none => rfl
      | some u => exact ih (fun s hs => hf s (by simp [hs])) hs u

theorem filesSum_none {ss : List (Vals × List (FS α))} (hf : ∀ s ∈ ss, IsForest s.2) {s : Vals × List (FS α)} (hs : s ∈ ss) (hi : ¬ Important s.1 s.2 []) :
    filesSum ss = none := by
  cases ss with
  | nil => simp at hs
  | cons s' ss =>
    rw [filesSum]
    rcases List.mem_cons.1 hs with rfl | hs
    · rw [make, (makeTree_spec (hf s (by simp)) s.1).1 hi]; rfl
    · cases make s'.1 s'.2 with
      | none => rfl
      | some u => exact fold_none ss (fun s hs => hf s (by simp [hs])) hs hi u

theorem filesSum_some {ss : List (Vals × List (FS α))} (hf : ∀ s ∈ ss, IsForest s.2) {t : Tree α} (h : filesSum ss = some t) :
    After ss t ∧ ss ≠ [] ∧ ∀ s ∈ ss, Important s.1 s.2 [] := by
  have hi : ∀ s ∈ ss, Important s.1 s.2 [] := by
    intro s hs
    by_contra hn
    rw [filesSum_none hf hs hn] at h
    cases h
  have hne : ss ≠ [] := by rintro rfl; cases h
  obtain ⟨u, h1, h2⟩ := filesSum_after hne hf hi
  rw [h] at h1
  cases h1
  exact ⟨h2, hne, hi⟩

/-! ### the largest directories of a tree -/

theorem topFs_spec {f : Vals → Int} (hf : Value f) {t : Tree α} (hg : Good t.root) (d : List α) (x : Int) :
    (d, x) ∈ topFs f t ↔ f t.cutoff ≤ x ∧ ∃ v, (d, v) ∈ t.root.files ∧ f t.cutoff < f v ∧ x = f v - listedBelow (topFs f t) d := by
  generalize hcut : f t.cutoff = cut
  have hc := top_spec hf cut t.root.children hg.wf hg.super
  have hnil : ∀ y ∈ (top f cut t.root.children).1, ([] : List α) <+: y.1 ∧ y.1 ≠ [] := by
    intro y hy
    obtain ⟨z, hz, e⟩ := top_names f cut _ y hy
    obtain ⟨m, l, e'⟩ := hg.wf.below z hz
    exact ⟨List.nil_prefix, by rw [← e, e']; simp⟩
  have hsum := top_sum f cut t.root.children
  have hdef : topFs f t = if f t.root.v ≤ cut then [] else
      if cut ≤ f t.root.v - (top f cut t.root.children).2 then ([], f t.root.v - (top f cut t.root.children).2) :: (top f cut t.root.children).1
      else (top f cut t.root.children).1 := by
    simp only [topFs, hcut, top, hg.name, List.append_nil]
    split
    · rfl
    · split <;> rfl
  have hle : ∀ v, (d, v) ∈ pre t.root.children → f v ≤ f t.root.v := fun v hv => hf.le ((hg.super.le_sum _ hv).trans hg.le)
  simp only [hg.mem]
  rw [hdef]
  by_cases hv : f t.root.v ≤ cut
  · rw [if_pos hv]
    simp only [List.not_mem_nil, false_iff, not_and, not_exists]
    rintro - v (⟨rfl, rfl⟩ | h) h' -
    · omega
    · have := hle v h; omega
  · rw [if_neg hv]
    have hcons : ∀ (cur : Int) (M : List (List α × Int)), listedBelow (([], cur) :: M) d = listedBelow M d := by
      intro cur M
      rw [← List.singleton_append, listedBelow_append, listedBelow_zero (l := [([], cur)])]
      · omega
      · simp only [List.mem_singleton]
        rintro y rfl ⟨h1, h2⟩
        exact h2 (List.prefix_nil.1 h1).symm
    by_cases hcur : cut ≤ f t.root.v - (top f cut t.root.children).2
    · rw [if_pos hcur, List.mem_cons, hcons, hc]
      constructor
      · rintro (h | ⟨h1, v, h2, h3⟩)
        · cases h
          exact ⟨hcur, _, .inl ⟨rfl, rfl⟩, by omega, by rw [listedBelow_all hnil, hsum]⟩
        · exact ⟨h1, v, .inr h2, h3⟩
      · rintro ⟨h1, v, ⟨rfl, rfl⟩ | h2, h3, h4⟩
        · left
          rw [h4, listedBelow_all hnil, hsum]
        · exact .inr ⟨h1, v, h2, h3, h4⟩
    · rw [if_neg hcur, hc]
      constructor
      · rintro ⟨h1, v, h2, h3⟩
        exact ⟨h1, v, .inr h2, h3⟩
      · rintro ⟨h1, v, ⟨rfl, rfl⟩ | h2, h3, h4⟩
        · exfalso
          rw [listedBelow_all hnil, ← hsum] at h4
          omega
        · exact ⟨h1, v, h2, h3, h4⟩

theorem Le.value {a b : Vals} (h : Le a b) {f : Vals → Int} (hf : Value f) : f a ≤ f b := by
  cases hf
  · exact h.1
  · exact h.2.1
  · exact h.2.2

theorem top_le {f : Vals → Int} (hf : Value f) (cut : Int) (F : Forest α) (h : Super F) : (top f cut F).2 ≤ f F.sum := by
  induction F with
  | nil => simp only [top, Forest.sum]; cases hf <;> exact Int.le_refl _
  | cons a v c r ih1 ih2 =>
    have h1 := ih1 h.2.1
    have h2 := ih2 h.2.2
    have h3 := h.1.value hf
    have h4 : 0 ≤ f v := by
      have := (h.2.1.nonneg.trans h.1).value hf
      have h0 : f zero = 0 := by cases hf <;> rfl
      omega
    have h5 : f (Forest.cons a v c r).sum = f v + f r.sum := by cases hf <;> rfl
    rw [h5]
    simp only [top]
    split
    · omega
    · split <;> simp only [] <;> omega

/-- what is listed makes up the total, but for less than the cut-off -/
theorem topFs_sum {f : Vals → Int} (hf : Value f) {t : Tree α} (hg : Good t.root) (hv : f t.cutoff < f t.root.v) :
    f t.root.v - ((topFs f t).map Prod.snd).sum = 0 ∨ 0 ≤ f t.root.v - ((topFs f t).map Prod.snd).sum ∧ f t.root.v - ((topFs f t).map Prod.snd).sum < f t.cutoff := by
  simp only [topFs, top, List.append_nil]
  rw [if_neg (by omega)]
  have hsum := top_sum f (f t.cutoff) t.root.children
  have hle := top_le hf (f t.cutoff) t.root.children hg.super
  have hle' := hg.le.value hf
  split
  · left
    simp only [List.map_cons, List.sum_cons, ← hsum]
    omega
  · right
    simp only [← hsum]
    omega
end
end Verif.FStats
