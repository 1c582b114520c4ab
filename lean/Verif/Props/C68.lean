import Verif.Proof.FStatsText
import Verif.Props.C41
import Verif.Spec.FStats
import Mathlib.Data.List.Induction
/-
C68 File statistics are exact.
-/
set_option linter.unusedSectionVars false

namespace Verif.C68
open Verif Verif.FStats Verif.MetaRecord Verif.FlatFile

section
variable {α : Type} [LinearOrder α]

theorem is_forest {es : List (FS α)} (h : Listing es) : IsForest es := ⟨listing_forest h, h.nonneg⟩

/-- **The tree of a session** holds exactly the files and directories whose total reaches one of the cut-offs, with these totals; there is no tree (the program fails) exactly if the whole backup
doesn't reach any of them. -/
theorem tree_exact {es : List (FS α)} (h : Listing es) (cut : Vals) :
    (make cut es = none ↔ ¬ Important cut es []) ∧
    (∀ t, make cut es = some t → t.cutoff = cut ∧ ∀ d x, (d, x) ∈ t.root.files ↔ Important cut es d ∧ x = total es d) := by
  obtain ⟨h1, h2⟩ := makeTree_spec (is_forest h) cut
  by_cases hi : Important cut es []
  · obtain ⟨t, h3, _, h4⟩ := h2 hi
    simp only [make, h3, Option.map_some]
    refine ⟨by simp [hi], fun t' e => ?_⟩
    cases e
    exact ⟨rfl, h4⟩
  · simp [make, h1 hi, hi]

/-- **Sums over sessions**: the program succeeds exactly if there is a session and each of them has a tree; then the cut-offs are the sums of those of the sessions, and the tree holds exactly what
is important in at least one session, with the sum of the totals of the sessions where it is. -/
theorem sum_exact {ss : List (Vals × List (FS α))} (h : ∀ s ∈ ss, Listing s.2) :
    ((filesSum ss).isSome ↔ ss ≠ [] ∧ ∀ s ∈ ss, Important s.1 s.2 []) ∧
    ∀ t, filesSum ss = some t → t.cutoff = sumVals (ss.map Prod.fst) ∧
      ∀ d x, (d, x) ∈ t.root.files ↔ (∃ s ∈ ss, Important s.1 s.2 d) ∧ x = sumVals (ss.map (contribution d)) := by
  have hf : ∀ s ∈ ss, IsForest s.2 := fun s hs => is_forest (h s hs)
  refine ⟨⟨fun hs => ?_, fun ⟨h1, h2⟩ => ?_⟩, fun t ht => ?_⟩
  · obtain ⟨t, ht⟩ := Option.isSome_iff_exists.1 hs
    exact (filesSum_some hf ht).2
  · obtain ⟨t, ht, _⟩ := filesSum_after h1 hf h2
    simp [ht]
  · have := (filesSum_some hf ht).1
    exact ⟨this.cutoff, this.files⟩

theorem sum_map {f : Vals → Int} (hf : Value f) (l : List Vals) : f (sumVals l) = (l.map f).sum := by
  cases hf <;> rfl

theorem sum_le {β : Type} (l : List β) (f g : β → Int) (h : ∀ x ∈ l, f x ≤ g x) : (l.map f).sum ≤ (l.map g).sum := by
  induction l with
  | nil => simp
  | cons a l ih =>
    have h1 := h a (by simp)
    have h2 := ih fun x hx => h x (by simp [hx])
    simp only [List.map_cons, List.sum_cons]
    omega

theorem total_nonneg {es : List (FS α)} (h : Listing es) (d : List α) {f : Vals → Int} (hf : Value f) : 0 ≤ f (total es d) := by
  have : ∀ (l : List (FS α)) (g : FS α → Int), (∀ x ∈ l, 0 ≤ g x) → 0 ≤ (l.map g).sum := by
    intro l g hg
    have := sum_le l (fun _ => 0) g hg
    have h0 : (l.map fun _ => (0 : Int)).sum = 0 := by simp
    omega
  have hn : ∀ x ∈ es.filter (fun x => decide (d <+: x.1)), 0 ≤ x.2.changed ∧ 0 ≤ x.2.source ∧ 0 ≤ x.2.inc := fun x hx => h.nonneg x (List.mem_filter.1 hx).1
  cases hf
  · exact this _ _ fun x hx => (hn x hx).1
  · exact this _ _ fun x hx => (hn x hx).2.1
  · exact this _ _ fun x hx => (hn x hx).2.2

theorem total_absent {es : List (FS α)} (h : Listing es) {d : List α} (hd : ∀ x ∈ es, x.1 ≠ d) : total es d = ⟨0, 0, 0⟩ := by
  have : es.filter (fun x => decide (d <+: x.1)) = [] := by
    rw [List.filter_eq_nil_iff]
    intro x hx hp
    have hp : d <+: x.1 := by simpa using hp
    obtain ⟨r, hr⟩ := hp
    induction r using List.reverseRecOn generalizing x with
    | nil => exact hd x hx (by rw [← hr, List.append_nil])
    | append_singleton r a ih =>
      obtain ⟨y, hy, e⟩ := h.parents x hx (by rw [← hr]; simp)
      have e' : d ++ r = y.1 := by rw [e, ← hr, ← List.append_assoc, List.dropLast_concat]
      exact ih y hy (by rw [← e']; exact decide_eq_true (List.prefix_append _ _)) e'
  simp [total, this]

/-- in any of the values, what isn't important is less than the cut-off -/
theorem contribution_bounds {s : Vals × List (FS α)} (h : Listing s.2) (d : List α) {f : Vals → Int} (hf : Value f) (hc : 0 ≤ f s.1) :
    f (contribution d s) ≤ f (total s.2 d) ∧ f (total s.2 d) ≤ f (contribution d s) + f s.1 ∧ (¬ Important s.1 s.2 d → f (total s.2 d) ≤ f s.1) := by
  have hn := total_nonneg h d hf
  by_cases hi : Important s.1 s.2 d
  · rw [contribution_pos hi]
    refine ⟨Int.le_refl _, by omega, fun h => absurd hi h⟩
  · rw [contribution_neg hi]
    have h0 : f zero = 0 := by cases hf <;> rfl
    have : f (total s.2 d) ≤ f s.1 := by
      by_cases he : ∃ x ∈ s.2, x.1 = d
      · have h3 : ¬ (s.1.changed ≤ (total s.2 d).changed ∨ s.1.source ≤ (total s.2 d).source ∨ s.1.inc ≤ (total s.2 d).inc) := fun h => hi ⟨he, h⟩
        cases hf <;> omega
      · have := total_absent h (d := d) fun x hx e => he ⟨x, hx, e⟩
        rw [this]
        have h0' : f ⟨0, 0, 0⟩ = 0 := h0
        omega
    exact ⟨by omega, by omega, fun _ => this⟩

/-- **Values are never too large, and what they lack is small**: the value of a directory is at most the sum of its totals in all sessions, and lacks at most the cut-offs of the sessions where
it isn't important. -/
theorem bounds {ss : List (Vals × List (FS α))} (h : ∀ s ∈ ss, Listing s.2) {f : Vals → Int} (hf : Value f) (hc : ∀ s ∈ ss, 0 ≤ f s.1) {t : Tree α} (ht : filesSum ss = some t)
    {d : List α} {x : Vals} (hx : (d, x) ∈ t.root.files) :
    f x ≤ (ss.map fun s => f (total s.2 d)).sum ∧
    (ss.map fun s => f (total s.2 d)).sum ≤ f x + ((ss.filter fun s => decide (¬ Important s.1 s.2 d)).map fun s => f s.1).sum := by
  obtain ⟨hgone, rfl⟩ := (((sum_exact h).2 t ht).2 d x).1 hx
  rw [sum_map hf, List.map_map]
  refine ⟨sum_le _ _ _ fun s hs => (contribution_bounds (h s hs) d hf (hc s hs)).1, ?_⟩
  clear hx ht hgone
  induction ss with
  | nil => simp
  | cons s ss ih =>
    have hb := contribution_bounds (h s (by simp)) d hf (hc s (by simp))
    have := ih (fun s hs => h s (by simp [hs])) fun s hs => hc s (by simp [hs])
    simp only [List.map_cons, List.sum_cons, Function.comp_apply]
    by_cases hi : Important s.1 s.2 d
    · rw [List.filter_cons_of_neg (by simpa using hi), contribution_pos hi]
      rw [contribution_pos hi] at hb
      omega
    · rw [List.filter_cons_of_pos (by simpa using hi), contribution_neg hi]
      have h0 : f zero = 0 := by cases hf <;> rfl
      have := hb.2.2 hi
      simp only [List.map_cons, List.sum_cons]
      omega

/-- **No large directory is missed**: what is, over all sessions, more than the sum of the cut-offs in one of the values is in the tree. -/
theorem none_missed {ss : List (Vals × List (FS α))} (h : ∀ s ∈ ss, Listing s.2) {f : Vals → Int} (hf : Value f) (hc : ∀ s ∈ ss, 0 ≤ f s.1) {t : Tree α} (ht : filesSum ss = some t)
    {d : List α} (hd : f t.cutoff < (ss.map fun s => f (total s.2 d)).sum) : ∃ x, (d, x) ∈ t.root.files := by
  obtain ⟨h1, h2⟩ := (sum_exact h).2 t ht
  by_cases hi : ∃ s ∈ ss, Important s.1 s.2 d
  · exact ⟨_, (h2 d _).2 ⟨hi, rfl⟩⟩
  · exfalso
    rw [h1, sum_map hf, List.map_map] at hd
    have : (ss.map fun s => f (total s.2 d)).sum ≤ (ss.map (f ∘ Prod.fst)).sum :=
      sum_le _ _ _ fun s hs => (contribution_bounds (h s hs) d hf (hc s hs)).2.2 fun hh => hi ⟨s, hs, hh⟩
    omega

/-- **What is listed as largest**: exactly what is larger than the cut-off and, without what is listed below it, still at least as large; with this remaining amount. -/
theorem largest_exact {ss : List (Vals × List (FS α))} (h : ∀ s ∈ ss, Listing s.2) {f : Vals → Int} (hf : Value f) {t : Tree α} (ht : filesSum ss = some t) (d : List α) (x : Int) :
    (d, x) ∈ topFs f t ↔ ∃ v, (d, v) ∈ t.root.files ∧ f t.cutoff < f v ∧ f t.cutoff ≤ x ∧ x = f v - listedBelow (topFs f t) d := by
  have hg := (filesSum_some (fun s hs => is_forest (h s hs)) ht).1.good
  rw [topFs_spec hf hg]
  constructor
  · rintro ⟨h1, v, h2, h3, h4⟩; exact ⟨v, h2, h3, h1, h4⟩
  · rintro ⟨v, h2, h3, h1, h4⟩; exact ⟨h1, v, h2, h3, h4⟩

/-- **With one session, in terms of its files alone**: what is listed has more than the cut-off, and its amount is its total without what is listed below it; what is more than the cut-off is
listed itself, unless what remains of it is less than that. -/
theorem one_session {es : List (FS α)} (h : Listing es) {cut : Vals} {f : Vals → Int} (hf : Value f) {t : Tree α} (ht : filesSum [(cut, es)] = some t) (hc : 0 ≤ f cut) (d : List α) (x : Int) :
    (d, x) ∈ topFs f t ↔ f cut < f (total es d) ∧ f cut ≤ x ∧ x = f (total es d) - listedBelow (topFs f t) d ∧ ∃ y ∈ es, y.1 = d := by
  have hs : ∀ s ∈ [(cut, es)], Listing s.2 := by simpa using h
  obtain ⟨h1, h2⟩ := (sum_exact hs).2 t ht
  simp only [List.map_cons, List.map_nil, sumVals_one] at h1 h2
  rw [largest_exact hs hf ht, h1]
  constructor
  · rintro ⟨v, hv, a, b, c⟩
    obtain ⟨⟨s, hs', hi⟩, rfl⟩ := (h2 d v).1 hv
    simp only [List.mem_singleton] at hs'
    subst hs'
    rw [contribution_pos hi] at a c
    exact ⟨a, b, c, hi.1⟩
  · rintro ⟨a, b, c, hd⟩
    have hi : Important cut es d := ⟨hd, by cases hf <;> omega⟩
    have hi' : Important (cut, es).1 (cut, es).2 d := hi
    refine ⟨_, (h2 d _).2 ⟨⟨(cut, es), by simp, hi⟩, rfl⟩, ?_⟩
    rw [contribution_pos hi']
    exact ⟨a, b, c⟩

/-- **The listed amounts are disjoint parts of the whole**: what isn't listed is nothing, or less than the cut-off. -/
theorem rest_small {ss : List (Vals × List (FS α))} (h : ∀ s ∈ ss, Listing s.2) {f : Vals → Int} (hf : Value f) {t : Tree α} (ht : filesSum ss = some t) (hv : f t.cutoff < f t.root.v) :
    f t.root.v - ((topFs f t).map Prod.snd).sum = 0 ∨ 0 < f t.root.v - ((topFs f t).map Prod.snd).sum ∧ f t.root.v - ((topFs f t).map Prod.snd).sum < f t.cutoff := by
  have := topFs_sum hf (filesSum_some (fun s hs => is_forest (h s hs)) ht).1.good hv
  omega

/-- **Percentages are defined**: if anything is listed, then the whole isn't zero. -/
theorem percentages_defined {f : Vals → Int} {t : Tree α} (hc : 0 ≤ f t.cutoff) {d : List α} {x : Int} (hx : (d, x) ∈ topFs f t) :
    percentage f t x = some (100 * x, f t.root.v) ∧ 0 < f t.root.v := by
  have : f t.cutoff < f t.root.v := by
    by_contra hn
    simp [topFs, top, Int.not_lt.1 hn] at hx
  rw [percentage, if_neg (by omega)]
  exact ⟨rfl, by omega⟩

end

/-! two sessions: a directory `1` with two files and a directory `2` with one, all in it new at first; then only `[1, 0]` has changed -/
def es0 : List (FS Nat) := [([], ⟨1, 0, 0⟩), ([1], ⟨1, 0, 0⟩), ([1, 0], ⟨1, 30, 0⟩), ([1, 5], ⟨1, 20, 0⟩), ([2], ⟨1, 0, 0⟩), ([2, 0], ⟨1, 10, 0⟩)]
def es1 : List (FS Nat) := [([], ⟨0, 0, 0⟩), ([1], ⟨0, 0, 0⟩), ([1, 0], ⟨1, 31, 7⟩), ([1, 5], ⟨0, 20, 0⟩), ([2], ⟨0, 0, 0⟩), ([2, 0], ⟨0, 10, 0⟩)]
def ss0 : List (Vals × List (FS Nat)) := [(⟨3, 20, 1⟩, es0), (⟨1, 20, 1⟩, es1)]

theorem listing0 : Listing es0 ∧ Listing es1 :=
  ⟨⟨⟨_, _, rfl⟩, by decide, by decide, by decide⟩, ⟨⟨_, _, rfl⟩, by decide, by decide, by decide⟩⟩
theorem listings0 : ∀ s ∈ ss0, Listing s.2 := by
  intro s hs
  simp only [ss0, List.mem_cons, List.not_mem_nil, or_false] at hs
  rcases hs with rfl | rfl
  · exact listing0.1
  · exact listing0.2

def tree0 : Tree Nat := (filesSum ss0).get (by decide +kernel)
theorem tree0_eq : filesSum ss0 = some tree0 := (Option.some_get _).symm

/-! `[2]` isn't important in either session, `[1, 5]` in both, with all of its bytes -/
example : tree0.root.files = [([], ⟨7, 121, 7⟩), ([1], ⟨4, 101, 7⟩), ([1, 0], ⟨2, 61, 7⟩), ([1, 5], ⟨1, 40, 0⟩)] := by decide +kernel
example : make ⟨3, 20, 1⟩ es0 ≠ none := fun h => ((tree_exact listing0.1 _).1.1 h) (by decide)
example : make ⟨7, 61, 1⟩ es0 = none := (tree_exact listing0.1 _).1.2 (by decide)
example : ([1, 5], ⟨1, 40, 0⟩) ∈ tree0.root.files := (((sum_exact listings0).2 _ tree0_eq).2 _ _).2 ⟨⟨(⟨3, 20, 1⟩, es0), by decide, by decide⟩, by decide⟩
example : (filesSum ss0).isSome := (sum_exact listings0).1.2 ⟨by decide, by decide⟩
example : tree0.cutoff.source < (ss0.map fun s => (total s.2 [1]).source).sum ∧ ∃ x, ([1], x) ∈ tree0.root.files :=
  ⟨by decide +kernel, none_missed listings0 .source (by decide) tree0_eq (by decide +kernel)⟩
/-! of the changes in `[1, 5]` one was counted, of those in `[1]` all four -/
example : (1 : Int) ≤ (ss0.map fun s => (total s.2 [1, 5]).changed).sum := (bounds listings0 .changed (by decide) tree0_eq (d := [1, 5]) (x := ⟨1, 40, 0⟩) (by decide +kernel)).1
/-! the file is listed, at 61 of 121 bytes, its directory with the other 40 bytes, but not the whole: 20 bytes remain -/
example : topFs Vals.source tree0 = [([1], 40), ([1, 0], 61)] ∧ tree0.cutoff.source = 40 := by decide +kernel
example : ([1, 0], 61) ∈ topFs Vals.source tree0 := (largest_exact listings0 .source tree0_eq _ _).2 ⟨⟨2, 61, 7⟩, by decide +kernel⟩
example : Vals.source tree0.cutoff < Vals.source tree0.root.v := by decide +kernel
example : percentage Vals.source tree0 61 = some (100 * 61, tree0.root.v.source) ∧ 0 < tree0.root.v.source := (percentages_defined (f := Vals.source) (t := tree0) (d := [1, 0]) (x := 61) (by decide +kernel) (by decide +kernel))
/-! in the first session -/
def tree1 : Tree Nat := (filesSum [(⟨3, 20, 1⟩, es0)]).get (by decide +kernel)
example : ([1, 0], 30) ∈ topFs Vals.source tree1 :=
  (one_session listing0.1 .source (Option.some_get (x := filesSum [(⟨3, 20, 1⟩, es0)]) (by decide +kernel)).symm (by decide) _ _).2 (by decide +kernel)

/-! ### from the files written to the statistics -/

theorem quotePath_injective : Function.Injective Quoting.quotePath := fun _ _ h => C15.quote_injective h

/-- **The file of statistics is read as it was written**, whatever the size of the buffers: with either separator, each entry gives its values, except for those beginning with `#`. -/
theorem file_exact (max unit : Nat) {sep : UInt8} (hs : sep = 10 ∨ sep = 0) {es : List Entry} (h : ∀ e ∈ es, NameOk e.index) {bs : List Bytes} (hb : bs.flatten = fileText max sep es) :
    parse unit (readBlocks sep [] bs) = (readable unit es).map fun x => (x.1.map Quoting.quotePath, x.2) := by
  rw [parse_file max unit hs h hb]
  simp [readable, listing]

/-- what is left out are whole directories -/
theorem readable_listing {unit : Nat} {es : List Entry} (h : Listing (listing unit es)) : Listing (readable unit es) := by
  have hsub : (readable unit es).Sublist (listing unit es) := (List.filter_sublist (l := es)).map _
  have hmem : ∀ x, x ∈ readable unit es ↔ x ∈ listing unit es ∧ hashed x.1 = false := by
    intro x
    simp only [readable, listing, List.mem_map, List.mem_filter]
    constructor
    · rintro ⟨e, ⟨h1, h2⟩, rfl⟩; exact ⟨⟨e, h1, rfl⟩, by simpa using h2⟩
    · rintro ⟨⟨e, h1, rfl⟩, h2⟩; exact ⟨e, ⟨h1, by simpa using h2⟩, rfl⟩
  refine ⟨?_, h.sorted.sublist hsub, fun x hx hne => ?_, fun x hx => h.nonneg x (hsub.subset hx)⟩
  · obtain ⟨v, rest, e⟩ := h.root
    cases es with
    | nil => simp [listing] at e
    | cons e0 es =>
      simp only [listing, List.map_cons, List.cons.injEq, Prod.mk.injEq] at e
      refine ⟨entryVals unit e0, readable unit es, ?_⟩
      rw [readable, List.filter_cons_of_pos (by rw [e.1.1]; rfl)]
      simp [listing, readable, e.1.1]
  · obtain ⟨h1, h2⟩ := (hmem x).1 hx
    obtain ⟨y, hy, e⟩ := h.parents x h1 hne
    refine ⟨y, (hmem y).2 ⟨hy, ?_⟩, e⟩
    rw [e]
    cases hx1 : x.1 with
    | nil => rfl
    | cons a l =>
      cases l with
      | nil => rfl
      | cons b l => rw [hx1] at h2; exact h2

/-- **Statistics, from the files written at the time of the backups**: with the cut-offs `num / unit` of the totals of each session, the program succeeds exactly if there are sessions, and in each
of them what is readable reaches one of the cut-offs; it then shows, under its quoted name, exactly what is important in at least one session, with the sum of its totals there. -/
theorem statistics_exact (num unit : Nat) {sep : UInt8} (hs : sep = 10 ∨ sep = 0) (ss : List Session) (h : ∀ s ∈ ss, s.Ok unit sep) :
    ((statistics num unit sep (ss.map fun s => (s.totals, s.blocks))).isSome ↔ ss ≠ [] ∧ ∀ s ∈ ss, Important (getCutoff num s.totals) (readable unit s.entries) []) ∧
    ∀ t, statistics num unit sep (ss.map fun s => (s.totals, s.blocks)) = some t →
      t.cutoff = sumVals (ss.map fun s => getCutoff num s.totals) ∧
      ∀ n x, (n, x) ∈ t.root.files ↔ ∃ d : List Bytes, n = d.map Quoting.quotePath ∧ (∃ s ∈ ss, Important (getCutoff num s.totals) (readable unit s.entries) d) ∧
        x = sumVals (ss.map fun s => contribution d (getCutoff num s.totals, readable unit s.entries)) := by
  have e : statistics num unit sep (ss.map fun s => (s.totals, s.blocks)) =
      filesSum (ss.map fun s => (getCutoff num s.totals, mapNames Quoting.quotePath (readable unit s.entries))) := by
    unfold statistics
    congr 1
    rw [List.map_map]
    refine List.map_congr_left fun s hs' => ?_
    simp only [Function.comp_apply, sessionFiles, file_exact s.max unit hs (h s hs').names (h s hs').text]
    rfl
  rw [e]
  have hf : ∀ s ∈ ss.map (fun s => (getCutoff num s.totals, mapNames Quoting.quotePath (readable unit s.entries))), IsForest s.2 := by
    intro s hs'
    obtain ⟨s, hm, rfl⟩ := List.mem_map.1 hs'
    exact forest_map quotePath_injective ⟨listing_forest (readable_listing (h s hm).listing), (readable_listing (h s hm).listing).nonneg⟩
  have hroot : (∀ s ∈ ss.map (fun s => (getCutoff num s.totals, mapNames Quoting.quotePath (readable unit s.entries))), Important s.1 s.2 []) ↔
      ∀ s ∈ ss, Important (getCutoff num s.totals) (readable unit s.entries) [] := by
    simp only [List.mem_map, forall_exists_index, and_imp, forall_apply_eq_imp_iff₂]
    refine forall_congr' fun s => forall_congr' fun _ => ?_
    have := important_map quotePath_injective (getCutoff num s.totals) (readable unit s.entries) []
    rwa [List.map_nil] at this
  refine ⟨⟨fun hs' => ?_, fun ⟨h1, h2⟩ => ?_⟩, fun t ht => ?_⟩
  · obtain ⟨t, ht⟩ := Option.isSome_iff_exists.1 hs'
    obtain ⟨_, h1, h2⟩ := filesSum_some hf ht
    exact ⟨by simpa using h1, hroot.1 h2⟩
  · obtain ⟨t, ht, _⟩ := filesSum_after (by simpa using h1) hf (hroot.2 h2)
    simp [ht]
  · have ha := (filesSum_some hf ht).1
    refine ⟨by rw [ha.cutoff, List.map_map]; rfl, fun n x => ?_⟩
    rw [ha.files]
    have hsum : ∀ d : List Bytes, sumVals ((ss.map fun s => (getCutoff num s.totals, mapNames Quoting.quotePath (readable unit s.entries))).map (contribution (d.map Quoting.quotePath))) =
        sumVals (ss.map fun s => contribution d (getCutoff num s.totals, readable unit s.entries)) := by
      intro d
      rw [List.map_map]
      congr 1
      refine List.map_congr_left fun s _ => ?_
      simp only [Function.comp_apply, contribution_map quotePath_injective]
    constructor
    · rintro ⟨⟨s, hs', hi⟩, rfl⟩
      obtain ⟨s, hs'', rfl⟩ := List.mem_map.1 hs'
      obtain ⟨d, rfl⟩ := important_name hi
      exact ⟨d, rfl, ⟨s, hs'', (important_map quotePath_injective _ _ _).1 hi⟩, hsum d⟩
    · rintro ⟨d, rfl, ⟨s, hs', hi⟩, rfl⟩
      exact ⟨⟨_, List.mem_map.2 ⟨s, hs', rfl⟩, (important_map quotePath_injective _ _ _).2 hi⟩, (hsum d).symm⟩

/-- **Statistics don't fail** for sessions as they are recorded, with a ratio of at most one, unless names begin with `#`. -/
theorem never_fails {num unit : Nat} (hr : num ≤ unit) {evs : List SStats.Event} (hreal : ∀ p ∈ SStats.pairsOf evs, p.Real) {es : List Entry}
    (hes : (SStats.pairsOf evs).map (fun p => p.src) = es.map fun e => e.src) (hl : Listing (listing unit es)) (hh : ∀ e ∈ es, hashed e.index = false) :
    Important (getCutoff num (SStats.session evs)) (readable unit es) [] := by
  have hre : readable unit es = listing unit es := by
    rw [readable, List.filter_eq_self.2 fun e he => by simp [hh e he]]
  rw [hre]
  obtain ⟨v, rest, hroot⟩ := hl.root
  refine ⟨⟨([], v), by simp [hroot], rfl⟩, .inr (.inl ?_)⟩
  have ht : (total (listing unit es) []).source = unit * (((es.map fun e => e.src).map sizeVal).sum : Nat) := by
    have hf : (listing unit es).filter (fun x => decide ([] <+: x.1)) = listing unit es := List.filter_eq_self.2 fun x _ => by simp
    simp only [total, hf]
    clear hf hroot hre hh hl hes
    induction es with
    | nil => simp [listing]
    | cons e es ih =>
      simp only [listing, List.map_cons, List.sum_cons] at ih ⊢
      rw [ih]
      simp only [entryVals]
      push_cast
      rw [Int.mul_add]
  rw [ht, ← hes, SStats.totals_are_sums evs hreal]
  simp only [getCutoff, SStats.expected]
  have hle : SStats.total (SStats.pairsOf evs) SStats.Pair.counted (fun p => SStats.bytes p.src) ≤ (((SStats.pairsOf evs).map fun p => p.src).map sizeVal).sum := by
    clear hreal hes
    generalize SStats.pairsOf evs = ps
    induction ps with
    | nil => simp [SStats.total]
    | cons p ps ih =>
      have hb : SStats.bytes p.src = sizeVal p.src := by cases p.src <;> rfl
      unfold SStats.total at ih ⊢
      simp only [List.map_cons, List.sum_cons]
      by_cases hp : p.counted = true
      · rw [List.filter_cons_of_pos hp]
        simp only [List.map_cons, List.sum_cons]
        omega
      · rw [List.filter_cons_of_neg hp]
        omega
  exact_mod_cast Nat.mul_le_mul hr hle

/-- the hypotheses of `rest_small` -/
example : tree0.root.v.source - ((topFs Vals.source tree0).map Prod.snd).sum < tree0.cutoff.source := by
  rcases rest_small listings0 .source tree0_eq (by decide +kernel) with h | h
  · exact absurd h (by decide +kernel)
  · exact h.2

/-! ### examples and counterexamples -/

def file (n : Nat) : Option SStats.File := some ⟨true, true, n⟩
def dir : Option SStats.File := some ⟨true, false, 0⟩
/-- a directory `a b` with a file `x`+newline of 50 bytes, both new, and a changed file `#y` of 50 bytes -/
def entries0 : List Entry :=
  [⟨[], dir, none, true, none⟩, ⟨[lit "#y"], file 50, file 40, true, file 10⟩, ⟨[lit "a b"], dir, none, true, none⟩, ⟨[lit "a b", lit "x" ++ [10]], file 50, none, true, none⟩]
def session0 : Session := ⟨{ newFiles := 3, changedFiles := 1, sourceFileSize := 100, newFileSize := 50, sourceFiles := 4, incrementFileSize := 10 }, entries0, 3, [(fileText 3 10 entries0).take 130, (fileText 3 10 entries0).drop 130]⟩

theorem session0_ok : session0.Ok 10 10 :=
  ⟨by
    have : ∀ e ∈ entries0, (∀ c ∈ e.index, c ≠ [] ∧ (47 : UInt8) ∉ c ∧ (0 : UInt8) ∉ c) ∧ e.index ≠ [[46]] := by decide +kernel
    exact this,
   ⟨⟨_, _, rfl⟩, by decide +kernel, by decide +kernel, by decide +kernel⟩, by simp [session0]⟩

example : fileText 3 10 entries0 = (lit "# Format of each line in file statistics file:") ++ [10] ++ (lit "# Filename Changed SourceSize MirrorSize IncrementSize") ++ [10] ++
    (lit ". 1 0 NA NA") ++ [10] ++ (lit "#y 1 50 40 10") ++ [10] ++ (lit "a b 1 0 NA NA") ++ [10] ++ (lit "a b/x\\n 1 50 NA NA") ++ [10] := by decide +kernel
example : parse 10 (readBlocks 10 [] session0.blocks) = [([], ⟨10, 0, 0⟩), ([lit "a b"], ⟨10, 0, 0⟩), ([lit "a b", lit "x\\n"], ⟨10, 500, 0⟩)] := by decide +kernel

/-- with a ratio of 4/10: the file is listed, under its quoted name -/
def tree2 : Tree Bytes := (statistics 4 10 10 [(session0.totals, session0.blocks)]).get (by decide +kernel)
example : ([lit "a b", lit "x\\n"], ⟨10, 500, 0⟩) ∈ tree2.root.files :=
  (((statistics_exact 4 10 (.inl rfl) [session0] (by simpa using session0_ok)).2 tree2 (Option.some_get _).symm).2 _ _).2
    ⟨[lit "a b", lit "x" ++ [10]], by decide +kernel, ⟨session0, by simp, by decide +kernel⟩, by decide +kernel⟩

/-- **Names beginning with `#` are ignored**: the file `#y` of 50 of 100 bytes isn't in the tree, though it is more than the cut-off of 40; and with a cut-off of 60 % there are no statistics at all,
the program fails, as what is left doesn't reach any of the cut-offs. -/
theorem hash_ignored :
    (∀ x, ([lit "#y"], x) ∉ tree2.root.files) ∧ tree2.cutoff.source < (total (listing 10 entries0) [lit "#y"]).source ∧
    Important (getCutoff 6 session0.totals) (listing 10 entries0) [] ∧ statistics 6 10 10 [(session0.totals, session0.blocks)] = none := by
  refine ⟨?_, by decide +kernel, by decide +kernel, by decide +kernel⟩
  have : ∀ y ∈ tree2.root.files, y.1 ≠ [lit "#y"] := by decide +kernel
  exact fun x hx => this _ hx rfl

/-- three new files in a new directory of a backup -/
def evs1 : List SStats.Event := [.pair ⟨dir, dir, false, .none⟩, .pair ⟨dir, none, true, .updated⟩, .pair ⟨file 1, none, true, .updated⟩, .pair ⟨file 1, none, true, .updated⟩, .pair ⟨file 1, none, true, .updated⟩]
def entries1 : List Entry := [⟨[], dir, dir, false, none⟩, ⟨[lit "a"], dir, none, true, none⟩, ⟨[lit "a", lit "1"], file 1, none, true, none⟩, ⟨[lit "a", lit "2"], file 1, none, true, none⟩,
  ⟨[lit "a", lit "3"], file 1, none, true, none⟩]
theorem listing1 : Listing (listing 10 entries1) := ⟨⟨_, _, rfl⟩, by decide +kernel, by decide +kernel, by decide +kernel⟩

/-- **The cut-off of changed files counts new files twice, and deleted files not at all**: all of four changes are in the directory `a`, but with a ratio of 6/10 it isn't among the directories with
most changes, as the cut-off is 4.8; with deleted instead of new files, the cut-off is 0. -/
theorem cutoff_wrong :
    getCutoff 6 (SStats.session evs1) = ⟨48, 18, 0⟩ ∧ (total (listing 10 entries1) [lit "a"]).changed = 40 ∧ (total (listing 10 entries1) []).changed = 40 ∧
    (∃ t, statistics 6 10 10 [(SStats.session evs1, [fileText 1 10 entries1])] = some t ∧ topFs Vals.changed t = [] ∧ topFs Vals.source t = [([lit "a"], 30)]) ∧
    getCutoff 6 (SStats.session [.pair ⟨none, file 1, true, .deleted⟩]) = ⟨0, 0, 0⟩ := by
  refine ⟨by decide +kernel, by decide +kernel, by decide +kernel, ⟨_, (Option.some_get (by decide +kernel)).symm, by decide +kernel⟩, by decide +kernel⟩

example : Important (getCutoff 10 (SStats.session evs1)) (readable 10 entries1) [] :=
  never_fails (Nat.le_refl _) (by
    have : ∀ p ∈ SStats.pairsOf evs1, (∀ f ∈ p.src, f.there = true) ∧ ∀ f ∈ p.dst, f.there = true := by decide +kernel
    exact fun p hp => ⟨fun f hf => (this p hp).1 f hf, fun f hf => (this p hp).2 f hf⟩) (by decide +kernel) listing1 (by decide +kernel)
end Verif.C68
