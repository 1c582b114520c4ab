import Verif.Props.C27
import Verif.Proof.WalkErrors

/-
C85  Errors while reading the source hide only what they concern, and are reported

Specification (`Spec/WalkErrors.lean`): `Visible a i`: the path `i` and all directories above it can be looked at, and the directories above it, the root with them,
can be listed. `Open`, `Selected` as in C27. For all options but those of findings F18 and F19, as there, hence `_partial`.
-/
set_option linter.unusedSectionVars false
namespace Verif.C85
open Verif.Selection Verif.WalkErrors Verif.Spec.WalkErrors
variable {α : Type} [LinearOrder α]

theorem mem_visible {a : Access α} {paths : List (List α × File)} {x : List α × File} : x ∈ visible a paths ↔ x ∈ paths ∧ Visible a x.1 := by
  simp [visible]

theorem mem_start {a : Access α} {content : Forest α} (x : List α × File) :
    x ∈ listing [] (prune a [] (listdir a [] content).1) ↔ x ∈ visible a (listing [] content) := by
  obtain ⟨i, g⟩ := x
  rw [mem_visible, prune_listdir]
  by_cases hl : a.lists [] = true
  · rw [if_pos hl, mem_prune]
    refine and_congr_right fun hm => ⟨fun h => ⟨fun j hj hne => ?_, fun j hj hne => ?_⟩, fun h => ⟨fun j hj hl' => ?_, fun j hj hne hl' => h.2 j hj hne⟩⟩
    · exact h.1 j hj (List.length_pos_iff.2 hne)
    · by_cases he : j = []
      · rw [he]; exact hl
      · exact h.2 j hj hne (List.length_pos_iff.2 he)
    · exact h.1 j hj (by intro e; rw [e] at hl'; simp at hl')
  · rw [if_neg hl]
    simp only [listing, List.not_mem_nil, false_iff]
    rintro ⟨hm, -, h2⟩
    obtain ⟨m, -, hb⟩ := mem_listing hm
    refine hl (h2 [] List.nil_prefix fun e => ?_)
    simp only at hb e
    rw [← e] at hb; simp at hb

/-- C85 The walk through a source ends with a list, whatever fails: in ascending order and each once the root and the files selected among those which can be seen. -/
theorem walk_partial (a : Access α) {cs : List (Cond α)} (hp : ∀ c ∈ cs, C26.Plain c) (root : File) (hd : root.isdir = true) (content : Forest α) (hF : content.Ok) :
    ∃ out errs, WalkErrors.iterate a cs root content = some (out, errs) ∧ out.Pairwise (· < ·) ∧
      ∀ i, i ∈ out ↔ i = [] ∨ Selected (decide' cs) (visible a (listing [] content)) i := by
  have hs := walkLoop_prune a cs [] [([], (listdir a [] content).1)] hp
  have hok : (prune a [] (listdir a [] content).1).Ok := by
    rw [prune_listdir]; split
    · exact prune_ok a _ _ hF
    · simp [Forest.Ok]
  obtain ⟨o, ho, hsorted, hmem⟩ := C27.iterates_selected_partial hp root hd (prune a [] (listdir a [] content).1) hok
  simp only [List.map_cons, List.map_nil] at hs
  simp only [Selection.iterate, hd, if_true, Option.map_eq_some_iff] at ho
  obtain ⟨o', ho', rfl⟩ := ho
  rw [ho'] at hs
  simp only [Option.map_eq_some_iff] at hs
  obtain ⟨⟨o'', es⟩, h1, h2⟩ := hs
  obtain rfl : o'' = o' := h2
  refine ⟨[] :: o'', (listdir a [] content).2 ++ es, by simp [WalkErrors.iterate, hd, h1], hsorted, fun i => ?_⟩
  rw [hmem, selected_congr mem_start]

/-- C85 Nothing fails: the walk is the one of C27, and there are no errors. -/
theorem nothing_fails_partial (a : Access α) (ha : ∀ i, a.stat i = .ok ∧ a.lists i = true) {cs : List (Cond α)} (hp : ∀ c ∈ cs, C26.Plain c) (root : File)
    (content : Forest α) (hF : content.Ok) : WalkErrors.iterate a cs root content = (Selection.iterate cs root content).map fun o => (o, []) := by
  by_cases hd : root.isdir = true
  · have hl : listdir a [] content = (content, []) := by simp [listdir, (ha []).2]
    have pr : ∀ (F : Forest α) d, prune a d F = F := by
      intro F
      induction F with
      | nil => intro d; rfl
      | cons n f ch rest ihc ihr => intro d; simp [prune, (ha _).1, (ha _).2, ihc, ihr]
    have pe : ∀ (F : Forest α) d, pureErrs a (decide' cs) (nameExcl cs) d F = [] := by
      intro F
      induction F with
      | nil => intro d; rfl
      | cons n f ch rest ihc ihr => intro d; simp [pureErrs, (ha _).1, (ha _).2, ihc, ihr]
    have h1 := walkLoop_prune a cs [] [([], content)] hp
    obtain ⟨o, ho⟩ := errs_pure hp a cs [] [([], content)] ⟨fun x hx m _ => RelAll.refl _ cs, by simpa using hF, by simp⟩
    simp only [List.map_cons, List.map_nil, pr] at h1
    simp only [List.flatMap_cons, List.flatMap_nil, pe] at ho
    rw [ho, Option.map_some] at h1
    simp [WalkErrors.iterate, Selection.iterate, hd, hl, ho, ← h1]
  · simp [WalkErrors.iterate, Selection.iterate, hd]

theorem excl_of_name {cs : List (Cond α)} (hp : ∀ c ∈ cs, C26.Plain c) {i : List α} (h : nameExcl cs i = true) (f : File) : decide' cs i f = .excl := by
  obtain ⟨w, hw⟩ := C26.selectName_state hp .excl i
  have hw' : selectFilename cs i = some (w, cs) := hw
  have : w = .excl := by simpa [nameExcl, hw'] using h
  subst this
  obtain ⟨cs', hs⟩ := C26.name_excl hp i f hw
  exact decide'_eq hs

/-- what the name alone decides -/
theorem nameExcl_iff {cs : List (Cond α)} {i : List α} : nameExcl cs i = true ↔ ∃ cs', selectFilename cs i = some (.excl, cs') := by
  simp only [nameExcl, decide_eq_true_eq, Option.map_eq_some_iff, Prod.exists, exists_and_right, exists_eq_right]

theorem reached_start {a : Access α} {sel : List α → File → Val} {content : Forest α} {i : List α} {f : File} :
    Reached a sel (listing [] (listdir a [] content).1) [] i f ↔
      (i, f) ∈ listing [] content ∧ Open sel (listing [] content) i ∧ ∀ j, j <+: i → j ≠ i → (j ≠ [] → a.stat j = .ok) ∧ a.lists j = true := by
  simp only [listdir]
  by_cases hl : a.lists [] = true
  · simp only [hl, if_true, Reached, Passable]
    refine and_congr_right fun _ => and_congr_right fun _ => forall_congr' fun j => imp_congr_right fun _ => imp_congr_right fun _ => ?_
    by_cases he : j = []
    · simp [he, hl]
    · have := List.length_pos_iff.2 he
      simp [he, this]
  · simp only [hl, Bool.false_eq_true, if_false, listing, Reached, List.not_mem_nil, false_and, false_iff]
    rintro ⟨hm, -, h2⟩
    obtain ⟨m, -, hb⟩ := mem_listing hm
    refine hl (h2 [] List.nil_prefix fun e => ?_).2
    simp only at hb
    rw [← e] at hb; simp at hb

theorem iterate_errs (a : Access α) {cs : List (Cond α)} (hp : ∀ c ∈ cs, C26.Plain c) (root : File) (hd : root.isdir = true) (content : Forest α)
    (hF : content.Ok) {out : List (List α)} {errs : List (Err α)} (h : WalkErrors.iterate a cs root content = some (out, errs)) :
    errs = (listdir a [] content).2 ++ pureErrs a (decide' cs) (nameExcl cs) [] (listdir a [] content).1 := by
  have hok : (listdir a [] content).1.Ok := by
    simp only [listdir]; split
    · exact hF
    · simp [Forest.Ok]
  obtain ⟨o, ho⟩ := errs_pure hp a cs [] [([], (listdir a [] content).1)] ⟨fun x hx m _ => RelAll.refl _ cs, by simpa using hok, by simp⟩
  simp only [WalkErrors.iterate, hd, if_true, ho, Option.map_some, Option.some.injEq, Prod.mk.injEq, List.flatMap_cons, List.flatMap_nil, List.append_nil] at h
  exact h.2.symm

/-- C85 The error log names exactly the files which can't be looked at and the directories which can't be listed, as far as somebody who looks for the selected files
comes to them: in a directory which isn't excluded and can be read, and so on up to the root. -/
theorem errors_exact_partial (a : Access α) {cs : List (Cond α)} (hp : ∀ c ∈ cs, C26.Plain c) (root : File) (hd : root.isdir = true) (content : Forest α)
    (hF : content.Ok) {out : List (List α)} {errs : List (Err α)} (h : WalkErrors.iterate a cs root content = some (out, errs)) (i : List α) :
    (.file i ∈ errs ↔ a.stat i = .fails ∧ (¬ ∃ cs', selectFilename cs i = some (.excl, cs')) ∧
      ∃ f, (i, f) ∈ listing [] content ∧ Open (decide' cs) (listing [] content) i ∧ ∀ j, j <+: i → j ≠ i → (j ≠ [] → a.stat j = .ok) ∧ a.lists j = true) ∧
    (.dir i ∈ errs ↔ a.lists i = false ∧ (i = [] ∨ a.stat i = .ok ∧
      ∃ f, (i, f) ∈ listing [] content ∧ f.isdir = true ∧ decide' cs i f ≠ .excl ∧ Open (decide' cs) (listing [] content) i ∧
        ∀ j, j <+: i → j ≠ i → (j ≠ [] → a.stat j = .ok) ∧ a.lists j = true)) := by
  have hok : (listdir a [] content).1.Ok := by
    simp only [listdir]; split
    · exact hF
    · simp [Forest.Ok]
  have hsel : (fun j g => if nameExcl cs j = true then Val.excl else decide' cs j g) = decide' cs := by
    funext j g
    split
    · next hn => exact (excl_of_name hp hn g).symm
    · rfl
  have hne : ∀ {f : File}, (i, f) ∈ listing [] content → i ≠ [] := by
    rintro f hm rfl
    obtain ⟨m, -, hb⟩ := mem_listing hm
    simp at hb
  have hroot : ∀ e, e ∈ (listdir a [] content).2 ↔ a.lists [] = false ∧ e = .dir [] := by
    intro e; simp only [listdir]; split <;> simp_all
  rw [iterate_errs a hp root hd content hF h]
  constructor
  · rw [List.mem_append, hroot, mem_errs_file _ hok, hsel, ← nameExcl_iff, Bool.not_eq_true]
    simp only [reached_start, reduceCtorEq, and_false, false_or]
  · rw [List.mem_append, hroot, mem_errs_dir _ hok, hsel]
    simp only [reached_start, Err.dir.injEq]
    constructor
    · rintro (⟨h1, rfl⟩ | ⟨h1, h2, f, ⟨h3, h4, h5⟩, h6, -, h7⟩)
      · exact ⟨h1, .inl rfl⟩
      · exact ⟨h1, .inr ⟨h2, f, h3, h6, h7, h4, h5⟩⟩
    · rintro ⟨h1, rfl | ⟨h2, f, h3, h4, h5, h6, h7⟩⟩
      · exact .inl ⟨h1, rfl⟩
      · refine .inr ⟨h1, h2, f, ⟨h3, h6, h7⟩, h4, ?_, h5⟩
        cases hn : nameExcl cs i with
        | false => rfl
        | true => exact absurd (excl_of_name hp hn f) h5

/-- C85 A file which can be seen and is included is walked to whatever else fails: it is found iff it is found without errors. -/
theorem others_unaffected_partial (a : Access α) {cs : List (Cond α)} (hp : ∀ c ∈ cs, C26.Plain c) (root : File) (hd : root.isdir = true) (content : Forest α)
    (hF : content.Ok) {out all : List (List α)} {errs : List (Err α)} (h : WalkErrors.iterate a cs root content = some (out, errs))
    (h' : Selection.iterate cs root content = some all) {i : List α} (hv : Visible a i) {f : File} (hm : (i, f) ∈ listing [] content) (hi : decide' cs i f = .incl) :
    i ∈ out ↔ i ∈ all := by
  obtain ⟨o, es, h1, -, h2⟩ := walk_partial a hp root hd content hF
  obtain ⟨o', h3, -, h4⟩ := C27.iterates_selected_partial hp root hd content hF
  rw [h] at h1; rw [h'] at h3
  obtain ⟨rfl, -⟩ : out = o ∧ errs = es := by simpa using h1
  obtain rfl : all = o' := by simpa using h3
  rw [h2, h4]
  apply or_congr_right
  -- directories above what can be seen can be seen
  have up : ∀ j, j <+: i → Visible a j := by
    intro j hj
    refine ⟨fun k hk hne => hv.1 k (hk.trans hj) hne, fun k hk hne => hv.2 k (hk.trans hj) ?_⟩
    rintro rfl
    exact hne (hk.eq_of_length_le hj.length_le)
  have op : Open (decide' cs) (visible a (listing [] content)) i ↔ Open (decide' cs) (listing [] content) i := by
    refine ⟨fun ho j g hj hji hne => ho j g (mem_visible.2 ⟨hj, up j hji⟩) hji hne, fun ho j g hj hji hne => ho j g (mem_visible.1 hj).1 hji hne⟩
  constructor
  · rintro ⟨g, hg, ho, -⟩
    exact ⟨f, hm, op.1 ho, .inl hi⟩
  · rintro ⟨g, hg, ho, -⟩
    exact ⟨f, mem_visible.2 ⟨hm, hv⟩, op.2 ho, .inl hi⟩

/-- C85 What is found can be seen, and would have been found without the errors. -/
theorem nothing_added_partial (a : Access α) {cs : List (Cond α)} (hp : ∀ c ∈ cs, C26.Plain c) (root : File) (hd : root.isdir = true) (content : Forest α)
    (hF : content.Ok) {out all : List (List α)} {errs : List (Err α)} (h : WalkErrors.iterate a cs root content = some (out, errs))
    (h' : Selection.iterate cs root content = some all) {i : List α} (hi : i ∈ out) : i ∈ all ∧ Visible a i := by
  obtain ⟨o, es, h1, -, h2⟩ := walk_partial a hp root hd content hF
  obtain ⟨o', h3, -, h4⟩ := C27.iterates_selected_partial hp root hd content hF
  rw [h] at h1; rw [h'] at h3
  obtain ⟨rfl, -⟩ : out = o ∧ errs = es := by simpa using h1
  obtain rfl : all = o' := by simpa using h3
  rcases (h2 i).1 hi with rfl | ⟨f, hf, ho, hs⟩
  · refine ⟨(h4 _).2 (.inl rfl), fun j hj hne => absurd (List.prefix_nil.1 hj) hne, fun j hj hne => absurd (List.prefix_nil.1 hj) hne⟩
  · obtain ⟨hf1, hf2⟩ := mem_visible.1 hf
    have op : ∀ k, Visible a k → Open (decide' cs) (visible a (listing [] content)) k → Open (decide' cs) (listing [] content) k := by
      intro k hk ho j g hj hji hne
      refine ho j g (mem_visible.2 ⟨hj, fun l hl hln => hk.1 l (hl.trans hji) hln, fun l hl hln => hk.2 l (hl.trans hji) ?_⟩) hji hne
      rintro rfl
      exact hln (hl.eq_of_length_le hji.length_le)
    refine ⟨(h4 i).2 (.inr ⟨f, hf1, op i hf2 ho, ?_⟩), hf2⟩
    rcases hs with hs | ⟨hs, k, g, hk, hik, hne, hok, hin⟩
    · exact .inl hs
    · obtain ⟨hk1, hk2⟩ := mem_visible.1 hk
      exact .inr ⟨hs, k, g, hk1, hik, hne, op k hk2 hok, hin⟩

/-- C85 A selected file which isn't found although it could have been has been hidden by an error in the log, or by a file above it, or itself, which went away. -/
theorem missing_reported_partial (a : Access α) {cs : List (Cond α)} (hp : ∀ c ∈ cs, C26.Plain c) (root : File) (hd : root.isdir = true) (content : Forest α)
    (hF : content.Ok) {out all : List (List α)} {errs : List (Err α)} (h : WalkErrors.iterate a cs root content = some (out, errs))
    (h' : Selection.iterate cs root content = some all) {i : List α} {f : File} (hm : (i, f) ∈ listing [] content) (hi : decide' cs i f = .incl) (hin : i ∈ all)
    (hout : i ∉ out) : ∃ j, j <+: i ∧ (.file j ∈ errs ∨ .dir j ∈ errs ∨ j ≠ [] ∧ a.stat j = .gone) := by
  have hnv : ¬ Visible a i := fun hv => hout ((others_unaffected_partial a hp root hd content hF h h' hv hm hi).2 hin)
  obtain ⟨o', h3, -, h4⟩ := C27.iterates_selected_partial hp root hd content hF
  rw [h'] at h3
  obtain rfl : all = o' := by simpa using h3
  have hne : i ≠ [] := by
    rintro rfl
    obtain ⟨m, -, hb⟩ := mem_listing hm
    simp at hb
  obtain ⟨f', hm', ho, hs⟩ := ((h4 i).1 hin).resolve_left hne
  -- every directory above is listed
  have ups : ∀ (F : Forest α) (d : List α), ∀ x ∈ listing d F, ∀ j, j <+: x.1 → d.length < j.length → j ≠ x.1 →
      ∃ g, (j, g) ∈ listing d F ∧ g.isdir = true := by
    intro F
    induction F with
    | nil => intro d x hx; simp [listing] at hx
    | cons n g ch rest ihc ihr =>
      intro d x hx j hj hl hnj
      rw [listing] at hx ⊢
      simp only [List.cons_append, List.mem_cons, List.mem_append] at hx ⊢
      rcases hx with rfl | hx | hx
      · exact absurd ((prefix_snoc_cases hj (List.prefix_refl _) hl).eq_of_length_le hj.length_le).symm hnj
      · have hb := below_of_mem (i := x.1) (g := x.2) hx
        split at hx
        · next hdir =>
          by_cases he : d ++ [n] = j
          · exact ⟨g, .inl (by rw [he]), hdir⟩
          · have hpj := prefix_snoc_cases hj hb.1 hl
            obtain ⟨g', h1, h2⟩ := ihc _ x hx j hj (lt_of_le_of_ne hpj.length_le fun e => he (hpj.eq_of_length e)) hnj
            exact ⟨g', .inr (.inl (by rw [if_pos hdir]; exact h1)), h2⟩
        · simp at hx
      · obtain ⟨g', h1, h2⟩ := ihr d x hx j hj hl hnj
        exact ⟨g', .inr (.inr h1), h2⟩
  -- the first obstacle on the way
  have first : ∀ n ≤ i.length, (∀ j, j <+: i → j.length < n → j ≠ i → (j ≠ [] → a.stat j = .ok) ∧ a.lists j = true) ∨
      ∃ j, j <+: i ∧ (.file j ∈ errs ∨ .dir j ∈ errs ∨ j ≠ [] ∧ a.stat j = .gone) := by
    intro n
    induction n with
    | zero => intro _; left; intro j _ hl; omega
    | succ n ih =>
      intro hn
      rcases ih (by omega) with hbelow | hfound
      · have hlen : (i.take n).length = n := by simp; omega
        have hpre : i.take n <+: i := List.take_prefix _ _
        have hnei : i.take n ≠ i := by intro e; rw [e] at hlen; omega
        have hpass : ∀ j, j <+: i.take n → j ≠ i.take n → (j ≠ [] → a.stat j = .ok) ∧ a.lists j = true := by
          intro j hj hnj
          have hlt : j.length < n := by
            have := lt_of_le_of_ne hj.length_le fun e => hnj (hj.eq_of_length e)
            omega
          exact hbelow j (hj.trans hpre) hlt (by intro e; rw [e] at hlt; omega)
        have hopen : Open (decide' cs) (listing [] content) (i.take n) := by
          intro j g hj hji hnj
          refine ho j g hj (hji.trans hpre) ?_
          rintro rfl
          exact hnj (hji.eq_of_length_le hpre.length_le)
        have hlast : ∀ j, j <+: i → j.length < n + 1 → j ≠ i → j ≠ i.take n → (j ≠ [] → a.stat j = .ok) ∧ a.lists j = true := by
          intro j hj hl hji hjt
          refine hbelow j hj ?_ hji
          refine lt_of_le_of_ne (by omega) fun e => hjt ?_
          rw [List.prefix_iff_eq_take.1 hj, e]
        by_cases hz : i.take n = []
        · by_cases hl : a.lists [] = true
          · left
            intro j hj hjl hji
            by_cases e : j = i.take n
            · rw [e, hz]; exact ⟨fun h => absurd rfl h, hl⟩
            · exact hlast j hj hjl hji e
          · right
            refine ⟨[], List.nil_prefix, .inr (.inl ?_)⟩
            exact ((errors_exact_partial a hp root hd content hF h []).2).2 ⟨by simpa using hl, .inl rfl⟩
        · obtain ⟨g, hg, hgd⟩ := ups content [] (i, f) hm (i.take n) hpre (List.length_pos_iff.2 hz) hnei
          have hnx : decide' cs (i.take n) g ≠ .excl := ho _ g hg hpre hnei
          cases hst : a.stat (i.take n) with
          | gone => exact .inr ⟨_, hpre, .inr (.inr ⟨hz, hst⟩)⟩
          | fails =>
            refine .inr ⟨_, hpre, .inl ?_⟩
            refine ((errors_exact_partial a hp root hd content hF h _).1).2 ⟨hst, ?_, g, hg, hopen, hpass⟩
            rw [← nameExcl_iff]
            intro hn'
            exact hnx (excl_of_name hp hn' g)
          | ok =>
            by_cases hl : a.lists (i.take n) = true
            · left
              intro j hj hjl hji
              by_cases e : j = i.take n
              · rw [e]; exact ⟨fun _ => hst, hl⟩
              · exact hlast j hj hjl hji e
            · refine .inr ⟨_, hpre, .inr (.inl ?_)⟩
              exact ((errors_exact_partial a hp root hd content hF h _).2).2 ⟨by simpa using hl, .inr ⟨hst, g, hg, hgd, hnx, hopen, hpass⟩⟩
      · exact .inr hfound
  rcases first i.length (Nat.le_refl _) with hpass | hfound
  · have hpass' : ∀ j, j <+: i → j ≠ i → (j ≠ [] → a.stat j = .ok) ∧ a.lists j = true := fun j hj hji =>
      hpass j hj (lt_of_le_of_ne hj.length_le fun e => hji (hj.eq_of_length e)) hji
    cases hst : a.stat i with
    | gone => exact ⟨i, List.prefix_refl _, .inr (.inr ⟨hne, hst⟩)⟩
    | fails =>
      refine ⟨i, List.prefix_refl _, .inl ?_⟩
      refine ((errors_exact_partial a hp root hd content hF h i).1).2 ⟨hst, ?_, f, hm, ho, hpass'⟩
      rw [← nameExcl_iff]
      intro hn'
      rw [excl_of_name hp hn' f] at hi
      simp at hi
    | ok =>
      exfalso
      refine hnv ⟨fun j hj hnj => ?_, fun j hj hnj => (hpass' j hj hnj).2⟩
      by_cases e : j = i
      · rw [e]; exact hst
      · exact (hpass' j hj e).1 hnj
  · exact hfound

/-! ## The code differs -/

/-- C85 A directory which can't be listed counts as an empty one, the root of the source, too: the walk ends with the root alone, and what isn't found in the source
is removed from the mirror. -/
theorem unlistable_is_empty (a : Access α) (cs : List (Cond α)) (root : File) (hd : root.isdir = true) (content : Forest α) (h : a.lists [] = false) :
    WalkErrors.iterate a cs root content = some ([[]], [.dir []]) := by
  simp [WalkErrors.iterate, hd, listdir, h, WalkErrors.walkLoop]

/-! ## The theorems speak about something -/

/-- the directory 1/2 can't be listed, 2 can't be looked at and 3 has gone -/
def bad : Access Nat :=
  { stat := fun i => if i = [2] then .fails else if i = [3] then .gone else .ok, lists := fun i => decide (i ≠ [1, 2]) }

example : C27.tree.Ok := by simp [C27.tree, Forest.Ok, Forest.names]
example : ∀ c ∈ ([.all true] : List (Cond Nat)), C26.Plain c := by simp [C26.Plain]
example : WalkErrors.iterate bad [.all true] ⟨.dir, 0, 0⟩ C27.tree = some ([[], [1], [1, 1], [1, 2]], [.dir [1, 2], .file [2]]) := by decide +kernel
example : Selection.iterate [.all true] ⟨.dir, 0, 0⟩ C27.tree = some [[], [1], [1, 1], [1, 2], [1, 2, 5], [2], [2, 1], [3]] := by decide +kernel
example : WalkErrors.iterate bad C27.only5 ⟨.dir, 0, 0⟩ C27.tree = some ([[]], [.dir [1, 2], .file [2]]) := by decide +kernel
/-- an excluded name isn't looked at -/
example : WalkErrors.iterate bad [.tuple [2] false, .all true] ⟨.dir, 0, 0⟩ C27.tree = some ([[], [1], [1, 1], [1, 2]], [.dir [1, 2]]) := by decide +kernel
example : Visible bad [1, 1] ∧ ¬ Visible bad [1, 2, 5] := by
  refine ⟨⟨fun j hj hne => ?_, fun j hj hne => ?_⟩, fun h => ?_⟩
  · have : j = [1] ∨ j = [1, 1] := by
      rcases j with _ | ⟨x, _ | ⟨y, _ | ⟨z, l⟩⟩⟩ <;> simp_all
    rcases this with rfl | rfl <;> decide
  · have : j = [] ∨ j = [1] := by
      rcases j with _ | ⟨x, _ | ⟨y, _ | ⟨z, l⟩⟩⟩ <;> simp_all
    rcases this with rfl | rfl <;> decide
  · exact absurd (h.2 [1, 2] ⟨[5], rfl⟩ (by decide)) (by decide)

end Verif.C85
