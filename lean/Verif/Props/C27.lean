import Verif.Proof.Filter
/-
C27 Selection iterator yields exactly the selected files and their ancestors.
C28 Selecting from metadata agrees with selecting from a directory.

Specification (`Proof/Selection.lean`): `listing`: the paths of a tree; `Open sel paths i`: no directory strictly above `i` is excluded;
`Selected sel paths i`: `i` is a path of the tree, `Open`, and either included, or to be scanned with an included, `Open` path below it.
`decide' cs`: the decision of the conditions about a file, fixed by C26's `first_match_wins`.
-/
set_option linter.unusedSectionVars false
namespace Verif.C27
open Verif.Selection
variable {α : Type} [LinearOrder α]

/-- C27, for all options but those of findings F18 and F19: the iterator does not raise, and generates, in ascending order and each path
once, the root directory and the selected paths. -/
theorem iterates_selected_partial {cs : List (Cond α)} (hp : ∀ c ∈ cs, C26.Plain c) (root : File) (hd : root.isdir = true) (content : Forest α)
    (hF : content.Ok) :
    ∃ out, iterate cs root content = some out ∧ out.Pairwise (· < ·) ∧
      ∀ i, i ∈ out ↔ i = [] ∨ Selected (decide' cs) (listing [] content) i := by
  obtain ⟨cs', h, -⟩ := walk_pure hp content hF [] cs fun m _ => RelAll.refl _ cs
  refine ⟨[] :: pureWalk (decide' cs) [] content, by rw [iterate_eq cs root content hd, h]; rfl, ?_, fun i => ?_⟩
  · rw [List.pairwise_cons]
    refine ⟨fun i hi => ?_, pureWalk_sorted hF []⟩
    obtain ⟨m, -, hm⟩ := pureWalk_below hF hi
    exact lt_of_prefix_ne (List.nil_prefix) (fun e => by rw [← e] at hm; simp at hm)
  · rw [List.mem_cons, mem_pureWalk hF]

/-- what `decide'` is: the documented decision -/
theorem decide_is_decision (cs : List (Cond α)) (i : List α) (f : File) : C26.Decision cs i (some f) (decide' cs i f) := by
  obtain ⟨v, cs', h⟩ := C26.select_total .excl cs i f
  have h' : selectDefault cs i (some f) = some (v, cs') := h
  rw [decide'_eq h']
  exact C26.first_match_wins cs i (some f) v cs' h'

/-- Another root file than a directory is generated alone. -/
theorem single_file (cs : List (Cond α)) (root : File) (hd : root.isdir = false) (content : Forest α) : iterate cs root content = some [[]] := by
  simp [iterate, hd]

/-- 1: directory with 1/1 file, 1/2 directory with 1/2/5 file; 2: directory with file 2/1; 3: file -/
def tree : Forest Nat :=
  .cons 1 ⟨.dir, 0, 0⟩ (.cons 1 ⟨.reg, 3, 0⟩ .nil (.cons 2 ⟨.dir, 0, 0⟩ (.cons 5 ⟨.reg, 2, 0⟩ .nil .nil) .nil))
    (.cons 2 ⟨.dir, 0, 0⟩ (.cons 1 ⟨.reg, 0, 0⟩ .nil .nil) (.cons 3 ⟨.reg, 0, 0⟩ .nil .nil))

/-- `--include` of files named 5 (a glob which scans every directory), exclude everything else -/
def only5 : List (Cond Nat) := [.glob (fun i => i.getLast? == some 5) (fun _ => true) true, .all false]

example : tree.Ok ∧ (∀ c ∈ only5, C26.Plain c) ∧ iterate only5 ⟨.dir, 0, 0⟩ tree = some [[], [1], [1, 2], [1, 2, 5]] := by
  refine ⟨?_, by simp [only5, C26.Plain], by decide +kernel⟩
  simp [tree, Forest.Ok, Forest.names]

end Verif.C27

namespace Verif.C28
open Verif.Selection
variable {α : Type} [LinearOrder α]

/-- C28, for conditions which ask only for directories to be scanned and which exclude every directory below an excluded one (and the
options of C27): selecting from the listing does not raise, generates every path the iteration over the directory generates, in ascending order,
and besides these only directories to be scanned (F17). (If nothing at all is selected the root may be missing.) -/
theorem metadata_selection_partial {cs : List (Cond α)} (hp : ∀ c ∈ cs, C26.Plain c) (root : File) (hd : root.isdir = true) (content : Forest α)
    (hF : content.Ok) (hroot : decide' cs [] root ≠ .excl)
    (hscan : ∀ i f, (i, f) ∈ listing [] content → decide' cs i f = .scan → f.isdir = true)
    (hex : ∀ j g i f, (j, g) ∈ listing [] content → (i, f) ∈ listing [] content → decide' cs j g = .excl → j <+: i → f.isdir = true →
      decide' cs i f = .excl) :
    ∃ o₁ o₂, iterate cs root content = some o₁ ∧ filterIter cs (metadata root content) = some o₂ ∧ o₂.Pairwise (· < ·) ∧
      (∀ i ∈ o₁, i ∈ o₂ ∨ i = [] ∧ o₂ = []) ∧
      ∀ i ∈ o₂, i ∈ o₁ ∨ ∃ f, (i, f) ∈ listing [] content ∧ decide' cs i f = .scan := by
  obtain ⟨o₁, h1, -, hmem⟩ := C27.iterates_selected_partial hp root hd content hF
  -- the root
  obtain ⟨cs1, hsel, hrel⟩ := selectDefault_rel (RelAll.refl [] cs) root
  have run : ∀ q o, startDir ⟨cs, none, [], []⟩ [] root = some (⟨cs1, none, [([], false)], q⟩, o) → (q = [] ∧ o = [[]] ∨ q = [[]] ∧ o = []) →
      ∃ o₂, filterIter cs (metadata root content) = some o₂ ∧ o₂.Pairwise (· < ·) ∧ (∀ i ∈ o₁, i ∈ o₂ ∨ i = [] ∧ o₂ = []) ∧
      ∀ i ∈ o₂, i ∈ o₁ ∨ ∃ f, (i, f) ∈ listing [] content ∧ decide' cs i f = .scan := by
    intro q o hstart hqo
    obtain ⟨s', -, -, hL⟩ := filter_walk (cs₀ := cs) content hF [] false [] hscan ⟨cs1, some [], [([], false)], q⟩
      ⟨fun m _ => hrel _ (lt_of_prefix_ne List.nil_prefix (by simp)), ⟨[], rfl, fun m _ => lt_of_prefix_ne List.nil_prefix (by simp)⟩, ⟨[], rfl, by simp⟩⟩
    have hrun : filterIter cs (metadata root content) = some (o ++ (filtWalk (decide' cs) false [] content q).1) := by
      have hL' := hL []
      rw [List.append_nil] at hL'
      simp only [filterIter, metadata, hd, if_true, filterFrom, filterStep, hstart, Option.map_some]
      rw [hL']
      simp [filterFrom]
    have hqat : QueueAt ([] : List α) q [] q := by
      rcases hqo with ⟨rfl, -⟩ | ⟨rfl, -⟩
      · exact ⟨rfl, by simp, .inl rfl⟩
      · exact ⟨rfl, by simp, .inr ⟨[], rfl⟩⟩
    obtain ⟨⟨X', -, hx⟩, hsub, hsl, hgo, -⟩ := filt_spec content hF [] q [] q hqat hscan hex
    refine ⟨_, hrun, ?_, ?_, ?_⟩
    · -- ascending
      have hall : ([] :: (listing [] content).map Prod.fst).Pairwise (· < ·) := by
        rw [List.pairwise_cons]
        refine ⟨fun i hi => ?_, listing_sorted hF []⟩
        obtain ⟨⟨j, g⟩, hj, rfl⟩ := List.mem_map.1 hi
        obtain ⟨m, -, hm⟩ := mem_listing hj
        exact lt_of_prefix_ne List.nil_prefix (fun e => by rw [← e] at hm; simp at hm)
      refine hall.sublist ?_
      have h2 := (List.sublist_append_left _ _).trans hsl
      rcases hqo with ⟨rfl, rfl⟩ | ⟨rfl, rfl⟩
      · simpa using h2
      · simpa using h2
    · intro i hi
      rcases (hmem i).1 hi with rfl | hs
      · rcases hqo with ⟨rfl, rfl⟩ | ⟨rfl, rfl⟩
        · simp
        · rcases hx with ⟨-, hx⟩ | ⟨-, hx⟩
          · exact .inr ⟨rfl, by simp [hx]⟩
          · exact .inl (by simpa using hx)
      · exact .inl (List.mem_append_right _ (hsub ((mem_pureWalk hF [] i).2 hs)))
    · intro i hi
      have hroot' : i ∈ q ∨ i ∈ o → i = [] := by
        rcases hqo with ⟨rfl, rfl⟩ | ⟨rfl, rfl⟩ <;> simp
      rcases List.mem_append.1 hi with hi | hi
      · exact .inl ((hmem i).2 (.inl (hroot' (.inr hi))))
      · rcases hgo i hi with h | ⟨f, hf1, hf2, hf3⟩
        · exact .inl ((hmem i).2 (.inl (hroot' (.inl h))))
        · cases hv : decide' cs i f with
          | excl => exact absurd hv hf3
          | incl => exact .inl ((hmem i).2 (.inr ⟨f, hf1, hf2, .inl hv⟩))
          | scan => exact .inr ⟨f, hf1, hv⟩
  cases hv : decide' cs [] root with
  | excl => exact absurd hv hroot
  | incl =>
    obtain ⟨o₂, h⟩ := run [] [[]] (by simp [startDir, hsel, hv]) (.inl ⟨rfl, rfl⟩)
    exact ⟨o₁, o₂, h1, h⟩
  | scan =>
    obtain ⟨o₂, h⟩ := run [[]] [] (by simp [startDir, hsel, hv]) (.inr ⟨rfl, rfl⟩)
    exact ⟨o₁, o₂, h1, h⟩

/-- If no directory is only to be scanned (no option includes by a pattern below a directory which is not included itself) both selections
are the same list. -/
theorem metadata_selection_same {cs : List (Cond α)} (hp : ∀ c ∈ cs, C26.Plain c) (root : File) (hd : root.isdir = true) (content : Forest α)
    (hF : content.Ok) (hroot : decide' cs [] root = .incl) (hscan : ∀ i f, (i, f) ∈ listing [] content → decide' cs i f ≠ .scan)
    (hex : ∀ j g i f, (j, g) ∈ listing [] content → (i, f) ∈ listing [] content → decide' cs j g = .excl → j <+: i → f.isdir = true →
      decide' cs i f = .excl) :
    ∃ o, iterate cs root content = some o ∧ filterIter cs (metadata root content) = some o := by
  obtain ⟨o₁, h1, hs1, hmem⟩ := C27.iterates_selected_partial hp root hd content hF
  obtain ⟨o₁', o₂, h1', h2, hs2, h3, h4⟩ := metadata_selection_partial hp root hd content hF (by simp [hroot]) (fun i f hi hv => absurd hv (hscan i f hi)) hex
  rw [h1] at h1'
  obtain rfl := Option.some.inj h1'
  refine ⟨o₁, h1, ?_⟩
  rw [h2]
  congr 1
  have hne : o₂ ≠ [] := by
    rintro rfl
    -- the root is generated
    obtain ⟨cs1, hsel, hrel⟩ := selectDefault_rel (RelAll.refl [] cs) root
    have : ∃ r, filterIter cs (metadata root content) = some ([] :: r) ∨ filterIter cs (metadata root content) = none := by
      simp only [filterIter, metadata, hd, if_true, filterFrom, filterStep, startDir, hsel, hroot, Option.map_some]
      cases filterFrom _ (listing [] content) with
      | none => exact ⟨[], .inr rfl⟩
      | some r => exact ⟨r, .inl (by simp)⟩
    obtain ⟨r, hr | hr⟩ := this <;> simp [h2] at hr
  have hperm : o₂.Perm o₁ := by
    rw [List.perm_ext_iff_of_nodup (hs2.imp (fun h => ne_of_lt h)) (hs1.imp (fun h => ne_of_lt h))]
    intro i
    constructor
    · intro hi
      rcases h4 i hi with h | ⟨f, hf, hv⟩
      · exact h
      · exact absurd hv (hscan i f hf)
    · intro hi
      rcases h3 i hi with h | ⟨-, h⟩
      · exact h
      · exact absurd h hne
  exact hperm.eq_of_pairwise (fun a b _ _ h1 h2 => absurd h2 (lt_asymm h1)) hs2 hs1

/-- the hypotheses of `metadata_selection_partial` with something scanned -/
def scanDirs : List (Cond Nat) := [.glob (fun i => i == [1, 2, 5]) (fun i => i == [1] || i == [1, 2] || i == []) true, .all false]

example : (∀ c ∈ scanDirs, C26.Plain c) ∧ decide' scanDirs [] ⟨.dir, 0, 0⟩ = .scan ∧
    (∀ x ∈ listing [] C27.tree, decide' scanDirs x.1 x.2 = .scan → x.2.isdir = true) ∧
    (∀ x ∈ listing [] C27.tree, ∀ y ∈ listing [] C27.tree, decide' scanDirs x.1 x.2 = .excl → x.1 <+: y.1 → y.2.isdir = true →
      decide' scanDirs y.1 y.2 = .excl) ∧
    filterIter scanDirs (metadata ⟨.dir, 0, 0⟩ C27.tree) = some [[], [1], [1, 2], [1, 2, 5]] := by
  refine ⟨by simp [scanDirs, C26.Plain], by decide +kernel, by decide +kernel, by decide +kernel, by decide +kernel⟩

/-- the hypotheses of `metadata_selection_same` with something excluded -/
def excl2 : List (Cond Nat) := [.tuple [2] false]

example : (∀ c ∈ excl2, C26.Plain c) ∧ decide' excl2 [] ⟨.dir, 0, 0⟩ = .incl ∧
    (∀ x ∈ listing [] C27.tree, decide' excl2 x.1 x.2 ≠ .scan) ∧
    (∀ x ∈ listing [] C27.tree, ∀ y ∈ listing [] C27.tree, decide' excl2 x.1 x.2 = .excl → x.1 <+: y.1 → y.2.isdir = true →
      decide' excl2 y.1 y.2 = .excl) ∧
    iterate excl2 ⟨.dir, 0, 0⟩ C27.tree = some [[], [1], [1, 1], [1, 2], [1, 2, 5], [3]] := by
  refine ⟨by simp [excl2, C26.Plain], by decide +kernel, by decide +kernel, by decide +kernel, by decide +kernel⟩

/-- Finding F16: the iteration over a directory skips a file for which an option asks for a scan (a glob which could match below it), the
selection from the metadata raises an exception. With `--include '**.py' --exclude '**'` this happens at the first file not matching. -/
theorem scanned_file_raises :
    iterate C27.only5 ⟨.dir, 0, 0⟩ C27.tree = some [[], [1], [1, 2], [1, 2, 5]] ∧
    filterIter C27.only5 (metadata ⟨.dir, 0, 0⟩ C27.tree) = none := by decide +kernel

/-- Finding F4: a directory below an excluded directory is taken from the metadata if no condition excludes it by itself, but is never
reached in the directory. -/
theorem below_excluded_directory :
    ∃ (cs : List (Cond Nat)) (content : Forest Nat), content.Ok ∧ (∀ c ∈ cs, C26.Plain c) ∧
      iterate cs ⟨.dir, 0, 0⟩ content = some [[]] ∧
      filterIter cs (metadata ⟨.dir, 0, 0⟩ content) = some [[], [1, 2], [1, 2, 3]] :=
  ⟨[.regexp (fun i => i == [1]) false], .cons 1 ⟨.dir, 0, 0⟩ (.cons 2 ⟨.dir, 0, 0⟩ (.cons 3 ⟨.reg, 0, 0⟩ .nil .nil) .nil) .nil,
    by simp [Forest.Ok, Forest.names], by simp [C26.Plain], by decide +kernel, by decide +kernel⟩

/-- Finding F17: a directory to be scanned in which nothing is selected is taken from the metadata if a later path is included. -/
theorem empty_scanned_directory :
    ∃ (cs : List (Cond Nat)) (content : Forest Nat), content.Ok ∧ (∀ c ∈ cs, C26.Plain c) ∧
      iterate cs ⟨.dir, 0, 0⟩ content = some [[], [2]] ∧
      filterIter cs (metadata ⟨.dir, 0, 0⟩ content) = some [[], [1], [2]] :=
  ⟨[.glob (fun i => i == [1, 7] || i == [2]) (fun i => i == [1]) true, .tuple [1] false, .all true],
    .cons 1 ⟨.dir, 0, 0⟩ (.cons 3 ⟨.reg, 0, 0⟩ .nil .nil) (.cons 2 ⟨.reg, 0, 0⟩ .nil .nil),
    by simp [Forest.Ok, Forest.names], by simp [C26.Plain], by decide +kernel, by decide +kernel⟩

end Verif.C28
