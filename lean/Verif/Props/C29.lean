import Verif.Model.Selection
import Verif.Proof.Index
/-
C29 File lists match as documented.
-/
namespace Verif.C29
open Verif.Selection
variable {α : Type} [LinearOrder α]

/-- the answers of a file list asked about one path after the other -/
def visit (list : List (List α × Bool)) : List (List α) → List (Option Val)
  | [] => []
  | i :: is => (filelistFn i list).1 :: visit (filelistFn i list).2 is

theorem pair_incl (i q : List α) : pairMatch i (q, true) =
    if q < i then (none, true) else if q = i then (some .incl, true) else if i <+: q then (some .incl, false) else (none, false) := by
  simp only [pairMatch, if_true]
  have : q.take i.length = i ↔ i <+: q := by rw [List.prefix_iff_eq_take]; exact eq_comm
  simp only [this]

theorem pair_excl (i q : List α) : pairMatch i (q, false) =
    if q <+: i then (some .excl, false) else if q < i then (none, true) else (none, false) := by
  simp only [pairMatch, Bool.false_eq_true, if_false]
  have : i.take q.length = q ↔ q <+: i := by rw [List.prefix_iff_eq_take]; exact eq_comm
  simp only [this]

/-- What the list skips can't match any later path. -/
theorem skipped {i k : List α} (h : i < k) (t : List α × Bool) (r : Option Val) (hm : pairMatch i t = (r, true)) :
    pairMatch k t = (none, true) := by
  obtain ⟨q, b⟩ := t
  cases b with
  | true =>
    rw [pair_incl] at hm ⊢
    split at hm
    · next hq => rw [if_pos (lt_trans hq h)]
    · split at hm
      · next hq => rw [if_pos (hq ▸ h)]
      · split at hm <;> simp at hm
  | false =>
    rw [pair_excl] at hm ⊢
    split at hm
    · simp at hm
    · next hq =>
      split at hm
      · next hlt =>
        rw [if_neg, if_pos (lt_trans hlt h)]
        exact fun hk => hq (prefix_convex (List.prefix_refl q) hk (le_of_lt hlt) (le_of_lt h))
      · simp at hm

theorem later {i k : List α} (h : i < k) (list : List (List α × Bool)) : (filelistFn k (filelistFn i list).2).1 = (filelistFn k list).1 := by
  induction list with
  | nil => rfl
  | cons t ts ih =>
    rw [filelistFn]
    split
    · next hm => rw [ih, filelistFn, skipped h t _ hm]
    · next v hm => simp only; rw [filelistFn, skipped h t _ hm]
    · rfl

theorem later_all {i : List α} {is : List (List α)} (h : ∀ k ∈ is, i < k) (list : List (List α × Bool)) (hs : is.Pairwise (· < ·)) :
    visit (filelistFn i list).2 is = visit list is := by
  induction is generalizing i list with
  | nil => rfl
  | cons k is ih =>
    rw [visit, visit, later (h k List.mem_cons_self)]
    obtain ⟨h1, h2⟩ := List.pairwise_cons.1 hs
    rw [ih h1 _ h2, ih h1 list h2, ih (fun k hk => h k (List.mem_cons_of_mem _ hk)) list h2]

/-- C29: although the list is gone through only once, the answers don't depend on what has been asked before: asked about paths in their
order (whichever of them), the list gives for each one the answer it would give at first. For every list, even a contradictory one. -/
theorem history_independent (list : List (List α × Bool)) {is : List (List α)} (h : is.Pairwise (· < ·)) :
    visit list is = is.map fun i => (filelistFn i list).1 := by
  induction is with
  | nil => rfl
  | cons i is ih =>
    obtain ⟨h1, h2⟩ := List.pairwise_cons.1 h
    rw [visit, later_all h1 list h2, ih h2]
    rfl

/-- sorted as by Python -/
def Sorted (list : List (List α × Bool)) : Prop := list.Pairwise fun a b => tupleLe a b = true

theorem sorted_sortBy (entries : List (List α × Bool)) : Sorted (Sort.sortBy tupleLe entries) := by
  refine Sort.pairwise_sortBy ?_ ?_ entries
  · rintro ⟨a, x⟩ ⟨b, y⟩ ⟨c, z⟩ h1 h2
    simp only [tupleLe, Bool.or_eq_true, decide_eq_true_eq, Bool.and_eq_true, Bool.not_eq_true'] at *
    rcases h1 with h1 | ⟨rfl, h1⟩ <;> rcases h2 with h2 | ⟨rfl, h2⟩
    · exact .inl (lt_trans h1 h2)
    · exact .inl h1
    · exact .inl h2
    · refine .inr ⟨rfl, ?_⟩
      rcases h1 with h1 | h1
      · exact .inl h1
      · rcases h2 with h2 | h2
        · rw [h1] at h2; cases h2
        · exact .inr h2
  · rintro ⟨a, x⟩ ⟨b, y⟩
    rcases lt_trichotomy a b with h | h | h
    · simp [tupleLe, h]
    · subst h; cases x <;> cases y <;> simp [tupleLe]
    · simp [tupleLe, h]

theorem sorted_le {t t' : List α × Bool} (h : tupleLe t t' = true) : t.1 ≤ t'.1 := by
  simp only [tupleLe, Bool.or_eq_true, decide_eq_true_eq, Bool.and_eq_true] at h
  rcases h with h | h
  exacts [le_of_lt h, le_of_eq h.1]

theorem sorted_ne {q e : List α} (h : tupleLe (q, true) (e, false) = true) : q < e := by
  simpa [tupleLe] using h

theorem fn_excl {list : List (List α × Bool)} (hs : Sorted list) (i : List α) :
    (filelistFn i list).1 = some .excl ↔ ∃ e, (e, false) ∈ list ∧ e <+: i := by
  induction list with
  | nil => simp [filelistFn]
  | cons t ts ih =>
    obtain ⟨h1, h2⟩ := List.pairwise_cons.1 hs
    have ih := ih h2
    obtain ⟨q, b⟩ := t
    rw [filelistFn]
    cases b with
    | true =>
      rw [pair_incl]
      have hne : ∀ e, (e, false) ∈ (q, true) :: ts ↔ (e, false) ∈ ts := by simp
      simp only [hne]
      by_cases hq : q < i
      · simp only [hq, if_true]; exact ih
      · have hno : ¬ ∃ e, (e, false) ∈ ts ∧ e <+: i := by
          rintro ⟨e, he, hp⟩
          exact hq (lt_of_lt_of_le (sorted_ne (h1 _ he)) (prefix_le hp))
        simp only [hq, if_false, hno, iff_false]
        by_cases hqi : q = i
        · simp [hqi]
        · by_cases hp : i <+: q <;> simp [hqi, hp]
    | false =>
      rw [pair_excl]
      by_cases hp : q <+: i
      · simp only [hp, if_true]
        exact ⟨fun _ => ⟨q, by simp, hp⟩, fun _ => trivial⟩
      · have hne : (∃ e, (e, false) ∈ (q, false) :: ts ∧ e <+: i) ↔ ∃ e, (e, false) ∈ ts ∧ e <+: i := by
          constructor
          · rintro ⟨e, he, hp'⟩
            rcases List.mem_cons.1 he with he | he
            · cases he; exact absurd hp' hp
            · exact ⟨e, he, hp'⟩
          · rintro ⟨e, he, hp'⟩; exact ⟨e, List.mem_cons_of_mem _ he, hp'⟩
        rw [hne]
        by_cases hq : q < i
        · simp only [hp, hq, if_true, if_false]; exact ih
        · simp only [hp, hq, if_false, reduceCtorEq, false_iff, not_exists, not_and]
          intro e he hpe
          have : q ≤ i := le_trans (sorted_le (h1 _ he)) (prefix_le hpe)
          exact hp (by rw [le_antisymm this (not_lt.1 hq)]; exact List.prefix_refl _)

theorem fn_incl {list : List (List α × Bool)} (hs : Sorted list) (i : List α) :
    (filelistFn i list).1 = some .incl ↔
      ∃ q, (q, true) ∈ list ∧ i <+: q ∧ ∀ e, (e, false) ∈ list → ¬ e <+: i ∧ (i <+: e → q < e) := by
  induction list with
  | nil => simp [filelistFn]
  | cons t ts ih =>
    obtain ⟨h1, h2⟩ := List.pairwise_cons.1 hs
    have ih := ih h2
    obtain ⟨q, b⟩ := t
    rw [filelistFn]
    cases b with
    | true =>
      rw [pair_incl]
      have hne : ∀ e, (e, false) ∈ (q, true) :: ts ↔ (e, false) ∈ ts := by simp
      simp only [hne]
      by_cases hq : q < i
      · simp only [hq, if_true]
        rw [ih]
        constructor
        · rintro ⟨q', h, h'⟩; exact ⟨q', List.mem_cons_of_mem _ h, h'⟩
        · rintro ⟨q', h, h', h''⟩
          rcases List.mem_cons.1 h with h | h
          · cases h; exact absurd (prefix_le h') (not_le.2 hq)
          · exact ⟨q', h, h', h''⟩
      · by_cases hp : i <+: q
        · have hw : ∃ q', (q', true) ∈ (q, true) :: ts ∧ i <+: q' ∧ ∀ e, (e, false) ∈ ts → ¬ e <+: i ∧ (i <+: e → q' < e) := by
            refine ⟨q, by simp, hp, fun e he => ⟨fun hpe => ?_, fun _ => sorted_ne (h1 _ he)⟩⟩
            exact hq (lt_of_lt_of_le (sorted_ne (h1 _ he)) (prefix_le hpe))
          simp only [hq, if_false, hp, if_true, hw, iff_true]
          by_cases he : q = i
          · simp [he]
          · simp [he]
        · have hqi : q ≠ i := by rintro rfl; exact hp (List.prefix_refl _)
          simp only [hq, hqi, hp, if_false, reduceCtorEq, false_iff]
          rintro ⟨q', h, h', -⟩
          rcases List.mem_cons.1 h with h | h
          · cases h; exact hp h'
          · exact hp (prefix_convex (List.prefix_refl i) h' (not_lt.1 hq) (sorted_le (h1 _ h)))
    | false =>
      rw [pair_excl]
      by_cases hp : q <+: i
      · simp only [hp, if_true]
        simp only [Option.some.injEq, reduceCtorEq, false_iff]
        rintro ⟨q', -, -, h⟩
        exact (h q (by simp)).1 hp
      · by_cases hq : q < i
        · simp only [hp, hq, if_true, if_false]
          rw [ih]
          constructor
          · rintro ⟨q', h, h', h''⟩
            refine ⟨q', List.mem_cons_of_mem _ h, h', fun e he => ?_⟩
            rcases List.mem_cons.1 he with he | he
            · cases he; exact ⟨hp, fun h => absurd (prefix_le h) (not_le.2 hq)⟩
            · exact h'' e he
          · rintro ⟨q', h, h', h''⟩
            refine ⟨q', by simpa using h, h', fun e he => h'' e (List.mem_cons_of_mem _ he)⟩
        · simp only [hp, hq, if_false, reduceCtorEq, false_iff]
          rintro ⟨q', h, h', h''⟩
          have h : (q', true) ∈ ts := by simpa using h
          have hle := sorted_le (h1 _ h)
          have : i <+: q := prefix_convex (List.prefix_refl i) h' (not_lt.1 hq) hle
          exact absurd ((h'' q (by simp)).2 this) (not_lt.2 hle)

/-- the answers of a condition to files asked for one after the other -/
def ask (f : File) : Cond α → List (List α) → List (Option Val)
  | _, [] => []
  | c, i :: is => match c.apply i (some f) with
    | some (r, c') => r :: ask f c' is
    | none => []

theorem ask_filelist (f : File) (e : Bool) (rest : List (List α × Bool)) (is : List (List α)) : ask f (.filelist rest e) is = visit rest is := by
  induction is generalizing rest with
  | nil => rfl
  | cons i is ih => simp only [ask, Cond.apply, visit, ih]

/-- the answers of the file list with these entries, in the order in which they are in the file, to paths asked for in order
(`inc`: given with `--include-filelist`; `f`: the kind of the files asked for) -/
def answers (entries : List (List α × Bool)) (is : List (List α)) (inc : Bool := true) (f : File := ⟨.reg, 0, 0⟩) : List (Option Val) :=
  ask f (mkFilelist entries inc) is

theorem answers_eq (entries : List (List α × Bool)) (is : List (List α)) (inc : Bool) (f : File) :
    answers entries is inc f = visit (Sort.sortBy tupleLe entries) is := ask_filelist f _ _ is

/-- C29, excluding: for every list and every ordered sequence of paths, exactly the paths at or below one listed as excluded are excluded. -/
theorem excluded_iff (inc : Bool) (f : File) (entries : List (List α × Bool)) {is : List (List α)} (h : is.Pairwise (· < ·)) (k : Nat) (hk : k < is.length) :
    (answers entries is inc f)[k]? = some (some .excl) ↔ ∃ e, (e, false) ∈ entries ∧ e <+: is[k] := by
  rw [answers_eq, history_independent _ h, List.getElem?_map, List.getElem?_eq_getElem hk, Option.map_some, Option.some.injEq,
    fn_excl (sorted_sortBy entries)]
  simp only [(Sort.sortBy_perm tupleLe entries).mem_iff]

/-- the list contains no path as included which is at or below one it excludes ("should not contain conflicting specifications") -/
def NoConflict (entries : List (List α × Bool)) : Prop := ∀ e q, (e, false) ∈ entries → (q, true) ∈ entries → ¬ e <+: q

/-- C29, including, for lists without conflicts: a path is included iff it is listed as included or is above such a path, unless there is
an excluded path below it which comes first in the order of names (finding F20, `parent_not_included`). -/
theorem included_iff_partial (inc : Bool) (f : File) {entries : List (List α × Bool)} (hc : NoConflict entries) {is : List (List α)} (h : is.Pairwise (· < ·)) (k : Nat)
    (hk : k < is.length) :
    (answers entries is inc f)[k]? = some (some .incl) ↔
      ∃ q, (q, true) ∈ entries ∧ is[k] <+: q ∧ ∀ e, (e, false) ∈ entries → is[k] <+: e → q < e := by
  rw [answers_eq, history_independent _ h, List.getElem?_map, List.getElem?_eq_getElem hk, Option.map_some, Option.some.injEq,
    fn_incl (sorted_sortBy entries)]
  simp only [(Sort.sortBy_perm tupleLe entries).mem_iff]
  constructor
  · rintro ⟨q, h1, h2, h3⟩; exact ⟨q, h1, h2, fun e he => (h3 e he).2⟩
  · rintro ⟨q, h1, h2, h3⟩
    exact ⟨q, h1, h2, fun e he => ⟨fun hp => hc e q he h1 (hp.trans h2), h3 e he⟩⟩

/-- C29 in full for lists which only include, or exclude nothing below a directory they include something from: a path is included iff it is
listed or above a listed one. -/
theorem included_iff_of_separate (inc : Bool) (f : File) {entries : List (List α × Bool)}
    (hc : ∀ e q i, (e, false) ∈ entries → (q, true) ∈ entries → i <+: e → i <+: q → i = []) {is : List (List α)} (h : is.Pairwise (· < ·)) (k : Nat)
    (hk : k < is.length) (hne : is[k] ≠ []) (hroot : ([], false) ∉ entries) :
    (answers entries is inc f)[k]? = some (some .incl) ↔ ∃ q, (q, true) ∈ entries ∧ is[k] <+: q := by
  have hn : NoConflict entries := fun e q he hq hp => hroot ((hc e q e he hq (List.prefix_refl e) hp) ▸ he)
  rw [included_iff_partial inc f hn h k hk]
  constructor
  · rintro ⟨q, h1, h2, -⟩; exact ⟨q, h1, h2⟩
  · rintro ⟨q, h1, h2⟩; exact ⟨q, h1, h2, fun e he hp => absurd (hc e q _ he h1 hp h2) hne⟩

/-- A listed path itself is always included (lists without conflicts). -/
theorem listed_included (inc : Bool) (f : File) {entries : List (List α × Bool)} (hc : NoConflict entries) {is : List (List α)} (h : is.Pairwise (· < ·)) (k : Nat)
    (hk : k < is.length) (hl : (is[k], true) ∈ entries) : (answers entries is inc f)[k]? = some (some .incl) := by
  rw [included_iff_partial inc f hc h k hk]
  refine ⟨_, hl, List.prefix_refl _, fun e he hp => lt_of_le_of_ne (prefix_le hp) ?_⟩
  rintro heq
  exact hc e _ he hl (by rw [← heq]; exact List.prefix_refl _)

/-- the list of the manual page: `/usr/local`, `- /usr/local/doc`, `/usr/local/bin` (usr = 1, local = 2, bin = 3, doc = 4, man = 5) -/
def manual : List (List Nat × Bool) := [([1, 2], true), ([1, 2, 4], false), ([1, 2, 3], true)]

example : NoConflict manual := by
  intro e q he hq
  simp only [manual, List.mem_cons, Prod.mk.injEq, List.not_mem_nil, or_false] at he hq
  rcases he with he | he | he <;> simp at he
  subst he
  rcases hq with hq | hq | hq <;> simp at hq <;> subst hq <;> decide

example : answers manual [[1], [1, 2], [1, 2, 3], [1, 2, 4], [1, 2, 4, 7], [1, 2, 5]] =
    [some .incl, some .incl, some .incl, some .excl, some .excl, none] := by decide +kernel

/-- Finding F20: the directory which contains an included file is not included if it also contains an excluded one which comes first. -/
theorem parent_not_included : ∃ entries : List (List Nat × Bool), NoConflict entries ∧ (([1, 2], true) ∈ entries) ∧
    answers entries [[1], [1, 2]] = [none, some .incl] :=
  ⟨[([1, 1], false), ([1, 2], true)], by unfold NoConflict; simp, by decide, by decide +kernel⟩

end Verif.C29
