import Mathlib.Order.MinMax
/-
Model of `Collate2Iters` and `CollateIterators`, `src/rdiff_backup/rorpiter.py` lines 303-391.

An iterator is the list of the elements it will still yield; a generator's result is the list of
what it yields.  Elements are of any type with an `.index` in a linear order (Python tuples of
bytes, compared lexicographically, are one).  Elements are always "true" in Python's sense
(RORPaths have neither `__bool__` nor `__len__`).
-/
namespace Verif.Collate

variable {K α β : Type} [LinearOrder K]

/-- rorpiter.py:352-391 `Collate2Iters`: the `while 1` loop.  `r1`, `r2` are the variables
`relem1`, `relem2` (`none` = has to be fetched), `it1`, `it2` the rest of the iterators. -/
def collate2Loop (idx1 : α → K) (idx2 : β → K) :
    Option α → List α → Option β → List β → List (Option α × Option β)
  -- 363-371: riter1 exhausted, flush relem2 and riter2
  | none, [], r2, it2 => (r2.toList ++ it2).map (fun y => (none, some y))
  -- 364
  | none, x :: it1, r2, it2 => collate2Loop idx1 idx2 (some x) it1 r2 it2
  -- 373-381: riter2 exhausted, flush relem1 and riter1
  | some x, it1, none, [] => (x :: it1).map (fun x => (some x, none))
  -- 375
  | some x, it1, none, y :: it2 => collate2Loop idx1 idx2 (some x) it1 (some y) it2
  -- 383-391
  | some x, it1, some y, it2 =>
    if idx1 x < idx2 y then (some x, none) :: collate2Loop idx1 idx2 none it1 (some y) it2
    else if idx1 x = idx2 y then (some x, some y) :: collate2Loop idx1 idx2 none it1 none it2
    else (none, some y) :: collate2Loop idx1 idx2 (some x) it1 none it2
  termination_by r1 it1 r2 it2 => 2 * it1.length + r1.toList.length + 2 * it2.length + r2.toList.length
  decreasing_by all_goals (simp <;> omega)

/-- rorpiter.py:352-391 `Collate2Iters(riter1, riter2)` -/
def collate2 (idx1 : α → K) (idx2 : β → K) (l1 : List α) (l2 : List β) :
    List (Option α × Option β) :=
  collate2Loop idx1 idx2 none l1 none l2

/-- rorpiter.py:329-331 `getleastindex`: minimum over the held elements; here the held element
of a stream is the head of its list (all streams are replenished by `setrorps`, 319-327, before
every round). -/
def leastIndex (idx : α → K) : List (List α) → Option K
  | [] => none
  | [] :: ss => leastIndex idx ss
  | (x :: _) :: ss =>
    match leastIndex idx ss with
    | none => some (idx x)
    | some k => some (min (idx x) k)

/-- rorpiter.py:341-346, one stream: yield the held element if it has the least index. -/
def pick (idx : α → K) (k : K) : List α → Option α
  | x :: _ => if idx x = k then some x else none
  | [] => none

/-- rorpiter.py:343-344 `rorps[i] = None`: the element is consumed. -/
def advance (idx : α → K) (k : K) : List α → List α
  | x :: xs => if idx x = k then xs else x :: xs
  | [] => []

theorem advance_length_le (idx : α → K) (k : K) (s : List α) :
    (advance idx k s).length ≤ s.length := by
  cases s with
  | nil => simp [advance]
  | cons x xs => simp only [advance]; split <;> simp

theorem sum_advance_le (idx : α → K) (k : K) (ss : List (List α)) :
    ((ss.map (advance idx k)).map List.length).sum ≤ (ss.map List.length).sum := by
  induction ss with
  | nil => simp
  | cons s ss ih =>
    have := advance_length_le idx k s
    simp only [List.map_cons, List.sum_cons]; omega

theorem leastIndex_decreases (idx : α → K) (k : K) (ss : List (List α))
    (h : leastIndex idx ss = some k) :
    ((ss.map (advance idx k)).map List.length).sum < (ss.map List.length).sum := by
  induction ss with
  | nil => simp [leastIndex] at h
  | cons s ss ih =>
    cases s with
    | nil =>
      simp only [leastIndex] at h
      simpa [advance] using ih h
    | cons x xs =>
      simp only [leastIndex] at h
      have hle := sum_advance_le idx k ss
      have hx := advance_length_le idx k (x :: xs)
      simp only [List.map_cons, List.sum_cons]
      by_cases hk : idx x = k
      · have : (advance idx k (x :: xs)).length < (x :: xs).length := by simp [advance, hk]
        omega
      · cases hl : leastIndex idx ss with
        | none => rw [hl] at h; exact absurd (by simpa using h) hk
        | some k' =>
          rw [hl] at h
          simp only [Option.some.injEq] at h
          have : k' = k := by
            rcases min_choice (idx x) k' with h' | h'
            · rw [h'] at h; exact absurd h hk
            · rw [h'] at h; exact h
          subst this
          have := ih hl
          omega

/-- one round of 341-344 on all streams -/
def advanceAll (idx : α → K) (k : K) (ss : List (List α)) : List (List α) := ss.map (advance idx k)

/-- rorpiter.py:333-347 `yield_tuples`: the loop of `CollateIterators` for any number of
iterators; stops when all are exhausted (336). -/
def yieldTuples (idx : α → K) (ss : List (List α)) : List (K × List (Option α)) :=
  match _h : leastIndex idx ss with
  | none => []
  | some k => (k, ss.map (pick idx k)) :: yieldTuples idx (advanceAll idx k ss)
  termination_by (ss.map List.length).sum
  decreasing_by exact leastIndex_decreases idx k ss _h

/-- rorpiter.py:303-349 `CollateIterators`: two iterators are handled by the special case (312). The
index of the tuple (`IndexedTuple.index`) is dropped here so that both cases have one type. -/
def collateIterators (idx : α → K) (ss : List (List α)) : List (List (Option α)) :=
  match ss with
  | [s1, s2] => (collate2 idx idx s1 s2).map (fun p => [p.1, p.2])
  | ss => (yieldTuples idx ss).map Prod.snd

end Verif.Collate
