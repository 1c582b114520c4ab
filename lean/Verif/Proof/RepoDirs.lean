import Verif.Model.RepoDirs
import Verif.Spec.RepoDirs
import Verif.Props.C22
import Mathlib.Order.MinMax
import Mathlib.Data.List.Induction
/-
Lemmas for C63.
-/
namespace Verif.RepoDirs
open Verif.IncName Verif.TimeStr Verif.PathSpec

theorem splitSlash_ne_nil (s : List Char) : splitSlash s ≠ [] := by
  cases s with
  | nil => simp [splitSlash]
  | cons c r =>
    rw [splitSlash]; split
    · simp
    · split <;> simp

theorem splitSlash_append (a r : List Char) : splitSlash (a ++ '/' :: r) = splitSlash a ++ splitSlash r := by
  induction a with
  | nil => simp [splitSlash]
  | cons c a ih =>
    simp only [List.cons_append, splitSlash, ih]
    split
    · simp
    · obtain ⟨x, xs, hx⟩ := List.exists_cons_of_ne_nil (splitSlash_ne_nil a)
      simp [hx]

theorem splitSlash_plain {s : List Char} (h : '/' ∉ s) : splitSlash s = [s] := by
  induction s with
  | nil => rfl
  | cons c r ih =>
    simp only [List.mem_cons, not_or] at h
    rw [splitSlash, if_neg (fun e => h.1 e.symm), ih h.2]

theorem splitSlash_slash {s n : List Char} (h : n ∈ splitSlash s) : '/' ∉ n := by
  induction s generalizing n with
  | nil => simp [splitSlash] at h; simp [h]
  | cons c r ih =>
    rw [splitSlash] at h
    split at h
    · rcases List.mem_cons.mp h with rfl | h
      · simp
      · exact ih h
    · next hc =>
      obtain ⟨x, xs, hx⟩ := List.exists_cons_of_ne_nil (splitSlash_ne_nil r)
      rw [hx] at h ih
      rcases List.mem_cons.mp h with rfl | h
      · simp only [List.mem_cons, not_or]
        exact ⟨fun e => hc e.symm, ih (by simp)⟩
      · exact ih (by simp [h])

theorem joinSlash_splitSlash (s : List Char) : joinSlash (splitSlash s) = s := by
  induction s with
  | nil => rfl
  | cons c r ih =>
    obtain ⟨x, xs, hx⟩ := List.exists_cons_of_ne_nil (splitSlash_ne_nil r)
    rw [splitSlash]
    split
    · next h =>
      rw [hx] at ih ⊢
      simp [joinSlash, ih, h]
    · rw [hx] at ih ⊢
      cases xs with
      | nil => simp only [joinSlash] at ih ⊢; rw [ih]
      | cons y ys => simp only [joinSlash, List.cons_append] at ih ⊢; rw [ih]

theorem joinSlash_cons (a : List Char) (r : List (List Char)) : joinSlash (a :: r) = below a r := by
  induction r generalizing a with
  | nil => simp [joinSlash, below]
  | cons b r ih => simp [joinSlash, ih, below]

theorem below_append (p : List Char) (a b : List (List Char)) : below p (a ++ b) = below (below p a) b := by
  simp [below]

@[simp] theorem below_nil (p : List Char) : below p [] = p := by simp [below]

theorem joinSlash_append {l : List (List Char)} (h : l ≠ []) (ns : List (List Char)) : joinSlash (l ++ ns) = below (joinSlash l) ns := by
  obtain ⟨a, r, rfl⟩ := List.exists_cons_of_ne_nil h
  rw [List.cons_append, joinSlash_cons, joinSlash_cons, below_append]

theorem split_below (p : List Char) {ns : List (List Char)} (h : ∀ n ∈ ns, '/' ∉ n) : splitSlash (below p ns) = splitSlash p ++ ns := by
  induction ns generalizing p with
  | nil => simp
  | cons n ns ih =>
    have h1 : below p (n :: ns) = below (p ++ '/' :: n) ns := by simp [below]
    rw [h1, ih _ (fun m hm => h m (by simp [hm])), splitSlash_append, splitSlash_plain (h n (by simp))]
    simp

/-- the path text determines the list of names -/
theorem below_split (p : List Char) : ∃ a r, splitSlash p = a :: r ∧ p = below a r := by
  obtain ⟨a, r, h⟩ := List.exists_cons_of_ne_nil (splitSlash_ne_nil p)
  refine ⟨a, r, h, ?_⟩
  rw [← joinSlash_cons, ← h, joinSlash_splitSlash]

theorem filter_names {ns : List (List Char)} (h : ∀ m ∈ ns, IsName m) : (ns.filter fun x => x ≠ [] && x ≠ ['.']) = ns := by
  rw [List.filter_eq_self]
  intro m hm
  simp [(h m hm).1, (h m hm).2.1]

theorem normalize_path {p : List Char} (h : IsPath p) : normalize p = p := by
  obtain ⟨n, ns, hn, hns, h⟩ := h
  have hall : ∀ m ∈ n :: ns, IsName m := by simpa using ⟨hn, hns⟩
  have hsl : ∀ m ∈ n :: ns, '/' ∉ m := fun m hm => (hall m hm).2.2
  obtain ⟨c, r, rfl⟩ := List.exists_cons_of_ne_nil hn.1
  have hc : c ≠ '/' := by
    intro e; subst e; exact hn.2.2 (by simp)
  rcases h with rfl | rfl
  · have hnp : joinSlash ((splitSlash (below [] ((c :: r) :: ns))).filter fun x => x ≠ [] && x ≠ ['.']) = below (c :: r) ns := by
      rw [split_below _ hsl, show splitSlash [] = [[]] from rfl, List.singleton_append, List.filter_cons_of_neg (by simp), filter_names hall, joinSlash_cons]
    unfold normalize
    simp only [hnp]
    have he : below [] ((c :: r) :: ns) = '/' :: c :: (below r ns) := by simp [below]
    rw [he]
    split
    · next e => simp only [List.cons.injEq, true_and] at e; exact absurd e.1 hc
    · simp [below]
    · next h1 h2 => exact absurd rfl (h2 _)
  · have hnp : joinSlash ((splitSlash (below (c :: r) ns)).filter fun x => x ≠ [] && x ≠ ['.']) = below (c :: r) ns := by
      rw [split_below _ (fun m hm => hsl m (by simp [hm])), splitSlash_plain hn.2.2, List.singleton_append, filter_names hall, joinSlash_cons]
    unfold normalize
    simp only [hnp]
    have he : below (c :: r) ns = c :: (below r ns) := by simp [below]
    rw [he]
    split
    · next e => simp only [List.cons.injEq] at e; exact absurd e.1 hc
    · next e => simp only [List.cons.injEq] at e; exact absurd e.1 hc
    · simp

theorem isPath_below {p : List Char} (h : IsPath p) {ns : List (List Char)} (hns : ∀ m ∈ ns, IsName m) : IsPath (below p ns) := by
  obtain ⟨n, ms, hn, hms, h⟩ := h
  refine ⟨n, ms ++ ns, hn, ?_, ?_⟩
  · intro m hm
    rcases List.mem_append.mp hm with hm | hm
    · exact hms m hm
    · exact hns m hm
  · rcases h with rfl | rfl
    · left; rw [← below_append]; rfl
    · right; rw [← below_append]

theorem isPath_ne {p : List Char} (h : IsPath p) : p ≠ [] := by
  obtain ⟨n, ms, hn, hms, h⟩ := h
  rcases h with rfl | rfl
  · simp [below]
  · simp [below, hn.1]

/-- the directory above -/
theorem parent_below {p n : List Char} (h : IsPath p) (hn : IsName n) : parent (below p [n]) = p := by
  have hp : IsPath (below p [n]) := isPath_below h (by simpa using hn)
  have hd : dirname (below p [n]) = p := by
    unfold dirname
    rw [normalize_path hp]
    have hs : '/' ∈ below p [n] := by simp [below]
    simp only [hs, not_true_eq_false, if_false]
    rw [split_below _ (by simpa using hn.2.2)]
    simp [joinSlash_splitSlash]
  unfold parent
  simp [hd, isPath_ne h]

/-- the search from below `done ++ rest`, of which `rest` is still to go -/
theorem walkUp_found (listing : List Char → Option (List (List Char))) {base : List Char} (hb : IsPath base)
    (hd : hasData listing base = true) (pre done : List (List Char)) :
    ∀ (rest : List (List Char)), rest ≠ [] → (∀ n ∈ rest, IsName n) →
      (∀ l, l <+: rest → l ≠ [] → l ≠ rest → hasData listing (below base l) = false) → ∀ (k : Nat), rest.length ≤ k →
      walkUp listing (pre ++ (rest ++ done)) (below base rest) done.length k = some ⟨base, rest ++ done, .subpath⟩ := by
  intro rest
  induction rest using List.reverseRecOn generalizing done with
  | nil => intro h; exact absurd rfl h
  | append_singleton rest n ih =>
    intro _ hn hl k hk
    obtain ⟨k, rfl⟩ : ∃ k', k = k' + 1 := ⟨k - 1, by simp at hk; omega⟩
    have hrest : ∀ m ∈ rest, IsName m := fun m hm => hn m (by simp [hm])
    have hpar : parent (below base (rest ++ [n])) = below base rest := by
      rw [below_append]
      exact parent_below (isPath_below hb hrest) (hn n (by simp))
    rw [walkUp, hpar]
    by_cases hr : rest = []
    · subst hr
      rw [below_nil, if_pos hd]
      simp
    · rw [if_neg (by rw [hl rest (List.prefix_append _ _) hr (by simp)]; simp)]
      have := ih (n :: done) hr hrest (fun l h1 h2 h3 => hl l (h1.trans (List.prefix_append _ _)) h2 (by
        rintro rfl
        have := h1.length_le
        simp at this
        omega)) k (by simp at hk ⊢; omega)
      simpa using this


/-- below a directory, also the root directory -/
def belowDir (b : List Char) (l : List (List Char)) : List Char := if b = ['/'] then below [] l else below b l

theorem isPath_ne_root {p : List Char} (h : IsPath p) : p ≠ ['/'] := by
  obtain ⟨n, ms, hn, hms, h⟩ := h
  obtain ⟨c, r, rfl⟩ := List.exists_cons_of_ne_nil hn.1
  rcases h with rfl | rfl
  · simp [below]
  · intro e
    simp only [below, List.cons_append, List.cons.injEq] at e
    exact hn.2.2 (by simp [e.1])

theorem belowDir_path {p : List Char} (h : IsPath p) (l : List (List Char)) : belowDir p l = below p l := by
  rw [belowDir, if_neg (isPath_ne_root h)]

/-- a path is a name, a file in the root directory, or below a path -/
theorem isPath_cases {p : List Char} (h : IsPath p) :
    (IsName p ∧ splitSlash p = [p]) ∨ (∃ n, IsName n ∧ p = '/' :: n ∧ splitSlash p = [[], n] ∧ parent p = ['/']) ∨
      ∃ q n, IsPath q ∧ IsName n ∧ p = below q [n] ∧ splitSlash p = splitSlash q ++ [n] ∧ parent p = q := by
  have hp := h
  obtain ⟨n, ns, hn, hns, h⟩ := h
  rcases List.eq_nil_or_concat ns with rfl | ⟨ms, m, rfl⟩
  · rcases h with rfl | rfl
    · right; left
      refine ⟨n, hn, by simp [below], ?_, ?_⟩
      · rw [split_below _ (by simpa using hn.2.2)]; rfl
      · have hs : '/' ∈ below [] [n] := by simp [below]
        unfold parent dirname
        rw [normalize_path hp]
        simp only [hs, not_true_eq_false, if_false]
        rw [split_below _ (by simpa using hn.2.2)]
        simp [splitSlash, joinSlash]
    · left; rw [below_nil]; exact ⟨hn, splitSlash_plain hn.2.2⟩
  · right; right
    have hm : IsName m := hns m (by simp)
    have hq : ∀ q, IsPath q → p = below q [m] → ∃ q n, IsPath q ∧ IsName n ∧ p = below q [n] ∧ splitSlash p = splitSlash q ++ [n] ∧ parent p = q := by
      rintro q hq rfl
      exact ⟨q, m, hq, hm, rfl, split_below _ (by simpa using hm.2.2), parent_below hq hm⟩
    rcases h with rfl | rfl
    · refine hq (below [] (n :: ms)) ⟨n, ms, hn, fun x hx => hns x (by simp [hx]), .inl rfl⟩ ?_
      rw [← below_append]; simp
    · refine hq (below n ms) ⟨n, ms, hn, fun x hx => hns x (by simp [hx]), .inr rfl⟩ ?_
      rw [← below_append]; simp

/-- only a directory above which contains the data directory is found, and the nearest one -/
theorem walkUp_sound (listing : List Char → Option (List (List Char))) {ref : Ref} {pl : List (List Char)} :
    ∀ (k : Nat) (cur : List Char) (done : List (List Char)), IsPath cur → pl = splitSlash cur ++ done → k ≤ (splitSlash cur).length - 1 →
      walkUp listing pl cur done.length k = some ref →
      ref.type = .subpath ∧ ∃ mid, mid ≠ [] ∧ ref.idx = mid ++ done ∧ cur = belowDir ref.base mid ∧ hasData listing ref.base = true ∧
        (∀ l, l <+: mid → l ≠ [] → l ≠ mid → hasData listing (belowDir ref.base l) = false) := by
  intro k
  induction k with
  | zero => intro cur done _ _ _ h; simp [walkUp] at h
  | succ k ih =>
    intro cur done hp hpl hk h
    rw [walkUp] at h
    rcases isPath_cases hp with ⟨-, e⟩ | ⟨n, hn, rfl, e, ep⟩ | ⟨q, n, hq, hn, rfl, e, ep⟩
    · rw [e] at hk; simp at hk
    · rw [ep] at h
      split at h
      · next hd =>
        cases h
        refine ⟨rfl, [n], by simp, ?_, by simp [belowDir, below], hd, ?_⟩
        · simp [hpl, e]
        · intro l h1 h2 h3
          rcases List.prefix_cons_iff.mp h1 with rfl | ⟨t, rfl, ht⟩
          · exact absurd rfl h2
          · simp only [List.prefix_nil] at ht
            subst ht
            exact absurd rfl h3
      · rw [e] at hk
        obtain rfl : k = 0 := by simp at hk; omega
        simp [walkUp] at h
    · rw [ep] at h
      split at h
      · next hd =>
        cases h
        refine ⟨rfl, [n], by simp, ?_, ?_, hd, ?_⟩
        · rw [hpl, e]
          simp only [List.append_assoc, List.length_append, List.singleton_append, List.length_cons]
          rw [show (splitSlash q).length + (done.length + 1) - (done.length + 1) = (splitSlash q).length by omega, List.drop_left]
        · rw [belowDir_path hq]
        · intro l h1 h2 h3
          rcases List.prefix_cons_iff.mp h1 with rfl | ⟨t, rfl, ht⟩
          · exact absurd rfl h2
          · simp only [List.prefix_nil] at ht
            subst ht
            exact absurd rfl h3
      · next hd =>
        obtain ⟨h1, mid, h2, h3, h4, h5, h6⟩ := ih q (n :: done) hq (by simp [hpl, e]) (by rw [e] at hk; simp at hk; omega) (by simpa using h)
        have hb : ∀ l, belowDir ref.base (l ++ [n]) = below (belowDir ref.base l) [n] := by
          intro l
          unfold belowDir
          split <;> rw [below_append]
        refine ⟨h1, mid ++ [n], by simp, by simp [h3], ?_, h5, ?_⟩
        · rw [hb, ← h4]
        · intro l hl hl1 hl2
          rcases List.prefix_concat_iff.mp hl with rfl | hl
          · exact absurd rfl hl2
          · by_cases hm : l = mid
            · subst hm
              rw [← h4]
              simpa using hd
            · exact h6 l hl hl1 hm

end Verif.RepoDirs
