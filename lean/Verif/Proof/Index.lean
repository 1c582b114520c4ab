import Mathlib.Data.List.Lex
/- Order and prefix facts about indices (Python tuples compared lexicographically). -/
namespace Verif
variable {α : Type} [LinearOrder α]

/-- An rdiff-backup index: tuple of path components. -/
abbrev Index (α : Type) := List α

theorem prefix_le {b a : List α} (h : b <+: a) : b ≤ a := by
  induction b generalizing a with
  | nil => exact not_lt.mp (by simp)
  | cons x b ih =>
    obtain ⟨t, rfl⟩ := h
    have := ih (List.prefix_append b t)
    rw [← not_lt] at this ⊢
    simpa [List.cons_lt_cons_iff] using this

/-- Everything between two paths below `b` is below `b`. -/
theorem prefix_convex {b a x c : List α} (ha : b <+: a) (hc : b <+: c) (h1 : a ≤ x) (h2 : x ≤ c) :
    b <+: x := by
  induction b generalizing a x c with
  | nil => simp
  | cons y b ih =>
    obtain ⟨t, rfl⟩ := ha
    obtain ⟨u, rfl⟩ := hc
    cases x with
    | nil => rw [← not_lt] at h1; simp at h1
    | cons z x =>
      rw [← not_lt] at h1 h2
      simp only [List.cons_append, List.cons_lt_cons_iff, not_or, not_and] at h1 h2
      have hz : y = z := le_antisymm (not_lt.mp h1.1) (not_lt.mp h2.1)
      subst hz
      have := ih (x := x) (List.prefix_append b t) (List.prefix_append b u)
        (not_lt.mp (h1.2 rfl)) (not_lt.mp (h2.2 rfl))
      exact (List.prefix_cons_inj y).mpr this

omit [LinearOrder α] in
theorem take_prefix_iff {i : Nat} {cur old : List α} (hi : i ≤ cur.length) :
    cur.take i = old.take i ↔ cur.take i <+: old := by
  constructor
  · intro h; rw [h]; exact List.take_prefix i old
  · intro h
    have := List.prefix_iff_eq_take.mp h
    rw [List.length_take, Nat.min_eq_left hi] at this
    exact this

end Verif
