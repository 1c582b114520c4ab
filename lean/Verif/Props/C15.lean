import Verif.Model.Quoting
/-
C15  Path quoting in metadata is reversible and line-safe.
-/
namespace Verif.C15
open Verif.Quoting

/-- `unquote_path(quote_path(p)) == p` for every byte string. -/
theorem unquote_quote (p : Bytes) : unquotePath (quotePath p) = p := by
  induction p with
  | nil => rfl
  | cons c cs ih =>
    unfold quotePath
    split
    · next h => subst h; simp [unquotePath, ih]
    · split
      · next h1 h => subst h; simp [unquotePath, ih, bs, chN]
      · next h1 h2 =>
        cases hq : quotePath cs with
        | nil =>
          rw [hq] at ih
          simp only [unquotePath] at ih ⊢
          rw [← ih]
        | cons d ds =>
          rw [hq] at ih
          rw [unquotePath]
          simp [h2, ih]

/-- The quoted form contains no newline byte, so it stays on one line. -/
theorem quote_no_newline (p : Bytes) : (10 : UInt8) ∉ quotePath p := by
  induction p with
  | nil => simp [quotePath]
  | cons c cs ih =>
    unfold quotePath
    split
    · simp [bs, chN, ih]
    · split
      · simp [bs, ih]
      · next h1 h2 =>
        simp only [List.mem_cons, not_or]
        exact ⟨fun h => h1 h.symm, ih⟩

/-- Distinct paths get distinct lines. -/
theorem quote_injective {p q : Bytes} (h : quotePath p = quotePath q) : p = q := by
  rw [← unquote_quote p, h, unquote_quote]

/-- Paths without newline and backslash are written literally (so that old
metadata stay readable). -/
theorem quote_plain (p : Bytes) (h : ∀ c ∈ p, c ≠ 10 ∧ c ≠ 92) : quotePath p = p := by
  induction p with
  | nil => rfl
  | cons c cs ih =>
    have hc := h c (by simp)
    unfold quotePath
    rw [if_neg (show c ≠ nl from hc.1), if_neg (show c ≠ bs from hc.2), ih (fun d hd => h d (by simp [hd]))]

-- "a\n\\n" (newline, backslash, letter n): the ambiguous-looking case
example : quotePath [97, 10, 92, 110] = [97, 92, 110, 92, 92, 110] := by decide
example : unquotePath [97, 92, 110, 92, 92, 110] = [97, 10, 92, 110] := by decide
example : (∀ c ∈ ([102, 111, 47] : Bytes), c ≠ 10 ∧ c ≠ 92) := by decide

end Verif.C15
