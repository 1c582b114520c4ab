import Verif.Model.AclQuote
/-
C16  ACL/EA path quoting is reversible and line-safe.
-/
namespace Verif.C16
open Verif.AclQuote

theorem unquote_quoted_cons (b : UInt8) (rest : Bytes) :
    unquote (92 :: UInt8.ofNat (48 + b.toNat / 64) :: UInt8.ofNat (48 + b.toNat / 8 % 8) ::
        UInt8.ofNat (48 + b.toNat % 8) :: rest) = b :: unquote rest := by
  have hb := b.toNat_lt
  have h1 : (UInt8.ofNat (48 + b.toNat / 64)).toNat = 48 + b.toNat / 64 := by
    rw [UInt8.toNat_ofNat']; omega
  have h2 : (UInt8.ofNat (48 + b.toNat / 8 % 8)).toNat = 48 + b.toNat / 8 % 8 := by
    rw [UInt8.toNat_ofNat']; omega
  have h3 : (UInt8.ofNat (48 + b.toNat % 8)).toNat = 48 + b.toNat % 8 := by
    rw [UInt8.toNat_ofNat']; omega
  rw [unquote]
  have ho : (92 : UInt8) = 92 ∧ isOctal (UInt8.ofNat (48 + b.toNat / 64)) ∧
      isOctal (UInt8.ofNat (48 + b.toNat / 8 % 8)) ∧ isOctal (UInt8.ofNat (48 + b.toNat % 8)) := by
    simp only [isOctal, h1, h2, h3, Bool.and_eq_true, decide_eq_true_eq]
    refine ⟨trivial, ?_, ?_, ?_⟩ <;> omega
  rw [if_pos ho]
  congr 1
  apply UInt8.toNat_inj.mp
  rw [h1, h2, h3, UInt8.toNat_ofNat']
  omega

theorem unquote_cons_ne (b : UInt8) (rest : Bytes) (h : b ≠ 92) :
    unquote (b :: rest) = b :: unquote rest := by
  match rest with
  | [] => rfl
  | [_] => rfl
  | [_, _] => rfl
  | _ :: _ :: _ :: _ => rw [unquote, if_neg (fun hh => h hh.1)]

/-- `acl_unquote(acl_quote(p)) == p` for every byte string (in particular for every one
without NUL, the only ones the C functions accept). -/
theorem unquote_quote (p : Bytes) : unquote (quote p) = p := by
  induction p with
  | nil => rfl
  | cons b bs ih =>
    rw [quote]
    split
    · rw [unquote_quoted_cons, ih]
    · next h =>
      rw [unquote_cons_ne, ih]
      intro hb
      subst hb
      exact h (by decide)

/-- The quoted form consists of printable non-blank characters only, and has no `=`
(the separator of extended-attribute lines).  In particular no newline, so that the
record stays on its line, and no NUL. -/
theorem quote_safe (p : Bytes) : ∀ c ∈ quote p, 33 ≤ c.toNat ∧ c.toNat ≤ 126 ∧ c.toNat ≠ 61 := by
  induction p with
  | nil => simp [quote]
  | cons b bs ih =>
    have hb := b.toNat_lt
    rw [quote]
    split
    · intro c hc
      simp only [List.mem_cons] at hc
      rcases hc with h | h | h | h | h
      · subst h; decide
      · subst h; rw [UInt8.toNat_ofNat']; omega
      · subst h; rw [UInt8.toNat_ofNat']; omega
      · subst h; rw [UInt8.toNat_ofNat']; omega
      · exact ih c h
    · next h =>
      intro c hc
      simp only [List.mem_cons] at hc
      rcases hc with hc | hc
      · subst hc
        have : c.toNat ≠ 61 := by
          intro h61
          apply h
          have : c = 61 := UInt8.toNat_inj.mp h61
          subst this; decide
        simp [needsQuote, isPrint, isSpace] at h
        omega
      · exact ih c hc

/-- Hence distinct names give distinct lines. -/
theorem quote_injective {p q : Bytes} (h : quote p = quote q) : p = q := by
  rw [← unquote_quote p, h, unquote_quote]

-- "a=\n\\" and a byte above 127
example : quote [97, 61, 10, 92, 200] =
  [97, 92, 48, 55, 53, 92, 48, 49, 50, 92, 49, 51, 52, 92, 51, 49, 48] := by decide
example : unquote (quote [97, 61, 10, 92, 200]) = [97, 61, 10, 92, 200] := by decide

/-- Names which were written by somebody else are decoded as documented: a backslash followed by three octal digits is the byte of this number (modulo 256) ... -/
theorem unquote_octal (x y z : Nat) (hx : x ≤ 7) (hy : y ≤ 7) (hz : z ≤ 7) (rest : Bytes) :
    unquote (92 :: UInt8.ofNat (48 + x) :: UInt8.ofNat (48 + y) :: UInt8.ofNat (48 + z) :: rest) = UInt8.ofNat (64 * x + 8 * y + z) :: unquote rest := by
  have e : ∀ k, k ≤ 7 → (UInt8.ofNat (48 + k)).toNat = 48 + k := by
    intro k hk
    rw [UInt8.toNat_ofNat']
    exact Nat.mod_eq_of_lt (by omega)
  have o : ∀ k, k ≤ 7 → isOctal (UInt8.ofNat (48 + k)) = true := by
    intro k hk
    unfold isOctal
    rw [e k hk]
    simp; omega
  rw [unquote, if_pos ⟨rfl, o x hx, o y hy, o z hz⟩, e x hx, e y hy, e z hz]
  congr 2
  omega

/-- ... and any other byte is taken as it is, in particular a backslash which isn't followed by three digits from 0 to 7 (48 to 55 in ASCII). -/
theorem unquote_other (b : UInt8) (rest : Bytes)
    (h : ¬ (b = 92 ∧ ∃ x y z r, rest = x :: y :: z :: r ∧ (∀ d ∈ [x, y, z], d ∈ ([48, 49, 50, 51, 52, 53, 54, 55] : Bytes)))) : unquote (b :: rest) = b :: unquote rest := by
  have o : ∀ d, isOctal d = true → d ∈ ([48, 49, 50, 51, 52, 53, 54, 55] : Bytes) := by
    intro d hd
    unfold isOctal at hd
    simp only [Bool.and_eq_true, decide_eq_true_eq] at hd
    have : ∀ n, n < 56 → 48 ≤ n → UInt8.ofNat n ∈ ([48, 49, 50, 51, 52, 53, 54, 55] : Bytes) := by decide +kernel
    have := this d.toNat (by omega) hd.1
    rwa [UInt8.ofNat_toNat] at this
  match rest, h with
  | [], _ => rfl
  | [_], _ => rfl
  | [_, _], _ => rfl
  | x :: y :: z :: r, h =>
    rw [unquote, if_neg]
    rintro ⟨rfl, h1, h2, h3⟩
    exact h ⟨rfl, x, y, z, r, rfl, by
      intro d hd
      simp only [List.mem_cons, List.not_mem_nil, or_false] at hd
      rcases hd with rfl | rfl | rfl
      · exact o _ h1
      · exact o _ h2
      · exact o _ h3⟩

/-- Exactly these bytes are written with a backslash: the control characters, blank, `=`, backslash, and everything from 127 on. -/
theorem quote_exact (p : Bytes) : quote p = p.flatMap fun b =>
    if 33 ≤ b.toNat ∧ b.toNat ≤ 126 ∧ b ≠ 61 ∧ b ≠ 92 then [b]
    else [92, UInt8.ofNat (48 + b.toNat / 64), UInt8.ofNat (48 + b.toNat / 8 % 8), UInt8.ofNat (48 + b.toNat % 8)] := by
  induction p with
  | nil => rfl
  | cons b p ih =>
    have hn : needsQuote b = !decide (33 ≤ b.toNat ∧ b.toNat ≤ 126 ∧ b ≠ 61 ∧ b ≠ 92) := by
      have : ∀ n, n < 256 → needsQuote (UInt8.ofNat n) = !decide (33 ≤ (UInt8.ofNat n).toNat ∧ (UInt8.ofNat n).toNat ≤ 126 ∧ UInt8.ofNat n ≠ 61 ∧ UInt8.ofNat n ≠ 92) := by
        decide +kernel
      have := this b.toNat (by exact b.toNat_lt)
      simpa using this
    rw [quote, List.flatMap_cons, ← ih]
    by_cases hb : 33 ≤ b.toNat ∧ b.toNat ≤ 126 ∧ b ≠ 61 ∧ b ≠ 92
    · rw [if_neg (by rw [hn]; simp [hb]), if_pos hb]; rfl
    · rw [if_pos (by rw [hn]; simp only [hb, decide_false, Bool.not_false]), if_neg hb]; rfl

example : unquote "a\\040b\\8\\1".toUTF8.toList = "a b\\8\\1".toUTF8.toList := by decide +kernel

end Verif.C16
