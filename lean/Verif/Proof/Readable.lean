import Verif.Proof.MetaRecord
import Verif.Model.Readable
import Verif.Spec.Readable
import Mathlib.Tactic.Linarith
import Mathlib.Tactic.FieldSimp
import Mathlib.Tactic.Ring
import Mathlib.Tactic.NormNum
import Mathlib.Tactic.IntervalCases
import Mathlib.Tactic.Push
import Mathlib.Algebra.Order.Field.Basic
import Mathlib.Data.Nat.Cast.Order.Field
import Mathlib.Data.Rat.Cast.Order

namespace Verif.Readable
open Verif.Quoting Verif.MetaRecord Verif.FlatFile Verif.SStats Verif.Spec.Readable

theorem no_dot {l : Bytes} (h : l.all isDigit = true) : (46 : UInt8) ∉ l := by
  intro hm
  have := List.all_eq_true.mp h _ hm
  revert this; decide

theorem no_blank {l : Bytes} (h : l.all isDigit = true) : (32 : UInt8) ∉ l := fun hm => (digit_ne (List.all_eq_true.mp h _ hm)).2.1 rfl
theorem no_minus {l : Bytes} (h : l.all isDigit = true) : (45 : UInt8) ∉ l := fun hm => (digit_ne (List.all_eq_true.mp h _ hm)).2.2 rfl

theorem digit_spec (n : Nat) : isDigit (digit n) = true ∧ (digit n).toNat - 48 = n % 10 := digit_props (n % 10) (Nat.mod_lt _ (by decide))

theorem decimal_nat (n : Nat) : decimal (fmtNat n) = some (n : ℚ) := by
  have ⟨_, h2, h3⟩ := fmtNat_spec n
  simp [decimal, splitOn_last (no_dot h2), h3]

/-- the number which is printed is the number which is read -/
theorem decimal_fixed (p m : Nat) (hp : p ≤ 2) : decimal (fmtFixed p m) = some ((m : ℚ) / 10 ^ p) := by
  have hd := digit_spec m
  have hd' := digit_spec (m / 10)
  interval_cases p
  · simp [fmtFixed, decimal_nat]
  · have ⟨_, h2, h3⟩ := fmtNat_spec (m / 10)
    have hf : [digit m].all isDigit = true := by simp [hd.1]
    have hv : parseNat [digit m] = some (m % 10) := by
      unfold parseNat
      rw [if_pos ⟨by simp, hf⟩]
      simp [hd.2]
    simp only [fmtFixed, decimal, splitOn_cons (no_dot h2), splitOn_last (no_dot hf), h3, hv, Option.some.injEq, List.length_cons, List.length_nil]
    have : (m : ℚ) = 10 * (m / 10 : Nat) + (m % 10 : Nat) := by exact_mod_cast (Nat.div_add_mod m 10).symm
    rw [this]; ring
  · have ⟨_, h2, h3⟩ := fmtNat_spec (m / 100)
    have hf : [digit (m / 10), digit m].all isDigit = true := by simp [hd.1, hd'.1]
    have hv : parseNat [digit (m / 10), digit m] = some (m % 100) := by
      unfold parseNat
      rw [if_pos ⟨by simp, hf⟩]
      simp only [List.foldl_cons, List.foldl_nil, hd.2, hd'.2, Option.some.injEq]
      omega
    simp only [fmtFixed, decimal, splitOn_cons (no_dot h2), splitOn_last (no_dot hf), h3, hv, Option.some.injEq, List.length_cons, List.length_nil]
    have : (m : ℚ) = 100 * (m / 100 : Nat) + (m % 100 : Nat) := by exact_mod_cast (Nat.div_add_mod m 100).symm
    rw [this]; ring

theorem fixed_chars (p m : Nat) : (32 : UInt8) ∉ fmtFixed p m ∧ (10 : UInt8) ∉ fmtFixed p m ∧ (45 : UInt8) ∉ fmtFixed p m := by
  have key : ∀ c ∈ fmtFixed p m, isDigit c = true ∨ c = 46 := by
    have h := fun n c hc => List.all_eq_true.mp (fmtNat_spec n).2.1 c hc
    intro c hc
    unfold fmtFixed at hc
    split at hc
    · exact .inl (h _ c hc)
    · simp at hc; rcases hc with hc | rfl | rfl
      exacts [.inl (h _ c hc), .inr rfl, .inl (digit_spec _).1]
    · simp at hc; rcases hc with hc | rfl | rfl | rfl
      exacts [.inl (h _ c hc), .inr rfl, .inl (digit_spec _).1, .inl (digit_spec _).1]
  refine ⟨fun h => ?_, fun h => ?_, fun h => ?_⟩ <;> rcases key _ h with h | h <;> revert h <;> decide

theorem roundDiv_close (a b : Nat) (hb : 0 < b) : |(roundDiv a b : ℚ) - a / b| ≤ 1 / 2 := by
  have hbq : (0 : ℚ) < b := by exact_mod_cast hb
  have hd : (a : ℚ) = b * (a / b : Nat) + (a % b : Nat) := by exact_mod_cast (Nat.div_add_mod a b).symm
  have hm : ((a % b : Nat) : ℚ) < b := by exact_mod_cast Nat.mod_lt a hb
  have hm0 : (0 : ℚ) ≤ ((a % b : Nat) : ℚ) := by exact_mod_cast Nat.zero_le _
  have hq : (a : ℚ) / b = (a / b : Nat) + ((a % b : Nat) : ℚ) / b := by rw [hd]; field_simp
  have hle : ∀ x : ℚ, 2 * x ≤ b → x / b ≤ 1 / 2 := by intro x hx; rw [div_le_iff₀ hbq]; linarith
  have hge : ∀ x : ℚ, (b : ℚ) ≤ 2 * x → 1 / 2 ≤ x / b := by intro x hx; rw [le_div_iff₀ hbq]; linarith
  have h1 : ((a % b : Nat) : ℚ) / b ≤ 1 := by rw [div_le_one hbq]; exact hm.le
  have h0 : (0 : ℚ) ≤ ((a % b : Nat) : ℚ) / b := div_nonneg hm0 hbq.le
  unfold roundDiv
  rw [hq, abs_le]
  split
  · next h =>
    have : 2 * ((a % b : Nat) : ℚ) ≤ b := by
      have : 2 * (a % b) ≤ b := by omega
      exact_mod_cast this
    have := hle _ this
    constructor <;> linarith
  · next h =>
    have : (b : ℚ) ≤ 2 * ((a % b : Nat) : ℚ) := by
      have : b ≤ 2 * (a % b) := by omega
      exact_mod_cast this
    have := hge _ this
    push_cast
    constructor <;> linarith

theorem roundDiv_mono {a a' b : Nat} (h : a ≤ a') : roundDiv a b ≤ roundDiv a' b := by
  have hq : a / b ≤ a' / b := Nat.div_le_div_right h
  have h1 := Nat.div_add_mod a b
  have h2 := Nat.div_add_mod a' b
  unfold roundDiv
  rcases Nat.lt_or_ge (a / b) (a' / b) with hlt | hge
  · split <;> split <;> omega
  · have he : a / b = a' / b := Nat.le_antisymm hq hge
    have hm : a % b ≤ a' % b := by rw [he] at h1; omega
    rw [he]
    split <;> split <;> omega

theorem roundDiv_exact (a b : Nat) (hb : 0 < b) : roundDiv (a * b) b = a := by
  simp [roundDiv, Nat.mul_div_cancel _ hb, hb]

theorem findLog_spec (x fuel k : Nat) (hk : k ≤ 8) (h : 1024 ^ k ≤ x) : k ≤ findLog x fuel k ∧ findLog x fuel k ≤ 8 ∧ 1024 ^ findLog x fuel k ≤ x := by
  induction fuel generalizing k with
  | zero => exact ⟨Nat.le_refl _, hk, h⟩
  | succ fuel ih =>
    unfold findLog
    split
    · next hc =>
      have := ih (k + 1) (by omega) (by rw [Nat.pow_succ, Nat.mul_comm]; exact hc.1)
      exact ⟨by omega, this.2⟩
    · exact ⟨Nat.le_refl _, hk, h⟩

theorem findLog_max (x fuel k : Nat) (hf : 8 ≤ k + fuel) (hk : k ≤ 8) : findLog x fuel k = 8 ∨ x < 1024 * 1024 ^ findLog x fuel k := by
  induction fuel generalizing k with
  | zero => left; simp [findLog]; omega
  | succ fuel ih =>
    unfold findLog
    split
    · next hc => exact ih (k + 1) (by omega) (by omega)
    · next hc =>
      by_cases h8 : k = 8
      · left; exact h8
      · right
        have : ¬ 1024 * 1024 ^ k ≤ x := fun h => hc ⟨h, by omega⟩
        omega

theorem precision_spec (x k : Nat) (h : 1024 ^ k ≤ x) : precision x k ≤ 2 ∧ 100 * 1024 ^ k ≤ 10 ^ precision x k * x := by
  unfold precision
  split
  · next h1 => exact ⟨by omega, by simpa using h1⟩
  · split
    · next h1 => exact ⟨by omega, by omega⟩
    · exact ⟨Nat.le_refl _, by omega⟩

theorem toDouble_close (n : Nat) : |(toDouble n : ℚ) - n| ≤ n / 2 ^ 53 := by
  unfold toDouble
  split
  · simp; positivity
  · next hn =>
    have hn0 : n ≠ 0 := by rintro rfl; simp at hn
    have h53 : 53 ≤ n.log2 := (Nat.le_log2 hn0).2 (by omega)
    have hlog : 2 ^ n.log2 ≤ n := Nat.log2_self_le hn0
    generalize he : n.log2 - 52 = e
    have hle : n.log2 = 52 + e := by omega
    rw [hle, Nat.pow_add] at hlog
    have hb : 0 < 2 ^ e := Nat.two_pow_pos e
    have h1 := roundDiv_close n (2 ^ e) hb
    have hEq : (if 2 * (n % 2 ^ e) < 2 ^ e ∨ 2 * (n % 2 ^ e) = 2 ^ e ∧ n / 2 ^ e % 2 = 0 then n / 2 ^ e * 2 ^ e else (n / 2 ^ e + 1) * 2 ^ e) =
        roundDiv n (2 ^ e) * 2 ^ e := by
      unfold roundDiv; split <;> rfl
    simp only [hEq]
    have hbq : (0 : ℚ) < ((2 ^ e : Nat) : ℚ) := by exact_mod_cast hb
    have hlq : (2 : ℚ) ^ 52 * ((2 ^ e : Nat) : ℚ) ≤ n := by exact_mod_cast hlog
    rw [Nat.cast_mul]
    generalize ((2 ^ e : Nat) : ℚ) = B at *
    generalize (roundDiv n (2 ^ e) : ℚ) = r at *
    have e1 : r * B - n = (r - n / B) * B := by field_simp
    have e2 : B / 2 ≤ n / 2 ^ 53 := by
      rw [le_div_iff₀ (by positivity)]
      linarith
    rw [e1, abs_mul, abs_of_pos hbq]
    calc |r - n / B| * B ≤ 1 / 2 * B := by exact mul_le_mul_of_nonneg_right h1 hbq.le
      _ = B / 2 := by ring
      _ ≤ _ := e2

end Verif.Readable
