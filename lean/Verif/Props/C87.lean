import Verif.Proof.Readable
import Verif.Props.C41

/-
C87: sizes and durations are printed for people. What somebody reads is the printed value but for a small part of it (one in 199), and smaller ones are exact.
-/
namespace Verif.C87
open Verif.Quoting Verif.MetaRecord Verif.FlatFile Verif.SStats Verif.Spec.Readable Verif.Readable

theorem unit_of (k : Nat) (hk : k ≤ 8) : (32 : UInt8) ∉ abbrevs.getD k [] ∧ (10 : UInt8) ∉ abbrevs.getD k [] ∧ sizeUnits.lookup (abbrevs.getD k []) = some (1024 ^ k) := by
  refine ⟨?_, ?_, ?_⟩
  · interval_cases k <;> decide
  · interval_cases k <;> decide
  · have : sizeUnits.map (·.1) = abbrevs := by decide
    interval_cases k <;> (norm_num [sizeUnits, abbrevs, List.lookup]; try decide)

/-- what is read -/
def shown (n : Nat) : ℚ :=
  if n < 1024 then n
  else
    let x := toDouble n
    let k := findLog x 8 1
    let p := precision x k
    (roundDiv (10 ^ p * x) (1024 ^ k) : ℚ) / 10 ^ p * 1024 ^ k

theorem toDouble_big {n : Nat} (h : 1024 ≤ n) : 1024 ≤ toDouble n := by
  by_contra hc
  have h1 := toDouble_close n
  have h2 : (toDouble n : ℚ) ≤ 1023 := by
    have : toDouble n ≤ 1023 := by omega
    exact_mod_cast this
  have h3 : (1024 : ℚ) ≤ n := by exact_mod_cast h
  rw [abs_le] at h1
  have := h1.1
  rw [neg_le] at this
  have h4 : (n : ℚ) - n / 2 ^ 53 ≤ 1023 := by linarith
  have h5 : (n : ℚ) * (1 - 1 / 2 ^ 53) ≤ 1023 := by linarith
  have h6 : (1024 : ℚ) * (1 - 1 / 2 ^ 53) ≤ n * (1 - 1 / 2 ^ 53) := mul_le_mul_of_nonneg_right h3 (by norm_num)
  norm_num at h5 h6
  linarith

theorem sizeText_head (n : Nat) : ∀ r, sizeText n ≠ 45 :: r := by
  intro r h
  have key : ∀ (f u : Bytes), (45 : UInt8) ∉ f → f ++ 32 :: u ≠ 45 :: r := by
    intro f u hf he
    cases f with
    | nil => simp at he
    | cons c f => simp at he; exact hf (by simp [he.1])
  unfold sizeText at h
  split at h
  · exact key _ (lit "B") (no_minus (fmtNat_spec n).2.1) h
  · exact key _ _ (fixed_chars _ _).2.2 h

theorem read_sizeText (n : Nat) : total sizeUnits (splitOn 32 (sizeText n)) = some (shown n) := by
  unfold sizeText shown
  split
  · have hB : (32 : UInt8) ∉ lit "B" := by decide
    have : sizeUnits.lookup (lit "B") = some 1 := by decide
    show total sizeUnits (splitOn 32 (fmtNat n ++ 32 :: lit "B")) = _
    rw [splitOn_cons (no_blank (fmtNat_spec n).2.1), splitOn_last hB]
    simp [Spec.Readable.total, decimal_nat, this]
  · next h =>
    have hx := toDouble_big (Nat.le_of_not_lt h)
    have hk := findLog_spec (toDouble n) 8 1 (by omega) (by omega)
    have hp := precision_spec (toDouble n) _ hk.2.2
    have hu := unit_of _ hk.2.1
    simp only
    rw [splitOn_cons (fixed_chars _ _).1, splitOn_last hu.1]
    simp only [Spec.Readable.total, decimal_fixed _ _ hp.1, hu.2.2, add_zero]

theorem read_size (n : Int) : readSize (size n) = some (if n < 0 then - shown n.natAbs else shown n.natAbs) := by
  unfold size
  split
  · show (total sizeUnits (splitOn 32 (sizeText n.natAbs))).map _ = _
    simp [read_sizeText]
  · simp only [List.nil_append]
    unfold readSize
    split
    · next r h => exact absurd h (sizeText_head _ r)
    · exact read_sizeText _

theorem shown_close (n : Nat) : |shown n - n| ≤ n / 199 := by
  unfold shown
  split
  · simp; positivity
  · next h =>
    have hx := toDouble_big (Nat.le_of_not_lt h)
    have hk := findLog_spec (toDouble n) 8 1 (by omega) (by omega)
    have hp := precision_spec (toDouble n) _ hk.2.2
    have hc := toDouble_close n
    simp only
    generalize toDouble n = x at *
    generalize findLog x 8 1 = k at *
    generalize precision x k = p at *
    have h1 := roundDiv_close (10 ^ p * x) (1024 ^ k) (Nat.pow_pos (by decide))
    generalize (roundDiv (10 ^ p * x) (1024 ^ k) : ℚ) = r at *
    have h2 : (100 : ℚ) * 1024 ^ k ≤ 10 ^ p * x := by exact_mod_cast hp.2
    push_cast at h1
    have hK : (0 : ℚ) < 1024 ^ k := by positivity
    have hP : (0 : ℚ) < 10 ^ p := by positivity
    generalize (1024 : ℚ) ^ k = K at *
    generalize (10 : ℚ) ^ p = P at *
    have e1 : r / P * K - x = (r - P * x / K) * (K / P) := by field_simp
    have e2 : |r / P * K - x| ≤ x / 200 := by
      rw [e1, abs_mul, abs_of_pos (div_pos hK hP)]
      calc |r - P * x / K| * (K / P) ≤ 1 / 2 * (K / P) := mul_le_mul_of_nonneg_right h1 (div_pos hK hP).le
        _ ≤ x / 200 := by
          rw [mul_div, div_le_div_iff₀ hP (by norm_num)]
          linarith
    have hn0 : (0 : ℚ) ≤ n := Nat.cast_nonneg n
    rw [abs_le] at *
    constructor <;> linarith

theorem cast_natAbs_neg {n : Int} (h : n < 0) : ((n.natAbs : Nat) : ℚ) = -n := by
  rw [Nat.cast_natAbs, abs_of_neg h]; push_cast; rfl

theorem cast_natAbs_pos {n : Int} (h : ¬ n < 0) : ((n.natAbs : Nat) : ℚ) = n := by
  rw [Nat.cast_natAbs, abs_of_nonneg (by omega)]

/-- **C87** (sizes): whatever the size, also a negative one, it is shown as a number and a unit, and what is read differs from it by less than a 199th of it. -/
theorem size_close (n : Int) : ∃ v, readSize (size n) = some v ∧ |v - n| ≤ |(n : ℚ)| / 199 := by
  refine ⟨_, read_size n, ?_⟩
  have h := shown_close n.natAbs
  rw [show |(n : ℚ)| = (n.natAbs : Nat) by rw [Nat.cast_natAbs]; exact_mod_cast rfl]
  split
  · next hn =>
    have e := cast_natAbs_neg hn
    rw [show -shown n.natAbs - n = -(shown n.natAbs - (n.natAbs : Nat)) by rw [e]; ring, abs_neg]
    exact h
  · next hn =>
    rw [← cast_natAbs_pos hn]; exact h

example : size 1536 = lit "1.50 KiB" ∧ readSize (size 1536) = some 1536 ∧ size (-123456) = lit "-121 KiB" ∧ readSize (size (-123456)) = some (-123904) ∧
    size (2 ^ 53 + 1) = lit "8.00 PiB" ∧ size (1234 * 1024 ^ 8) = lit "1234 YiB" := by decide +kernel

/-- **C87** (small sizes) are exact. -/
theorem small_exact (n : Int) (h : n.natAbs < 1024) : readSize (size n) = some (n : ℚ) := by
  rw [read_size]
  simp only [shown, h, if_true]
  split
  · next hn => rw [cast_natAbs_neg hn, neg_neg]
  · next hn => rw [cast_natAbs_pos hn]

/-! ## Durations -/

/-- parts which are read -/
inductive Reads : List Bytes → ℚ → Prop
  | nil : Reads [] 0
  | cons {w u : Bytes} {x y v : ℚ} {ps : List Bytes} : (32 : UInt8) ∉ w → (32 : UInt8) ∉ u → decimal w = some x → timeUnits.lookup u = some y →
      Reads ps v → Reads ((w ++ 32 :: u) :: ps) (x * y + v)

theorem Reads.append {l r : List Bytes} {v w : ℚ} (h : Reads l v) (h' : Reads r w) : Reads (l ++ r) (v + w) := by
  induction h with
  | nil => simpa using h'
  | cons h1 h2 h3 h4 _ ih => rw [add_assoc]; exact .cons h1 h2 h3 h4 ih

theorem Reads.read {l : List Bytes} {v : ℚ} (h : Reads l v) (hne : l ≠ []) : readDuration (join l) = some v := by
  unfold readDuration
  induction h with
  | nil => exact absurd rfl hne
  | @cons w u x y v ps h1 h2 h3 h4 hr ih =>
    cases ps with
    | nil =>
      cases hr
      simp only [join]
      rw [splitOn_cons h1, splitOn_last h2]
      simp only [Spec.Readable.total, h3, h4]
    | cons q ps =>
      have ih := ih (by simp)
      simp only [join, List.append_assoc, List.cons_append]
      rw [splitOn_cons h1, splitOn_cons h2]
      simp only [Spec.Readable.total, h3, h4, ih]

theorem fmtInt_nat {n : Int} (h : 0 ≤ n) : fmtInt n = fmtNat n.natAbs := by unfold fmtInt; rw [if_neg (by omega)]

theorem decimal_one : decimal (lit "1") = some 1 := by
  have : lit "1" = fmtNat 1 := by decide
  rw [this, decimal_nat]; norm_num

theorem part_reads {n : Int} (hn : 0 ≤ n) {one many : Bytes} {y : ℚ} (h1 : (32 : UInt8) ∉ one) (h2 : (32 : UInt8) ∉ many)
    (l1 : timeUnits.lookup one = some y) (l2 : timeUnits.lookup many = some y) : Reads (part n one many) (n * y) := by
  unfold part
  split
  · rw [fmtInt_nat hn]
    have hd := decimal_nat n.natAbs
    rw [cast_natAbs_pos (by omega : ¬ n < 0)] at hd
    have := Reads.cons (no_blank (fmtNat_spec n.natAbs).2.1) h2 hd l2 .nil
    simpa using this
  · split
    · next _ h =>
      subst h
      have := Reads.cons (by decide : (32 : UInt8) ∉ lit "1") h1 decimal_one l1 .nil
      rw [show lit "1 " = lit "1" ++ [32] by decide, List.append_assoc]
      simpa using this
    · have : n = 0 := by omega
      subst this
      simpa using Reads.nil

theorem seconds_whole {r : Int} (hr : 0 ≤ r) (o : List Bytes) : Reads (seconds true r 1 o) r := by
  unfold seconds
  split
  · next h =>
    have h' : r = 1 := by exact_mod_cast h
    subst h'
    rw [show lit "1 second" = lit "1" ++ 32 :: lit "second" by decide]
    have := Reads.cons (by decide : (32 : UInt8) ∉ lit "1") (by decide : (32 : UInt8) ∉ lit "second") decimal_one (by decide : timeUnits.lookup (lit "second") = some 1) .nil
    simpa using this
  · next h =>
    split
    · rw [if_pos rfl, fmtInt_nat hr, show lit " seconds" = 32 :: lit "seconds" by decide]
      have hd := decimal_nat r.natAbs
      rw [cast_natAbs_pos (by omega : ¬ r < 0)] at hd
      have := Reads.cons (no_blank (fmtNat_spec r.natAbs).2.1) (by decide : (32 : UInt8) ∉ lit "seconds") hd (by decide : timeUnits.lookup (lit "seconds") = some 1) .nil
      simpa using this
    · next h' =>
      have : r = 0 := by
        have h1 : ¬ ((1 : Nat) : Int) < r := fun h => h' (.inr h)
        have h2 : r ≠ 1 := fun e => h (by rw [e]; rfl)
        omega
      subst this
      simpa using Reads.nil

theorem duration_parts {w : Bool} {a : Int} {d : Nat} (hd : 0 < d) (ha : 0 ≤ a) {v : ℚ}
    (hs : ∀ o, (part (a / (3600 * d)) (lit "hour") (lit "hours") ++ part (a % (3600 * d) / (60 * d)) (lit "minute") (lit "minutes") = o →
      Reads (seconds w (a % (3600 * d) % (60 * d)) d o) v)) :
    readDuration (duration w a d) = some (((a / (3600 * d) : Int) : ℚ) * 3600 + ((a % (3600 * d) / (60 * d) : Int) : ℚ) * 60 + v) := by
  have hdz : (0 : Int) < d := by exact_mod_cast hd
  have h0 : 0 ≤ a % (3600 * (d : Int)) := Int.emod_nonneg _ (by omega)
  have h1 := part_reads (Int.ediv_nonneg ha (by omega : (0 : Int) ≤ 3600 * d)) (by decide : (32 : UInt8) ∉ lit "hour") (by decide : (32 : UInt8) ∉ lit "hours")
    (by decide : timeUnits.lookup (lit "hour") = some 3600) (by decide)
  have h2 := part_reads (Int.ediv_nonneg h0 (by omega : (0 : Int) ≤ 60 * d)) (by decide : (32 : UInt8) ∉ lit "minute") (by decide : (32 : UInt8) ∉ lit "minutes")
    (by decide : timeUnits.lookup (lit "minute") = some 60) (by decide)
  unfold duration
  refine ((h1.append h2).append (hs _ rfl)).read ?_
  intro hnil
  rw [List.append_eq_nil_iff] at hnil
  rw [hnil.1] at hnil
  have := hnil.2
  unfold seconds at this
  simp only [true_or, if_true] at this
  split at this
  · simp at this
  · split at this <;> simp at this

/-- **C87** (durations): what is read of a whole number of seconds is that number. -/
theorem duration_exact_partial (n : Nat) : readDuration (duration true n 1) = some (n : ℚ) := by
  have h0 : (0 : Int) ≤ n % (3600 * (1 : Nat)) % (60 * (1 : Nat)) := Int.emod_nonneg _ (by decide)
  rw [duration_parts (by decide) (by omega) (fun o _ => seconds_whole h0 o)]
  congr 1
  have : ((n : Int) : ℚ) = ((n / (3600 * (1 : Nat)) : Int) : ℚ) * 3600 + ((n % (3600 * (1 : Nat)) / (60 * (1 : Nat)) : Int) : ℚ) * 60 +
      ((n % (3600 * (1 : Nat)) % (60 * (1 : Nat)) : Int) : ℚ) := by
    have : (n : Int) = n / (3600 * (1 : Nat)) * 3600 + n % (3600 * (1 : Nat)) / (60 * (1 : Nat)) * 60 + n % (3600 * (1 : Nat)) % (60 * (1 : Nat)) := by omega
    exact_mod_cast this
  rw [← this]; norm_num

example : duration true 3661 1 = lit "1 hour 1 minute 1 second" ∧ duration true 7200 1 = lit "2 hours" ∧ duration true 0 1 = lit "0 seconds" := by decide +kernel

theorem seconds_frac {r : Int} {d : Nat} (hd : 0 < d) (hr : 0 ≤ r) (o : List Bytes) :
    ∃ v, Reads (seconds false r d o) v ∧ |v - r / d| < 1 ∧ (o = [] → |v - r / d| ≤ 1 / 200) := by
  have hdq : (0 : ℚ) < d := by exact_mod_cast hd
  unfold seconds
  split
  · next h =>
    have := Reads.cons (by decide : (32 : UInt8) ∉ lit "1") (by decide : (32 : UInt8) ∉ lit "second") decimal_one (by decide : timeUnits.lookup (lit "second") = some 1) .nil
    refine ⟨1, by rw [show lit "1 second" = lit "1" ++ 32 :: lit "second" by decide]; simpa using this, ?_⟩
    have : ((r : Int) : ℚ) = d := by rw [h]; norm_num
    rw [this, div_self (by positivity)]; norm_num
  · next h =>
    have hv : ((100 * r.toNat : Nat) : ℚ) = 100 * r := by
      have : ((100 * r.toNat : Nat) : Int) = 100 * r := by omega
      exact_mod_cast this
    have hc := roundDiv_close (100 * r.toNat) d hd
    rw [hv] at hc
    split
    · rw [if_neg (by decide)]
      have := Reads.cons (fixed_chars 2 (roundDiv (100 * r.toNat) d)).1 (by decide : (32 : UInt8) ∉ lit "seconds") (decimal_fixed 2 _ (Nat.le_refl _))
        (by decide : timeUnits.lookup (lit "seconds") = some 1) .nil
      refine ⟨_, this, ?_⟩
      have hle : |(roundDiv (100 * r.toNat) d : ℚ) / 10 ^ 2 * 1 + 0 - r / d| ≤ 1 / 200 := by
        rw [show (roundDiv (100 * r.toNat) d : ℚ) / 10 ^ 2 * 1 + 0 - r / d = ((roundDiv (100 * r.toNat) d : ℚ) - 100 * r / d) / 100 by ring, abs_div]
        norm_num
        linarith
      exact ⟨lt_of_le_of_lt hle (by norm_num), fun _ => hle⟩
    · next h' =>
      have h1 : o ≠ [] := fun e => h' (.inl e)
      have h2 : r < d := by
        have : ¬ (d : Int) < r := fun e => h' (.inr e)
        omega
      refine ⟨0, .nil, ?_, fun e => absurd e h1⟩
      have h3 : (r : ℚ) / d < 1 := by rw [div_lt_one hdq]; exact_mod_cast h2
      have h4 : 0 ≤ (r : ℚ) / d := div_nonneg (by exact_mod_cast hr) hdq.le
      rw [zero_sub, abs_neg, abs_of_nonneg h4]; exact h3

/-- **C87** (durations, not whole): what is read of `a / d` seconds differs from it by less than a second; under a minute by at most half a hundredth. -/
theorem duration_close_partial (a d : Nat) (hd : 0 < d) : ∃ v, readDuration (duration false a d) = some v ∧ |v - (a : ℚ) / d| < 1 ∧
    (a < 60 * d → |v - (a : ℚ) / d| ≤ 1 / 200) := by
  have hdz : (0 : Int) < d := by exact_mod_cast hd
  have hdq : (0 : ℚ) < d := by exact_mod_cast hd
  have h0 : (0 : Int) ≤ a % (3600 * d) % (60 * d) := Int.emod_nonneg _ (by omega)
  obtain ⟨v, h1, h2, h3⟩ := seconds_frac hd h0 (part ((a : Int) / (3600 * d)) (lit "hour") (lit "hours") ++ part ((a : Int) % (3600 * d) / (60 * d)) (lit "minute") (lit "minutes"))
  refine ⟨_, duration_parts hd (by omega) (fun o ho => by rw [← ho]; exact h1), ?_⟩
  have e : (a : ℚ) / d = (((a : Int) / (3600 * d) : Int) : ℚ) * 3600 + (((a : Int) % (3600 * d) / (60 * d) : Int) : ℚ) * 60 + (((a : Int) % (3600 * d) % (60 * d) : Int) : ℚ) / d := by
    have e1 := Int.mul_ediv_add_emod (a : Int) (3600 * d)
    have e2 := Int.mul_ediv_add_emod ((a : Int) % (3600 * d)) (60 * d)
    have e3 : (a : Int) = 3600 * d * (a / (3600 * d)) + (60 * d * (a % (3600 * d) / (60 * d)) + a % (3600 * d) % (60 * d)) := by rw [e2, e1]
    have e4 : (a : ℚ) = 3600 * d * (((a : Int) / (3600 * d) : Int) : ℚ) + (60 * d * (((a : Int) % (3600 * d) / (60 * d) : Int) : ℚ) + (((a : Int) % (3600 * d) % (60 * d) : Int) : ℚ)) := by
      exact_mod_cast e3
    generalize (((a : Int) / (3600 * d) : Int) : ℚ) = H at *
    generalize (((a : Int) % (3600 * d) / (60 * d) : Int) : ℚ) = M at *
    rw [e4]; field_simp; ring
  have e5 : (((a : Int) / (3600 * d) : Int) : ℚ) * 3600 + (((a : Int) % (3600 * d) / (60 * d) : Int) : ℚ) * 60 + v - (a : ℚ) / d =
      v - (((a : Int) % (3600 * d) % (60 * d) : Int) : ℚ) / d := by rw [e]; ring
  rw [e5]
  refine ⟨h2, fun ha => h3 ?_⟩
  have g1 : (a : Int) / (3600 * d) = 0 := Int.ediv_eq_zero_of_lt (by omega) (by omega)
  have g2 : (a : Int) % (3600 * d) = a := Int.emod_eq_of_lt (by omega) (by omega)
  have g3 : (a : Int) / (60 * d) = 0 := Int.ediv_eq_zero_of_lt (by omega) (by omega)
  rw [g1, g2, g3]
  decide

example : duration false 6050 100 = lit "1 minute" ∧ duration false 6150 100 = lit "1 minute 1.50 seconds" ∧ duration false 1 3 = lit "0.33 seconds" := by decide +kernel

/-- **C87** (negative durations, witness): the hours of a negative duration are left out, and it is shown like another one, which isn't negative (F131); five
seconds before are an hour after but for five seconds. -/
theorem negative_wraps (w : Bool) (a : Int) (d : Nat) (hd : 0 < d) (ha : a < 0) : duration w a d = duration w (a % (3600 * d)) d := by
  have hdz : (0 : Int) < d := by exact_mod_cast hd
  have h1 : a / (3600 * (d : Int)) < 0 := Int.ediv_neg_of_neg_of_pos ha (by omega)
  have h2 : a % (3600 * (d : Int)) / (3600 * d) = 0 := Int.ediv_eq_zero_of_lt (Int.emod_nonneg _ (by omega)) (Int.emod_lt_of_pos _ (by omega))
  have e : ∀ n : Int, n ≤ 0 → part n (lit "hour") (lit "hours") = [] := by
    intro n hn; unfold part; rw [if_neg (by omega), if_neg (by omega)]
  unfold duration
  rw [Int.emod_emod_of_dvd _ (dvd_refl _), e _ h1.le, e _ h2.le]

example : duration false (-500) 100 = lit "59 minutes 55.00 seconds" ∧ readDuration (duration false (-500) 100) = some 3595 := by
  decide +kernel

/-! ## Larger is larger -/

theorem findLog_mono {x y : Nat} (h : x ≤ y) (fuel k : Nat) : findLog x fuel k ≤ findLog y fuel k := by
  induction fuel generalizing k with
  | zero => exact Nat.le_refl _
  | succ fuel ih =>
    unfold findLog
    split
    · next hx => rw [if_pos ⟨by omega, hx.2⟩]; exact ih _
    · split
      · next hy =>
        have : ∀ fuel k, k ≤ findLog y fuel k := by
          intro fuel
          induction fuel with
          | zero => intro k; exact Nat.le_refl _
          | succ f ih => intro k; unfold findLog; split
                         · have := ih (k + 1); omega
                         · exact Nat.le_refl _
        have := this fuel (k + 1)
        omega
      · exact Nat.le_refl _

/-- what is shown of a double -/
def shownAt (x : Nat) : ℚ := (roundDiv (10 ^ precision x (findLog x 8 1) * x) (1024 ^ findLog x 8 1) : ℚ) / 10 ^ precision x (findLog x 8 1) * 1024 ^ findLog x 8 1

theorem shown_below {x k p t : Nat} (h : 10 ^ p * x ≤ t * 1024 ^ k) : (roundDiv (10 ^ p * x) (1024 ^ k) : ℚ) / 10 ^ p * 1024 ^ k ≤ t / 10 ^ p * 1024 ^ k := by
  have h1 := roundDiv_mono (b := 1024 ^ k) h
  rw [roundDiv_exact _ _ (Nat.pow_pos (by decide))] at h1
  have h2 : (roundDiv (10 ^ p * x) (1024 ^ k) : ℚ) ≤ t := by exact_mod_cast h1
  gcongr

theorem shown_above {x k p t : Nat} (h : t * 1024 ^ k ≤ 10 ^ p * x) : (t : ℚ) / 10 ^ p * 1024 ^ k ≤ (roundDiv (10 ^ p * x) (1024 ^ k) : ℚ) / 10 ^ p * 1024 ^ k := by
  have h1 := roundDiv_mono (b := 1024 ^ k) h
  rw [roundDiv_exact _ _ (Nat.pow_pos (by decide))] at h1
  have h2 : (t : ℚ) ≤ (roundDiv (10 ^ p * x) (1024 ^ k) : ℚ) := by exact_mod_cast h1
  gcongr

theorem shownAt_mono {x y : Nat} (hx : 1024 ≤ x) (h : x ≤ y) : shownAt x ≤ shownAt y := by
  have hk := findLog_mono h 8 1
  have hkx := findLog_spec x 8 1 (by omega) (by omega)
  have hky := findLog_spec y 8 1 (by omega) (by omega)
  have hmx := findLog_max x 8 1 (by omega) (by omega)
  unfold shownAt
  generalize findLog x 8 1 = k at *
  generalize findLog y 8 1 = l at *
  rcases Nat.lt_or_ge k l with hlt | hge
  · have hx' : x < 1024 * 1024 ^ k := by
      rcases hmx with rfl | h
      · omega
      · exact h
    refine le_trans (shown_below (t := 1024 * 10 ^ precision x k) ?_) (le_trans ?_ (shown_above (t := 10 ^ precision y l) ?_))
    · rw [Nat.mul_comm 1024, Nat.mul_assoc]; exact Nat.mul_le_mul_left _ hx'.le
    · push_cast
      rw [mul_div_assoc, mul_comm, div_self (by positivity), div_self (by positivity)]
      have : (1024 : ℚ) ^ (k + 1) ≤ 1024 ^ l := pow_le_pow_right₀ (by norm_num) hlt
      rw [pow_succ] at this
      linarith
    · exact Nat.mul_le_mul_left _ hky.2.2
  · have : k = l := Nat.le_antisymm hk hge
    subst this
    clear hk hge hmx hky
    have hd : ∀ t p : ℚ, t / p * 1024 ^ k = t / p * 1024 ^ k := fun _ _ => rfl
    have same : ∀ p, (roundDiv (10 ^ p * x) (1024 ^ k) : ℚ) / 10 ^ p * 1024 ^ k ≤ (roundDiv (10 ^ p * y) (1024 ^ k) : ℚ) / 10 ^ p * 1024 ^ k := by
      intro p
      have h1 := roundDiv_mono (b := 1024 ^ k) (Nat.mul_le_mul_left (10 ^ p) h)
      have h2 : (roundDiv (10 ^ p * x) (1024 ^ k) : ℚ) ≤ (roundDiv (10 ^ p * y) (1024 ^ k) : ℚ) := by exact_mod_cast h1
      gcongr
    have e : ∀ p t p' t' : Nat, (t : ℚ) / 10 ^ p ≤ (t' : ℚ) / 10 ^ p' → 10 ^ p * x ≤ t * 1024 ^ k → t' * 1024 ^ k ≤ 10 ^ p' * y →
        (roundDiv (10 ^ p * x) (1024 ^ k) : ℚ) / 10 ^ p * 1024 ^ k ≤ (roundDiv (10 ^ p' * y) (1024 ^ k) : ℚ) / 10 ^ p' * 1024 ^ k := by
      intro p t p' t' h1 h2 h3
      refine le_trans (shown_below h2) (le_trans ?_ (shown_above h3))
      gcongr
    unfold precision
    by_cases x1 : 100 * 1024 ^ k ≤ x
    · rw [if_pos x1, if_pos (by omega)]; exact same 0
    · rw [if_neg x1]
      by_cases x2 : 10 * 1024 ^ k ≤ x
      · rw [if_pos x2]
        by_cases y1 : 100 * 1024 ^ k ≤ y
        · rw [if_pos y1]; exact e 1 1000 0 100 (by norm_num) (by omega) (by omega)
        · rw [if_neg y1, if_pos (by omega)]; exact same 1
      · rw [if_neg x2]
        by_cases y1 : 100 * 1024 ^ k ≤ y
        · rw [if_pos y1]; exact e 2 1000 0 100 (by norm_num) (by omega) (by omega)
        · rw [if_neg y1]
          by_cases y2 : 10 * 1024 ^ k ≤ y
          · rw [if_pos y2]; exact e 2 1000 1 100 (by norm_num) (by omega) (by omega)
          · rw [if_neg y2]; exact same 2

theorem toDouble_mono {a b : Nat} (h : a ≤ b) : toDouble a ≤ toDouble b := by
  have hform : ∀ n, 2 ^ 53 ≤ n → toDouble n = roundDiv n (2 ^ (n.log2 - 52)) * 2 ^ (n.log2 - 52) := by
    intro n hn
    unfold toDouble roundDiv
    rw [if_neg (by omega)]
    simp only
    split <;> rfl
  have hl : ∀ n, 2 ^ 53 ≤ n → 53 ≤ n.log2 ∧ 2 ^ n.log2 ≤ n ∧ n < 2 ^ (n.log2 + 1) := by
    intro n hn
    have hn0 : n ≠ 0 := by omega
    exact ⟨(Nat.le_log2 hn0).2 hn, Nat.log2_self_le hn0, Nat.lt_log2_self⟩
  -- a power of two stays between
  have above : ∀ n, 2 ^ 53 ≤ n → 2 ^ n.log2 ≤ toDouble n := by
    intro n hn
    have ⟨h1, h2, _⟩ := hl n hn
    rw [hform n hn]
    have e : 2 ^ n.log2 = 2 ^ 52 * 2 ^ (n.log2 - 52) := by rw [← Nat.pow_add]; congr 1; omega
    have h3 := roundDiv_mono (b := 2 ^ (n.log2 - 52)) (e ▸ h2 : 2 ^ 52 * 2 ^ (n.log2 - 52) ≤ n)
    rw [roundDiv_exact _ _ (Nat.two_pow_pos _)] at h3
    rw [e]; exact Nat.mul_le_mul_right _ h3
  have below : ∀ n, 2 ^ 53 ≤ n → toDouble n ≤ 2 ^ (n.log2 + 1) := by
    intro n hn
    have ⟨h1, _, h2⟩ := hl n hn
    rw [hform n hn]
    have e : 2 ^ (n.log2 + 1) = 2 ^ 53 * 2 ^ (n.log2 - 52) := by rw [← Nat.pow_add]; congr 1; omega
    have h3 := roundDiv_mono (b := 2 ^ (n.log2 - 52)) (e ▸ h2.le : n ≤ 2 ^ 53 * 2 ^ (n.log2 - 52))
    rw [roundDiv_exact _ _ (Nat.two_pow_pos _)] at h3
    rw [e]; exact Nat.mul_le_mul_right _ h3
  rcases Nat.lt_or_ge b (2 ^ 53) with hb | hb
  · unfold toDouble; rw [if_pos hb, if_pos (by omega)]; exact h
  · rcases Nat.lt_or_ge a (2 ^ 53) with ha | ha
    · have e : toDouble a = a := by unfold toDouble; rw [if_pos ha]
      have h1 : 2 ^ 53 ≤ 2 ^ b.log2 := Nat.pow_le_pow_right (by decide) (hl b hb).1
      have h2 := above b hb
      rw [e]; omega
    · have hlog : a.log2 ≤ b.log2 := (Nat.le_log2 (by omega)).2 (le_trans (hl a ha).2.1 h)
      rcases Nat.lt_or_ge a.log2 b.log2 with hlt | hge
      · exact le_trans (below a ha) (le_trans (Nat.pow_le_pow_right (by decide) hlt) (above b hb))
      · rw [hform a ha, hform b hb, Nat.le_antisymm hlog hge]
        exact Nat.mul_le_mul_right _ (roundDiv_mono h)

theorem shown_mono {a b : Nat} (h : a ≤ b) : shown a ≤ shown b := by
  have hlow : ∀ b, ¬ b < 1024 → (1024 : ℚ) ≤ shownAt (toDouble b) := by
    intro b hb
    have e : shownAt 1024 = 1024 := by
      have h1 : findLog 1024 8 1 = 1 := by decide
      have h2 : precision 1024 1 = 2 := by decide
      have h3 : roundDiv (10 ^ 2 * 1024) (1024 ^ 1) = 100 := by decide
      unfold shownAt
      rw [h1, h2, h3]; norm_num
    rw [← e]
    exact shownAt_mono (Nat.le_refl _) (toDouble_big (Nat.le_of_not_lt hb))
  unfold shown
  split
  · next ha =>
    split
    · exact_mod_cast h
    · next hb =>
      refine le_trans ?_ (hlow b hb)
      exact_mod_cast ha.le
  · next ha =>
    rw [if_neg (by omega)]
    exact shownAt_mono (toDouble_big (Nat.le_of_not_lt ha)) (toDouble_mono h)

/-- **C87** (order): a larger size isn't shown as a smaller one. -/
theorem size_mono (m n : Int) (h : m ≤ n) : ∃ v w, readSize (size m) = some v ∧ readSize (size n) = some w ∧ v ≤ w := by
  refine ⟨_, _, read_size m, read_size n, ?_⟩
  have h0 : ∀ k, 0 ≤ shown k := by
    intro k
    have : shown 0 = 0 := by simp [shown]
    rw [← this]; exact shown_mono (Nat.zero_le _)
  split
  · split
    · have := shown_mono (by omega : n.natAbs ≤ m.natAbs); linarith
    · have := h0 m.natAbs; have := h0 n.natAbs; linarith
  · rw [if_neg (by omega)]
    exact shown_mono (by omega)

/-! ## The session statistics -/

theorem nat_chars (n : Nat) : (10 : UInt8) ∉ fmtNat n := fun h => (digit_ne (List.all_eq_true.mp (fmtNat_spec n).2.1 _ h)).1 rfl
theorem int_chars (n : Int) : (10 : UInt8) ∉ fmtInt n := by
  unfold fmtInt
  split
  · simp [nat_chars]
  · exact nat_chars _

theorem size_line (n : Int) : (10 : UInt8) ∉ size n := by
  have : (10 : UInt8) ∉ sizeText n.natAbs := by
    unfold sizeText
    split
    · rw [List.mem_append, not_or]; exact ⟨nat_chars _, by decide⟩
    · next h =>
      have hx := toDouble_big (Nat.le_of_not_lt h)
      have hk := findLog_spec (toDouble n.natAbs) 8 1 (by omega) (by omega)
      simp only [List.mem_append, List.mem_cons, not_or]
      exact ⟨(fixed_chars _ _).2.1, by decide, (unit_of _ hk.2.1).2.1⟩
  unfold size
  split <;> simp [this]

theorem join_line {l : List Bytes} (h : ∀ p ∈ l, (10 : UInt8) ∉ p) : (10 : UInt8) ∉ join l := by
  induction l with
  | nil => simp [join]
  | cons a l ih =>
    cases l with
    | nil => exact h a (by simp)
    | cons b l =>
      simp only [join, List.mem_append, List.mem_cons, not_or]
      exact ⟨h a (by simp), by decide, ih fun p hp => h p (by simp [hp])⟩

theorem part_line (n : Int) {one many : Bytes} (h1 : (10 : UInt8) ∉ one) (h2 : (10 : UInt8) ∉ many) : ∀ p ∈ part n one many, (10 : UInt8) ∉ p := by
  unfold part
  intro p hp
  split at hp
  · rw [List.mem_singleton] at hp; subst hp
    simp only [List.mem_append, List.mem_cons, not_or]
    exact ⟨int_chars _, by decide, h2⟩
  · split at hp
    · rw [List.mem_singleton] at hp; subst hp
      rw [List.mem_append, not_or]; exact ⟨by decide, h1⟩
    · simp at hp

theorem duration_line (w : Bool) (a : Int) (d : Nat) : (10 : UInt8) ∉ duration w a d := by
  unfold duration
  apply join_line
  intro p hp
  rw [List.mem_append, List.mem_append] at hp
  rcases hp with (hp | hp) | hp
  · exact part_line _ (by decide) (by decide) p hp
  · exact part_line _ (by decide) (by decide) p hp
  · unfold seconds at hp
    split at hp
    · rw [List.mem_singleton] at hp; subst hp; decide
    · split at hp
      · split at hp
        · rw [List.mem_singleton] at hp; subst hp
          rw [List.mem_append, not_or]; exact ⟨int_chars _, by decide⟩
        · rw [List.mem_singleton] at hp; subst hp
          rw [List.mem_append, not_or]; exact ⟨(fixed_chars _ _).2.1, by decide⟩
      · simp at hp

/-- **C87** (statistics): the explanations never break a line, so that session statistics which are written with them are read back (C41). -/
theorem statistics_read_back (timestr : Int → Bytes) (ht : ∀ x, (10 : UInt8) ∉ timestr x) (s : Obj) (h : Writable s) :
    readStats (statsString (pretty timestr) s) (fun _ => none) = some (filled s) := by
  refine stats_read_back (fun a x => ?_) s h
  unfold pretty
  split
  · exact ht x
  · exact ht x
  · exact duration_line _ _ _
  · exact size_line _

-- (what is `Writable`: see C41)
example : statsString (pretty fun _ => lit "then") (fun | .StartTime => some 100000 | .EndTime => some 100250 | .SourceFileSize => some 204800 | _ => none) =
    lit "StartTime 1000.00 (then)\nEndTime 1002.50 (then)\nElapsedTime 2.50 (2.50 seconds)\nSourceFileSize 2048 (2.00 KiB)\n" := by decide +kernel

end Verif.C87
