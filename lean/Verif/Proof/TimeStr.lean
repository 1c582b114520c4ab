import Verif.Model.TimeStr
/- Lemmas about time strings: the calendar, and the parsing of what is printed. -/
namespace Verif.TimeStr

theorem findMonth_spec (leap : Bool) (r : Nat) (h : r < 365 + (if leap then 1 else 0)) :
    1 ≤ (findMonth (monthLens leap) 1 r).1 ∧ (findMonth (monthLens leap) 1 r).1 ≤ 12 ∧
    1 ≤ (findMonth (monthLens leap) 1 r).2 ∧ (findMonth (monthLens leap) 1 r).2 ≤ 31 ∧
    ((monthLens leap).take ((findMonth (monthLens leap) 1 r).1 - 1)).sum + (findMonth (monthLens leap) 1 r).2 = r + 1 := by
  cases leap
  · have : ∀ r < 365, 1 ≤ (findMonth (monthLens false) 1 r).1 ∧ (findMonth (monthLens false) 1 r).1 ≤ 12 ∧
      1 ≤ (findMonth (monthLens false) 1 r).2 ∧ (findMonth (monthLens false) 1 r).2 ≤ 31 ∧
      ((monthLens false).take ((findMonth (monthLens false) 1 r).1 - 1)).sum + (findMonth (monthLens false) 1 r).2 = r + 1 := by
      decide +kernel
    exact this r (by simpa using h)
  · have : ∀ r < 366, 1 ≤ (findMonth (monthLens true) 1 r).1 ∧ (findMonth (monthLens true) 1 r).1 ≤ 12 ∧
      1 ≤ (findMonth (monthLens true) 1 r).2 ∧ (findMonth (monthLens true) 1 r).2 ≤ 31 ∧
      ((monthLens true).take ((findMonth (monthLens true) 1 r).1 - 1)).sum + (findMonth (monthLens true) 1 r).2 = r + 1 := by
      decide +kernel
    exact this r (by simpa using h)

theorem isLeap_iff (a b c d : Nat) (h1 : b < 4) (h2 : c < 25) (h3 : d < 4) :
    isLeap (a * 400 + b * 100 + c * 4 + d + 1) = (d == 3 && (c != 24 || b == 3)) := by
  rw [Bool.eq_iff_iff]
  simp [isLeap]
  omega

theorem daysBeforeYear_eq (a b c d : Nat) (h1 : b < 4) (h2 : c < 25) (h3 : d < 4) :
    daysBeforeYear (a * 400 + b * 100 + c * 4 + d + 1) = 146097 * a + 36524 * b + 1461 * c + 365 * d := by
  unfold daysBeforeYear
  have e1 : (a * 400 + b * 100 + c * 4 + d + 1 - 1) / 4 = 100 * a + 25 * b + c := by omega
  have e2 : (a * 400 + b * 100 + c * 4 + d + 1 - 1) / 100 = 4 * a + b := by omega
  have e3 : (a * 400 + b * 100 + c * 4 + d + 1 - 1) / 400 = a := by omega
  rw [e1, e2, e3]; omega

theorem dec31 (y n : Nat) (hl : isLeap y = true) (h : daysBeforeYear y + 365 = n) : daysBeforeMonth y 12 + 31 = n + 1 := by
  have : ((monthLens true).take (12 - 1)).sum = 335 := by decide
  unfold daysBeforeMonth
  rw [hl, this]; omega

theorem ymd_case1 (a b c e : Nat) (hlt1 : 36524 * b + 1461 * c + 365 * 4 + e < 146097)
    (hlt2 : 1461 * c + 365 * 4 + e < 36524) (hlt3 : 365 * 4 + e < 1461) :
    daysBeforeMonth (a * 400 + b * 100 + c * 4 + 4) 12 + 31 = 146097 * a + 36524 * b + 1461 * c + 365 * 4 + e + 1 := by
  have hb4 : b < 4 := by omega
  have hc4 : c < 25 := by omega
  have hcb : c ≠ 24 ∨ b = 3 := by omega
  have hy : a * 400 + b * 100 + c * 4 + 4 = a * 400 + b * 100 + c * 4 + 3 + 1 := by omega
  rw [hy]
  apply dec31
  · rw [isLeap_iff a b c 3 hb4 hc4 (by omega)]; simpa using hcb
  · rw [daysBeforeYear_eq a b c 3 hb4 hc4 (by omega)]; omega

theorem ymd_case2 (a c d e : Nat) (hlt1 : 36524 * 4 + 1461 * c + 365 * d + e < 146097) :
    daysBeforeMonth (a * 400 + 4 * 100 + c * 4 + d) 12 + 31 = 146097 * a + 36524 * 4 + 1461 * c + 365 * d + e + 1 := by
  have hy : a * 400 + 4 * 100 + c * 4 + d = a * 400 + 3 * 100 + 24 * 4 + 3 + 1 := by omega
  rw [hy]
  apply dec31
  · rw [isLeap_iff a 3 24 3 (by omega) (by omega) (by omega)]; rfl
  · rw [daysBeforeYear_eq a 3 24 3 (by omega) (by omega) (by omega)]; omega

theorem ymd_spec (n : Nat) : 1 ≤ (ymd n).2.1 ∧ (ymd n).2.1 ≤ 12 ∧ 1 ≤ (ymd n).2.2 ∧ (ymd n).2.2 ≤ 31 ∧
    daysBeforeMonth (ymd n).1 (ymd n).2.1 + (ymd n).2.2 = n + 1 := by
  obtain ⟨a, ha⟩ : ∃ a, n / 146097 = a := ⟨_, rfl⟩
  obtain ⟨b, hb⟩ : ∃ b, n % 146097 / 36524 = b := ⟨_, rfl⟩
  obtain ⟨c, hc⟩ : ∃ c, n % 146097 % 36524 / 1461 = c := ⟨_, rfl⟩
  obtain ⟨d, hd⟩ : ∃ d, n % 146097 % 36524 % 1461 / 365 = d := ⟨_, rfl⟩
  obtain ⟨e, he⟩ : ∃ e, n % 146097 % 36524 % 1461 % 365 = e := ⟨_, rfl⟩
  have hn : n = 146097 * a + 36524 * b + 1461 * c + 365 * d + e := by omega
  have hlt1 : 36524 * b + 1461 * c + 365 * d + e < 146097 := by omega
  have hlt2 : 1461 * c + 365 * d + e < 36524 := by omega
  have hlt3 : 365 * d + e < 1461 := by omega
  have hlt4 : e < 365 := by omega
  unfold ymd
  simp only [ha, hb, hc, hd, he]
  clear ha hb hc hd he
  subst hn
  split
  · next h =>
    refine ⟨show 1 ≤ 12 by decide, Nat.le_refl 12, show 1 ≤ 31 by decide, Nat.le_refl 31, ?_⟩
    simp only [Nat.add_sub_cancel]
    rcases h with rfl | rfl
    · exact ymd_case1 a b c e hlt1 hlt2 hlt3
    · exact ymd_case2 a c d e hlt1
  · next h =>
    have hb4 : b < 4 := by omega
    have hc4 : c < 25 := by omega
    have hd4 : d < 4 := by omega
    have hr : e < 365 + (if isLeap (a * 400 + b * 100 + c * 4 + d + 1) then 1 else 0) := by omega
    obtain ⟨h1, h2, h3, h4, h5⟩ := findMonth_spec _ _ hr
    refine ⟨h1, h2, h3, h4, ?_⟩
    simp only [daysBeforeMonth]
    rw [daysBeforeYear_eq a b c d hb4 hc4 hd4]
    omega

theorem ymd_year (n : Nat) (h1 : 693960 ≤ n) (h2 : n < 766644) : 1901 ≤ (ymd n).1 ∧ (ymd n).1 ≤ 2099 := by
  obtain ⟨a, ha⟩ : ∃ a, n / 146097 = a := ⟨_, rfl⟩
  obtain ⟨b, hb⟩ : ∃ b, n % 146097 / 36524 = b := ⟨_, rfl⟩
  obtain ⟨c, hc⟩ : ∃ c, n % 146097 % 36524 / 1461 = c := ⟨_, rfl⟩
  obtain ⟨d, hd⟩ : ∃ d, n % 146097 % 36524 % 1461 / 365 = d := ⟨_, rfl⟩
  have ha' : a = 4 ∨ a = 5 := by omega
  have hab : (a = 4 ∧ b = 3) ∨ (a = 4 ∧ b = 4) ∨ (a = 5 ∧ b = 0) := by omega
  unfold ymd
  simp only [ha, hb, hc, hd]
  rcases hab with ⟨rfl, rfl⟩ | ⟨rfl, rfl⟩ | ⟨rfl, rfl⟩ <;> split <;> simp only <;> omega

/-! ### printing and parsing -/

theorem pad2_dig : ∀ n < 100, (pad2 n).all isDig = true ∧ parseInt (pad2 n) = some (n : Int) ∧ parseNat (pad2 n) = some n := by
  decide +kernel

theorem pad4_dig : ∀ n < 2100, (pad4 n).all isDig = true ∧ parseInt (pad4 n) = some (n : Int) := by
  decide +kernel

theorem isDig_not_sep {c : Char} (h : isDig c = true) : ¬ (c = 'T' ∨ c = ':' ∨ c = '-') := by
  rintro (rfl | rfl | rfl) <;> revert h <;> decide

theorem splitSep_digits {ds : List Char} (h : ds.all isDig = true) {c : Char} (hc : c = 'T' ∨ c = ':' ∨ c = '-') (r : List Char) :
    splitSep (ds ++ c :: r) = ds :: splitSep r := by
  induction ds with
  | nil => simp [splitSep, hc]
  | cons d ds ih =>
    simp only [List.all_cons, Bool.and_eq_true] at h
    rw [List.cons_append, splitSep, if_neg (isDig_not_sep h.1), ih h.2]

theorem splitSep_last {ds : List Char} (h : ds.all isDig = true) : splitSep ds = [ds] := by
  induction ds with
  | nil => rfl
  | cons d ds ih =>
    simp only [List.all_cons, Bool.and_eq_true] at h
    rw [splitSep, if_neg (isDig_not_sep h.1), ih h.2]

theorem sep_sep (compat : Bool) : sep compat = 'T' ∨ sep compat = ':' ∨ sep compat = '-' := by cases compat <;> decide

/-- the date and time without time zone -/
def dateStr (compat : Bool) (x : Tm) : List Char :=
  pad4 x.year ++ '-' :: pad2 x.month ++ '-' :: pad2 x.day ++ 'T' :: pad2 x.hour ++ sep compat :: pad2 x.min ++
    sep compat :: pad2 x.sec

theorem dateStr_length (compat : Bool) (x : Tm) : (dateStr compat x).length = 19 := rfl

/-- the fields are in the range which `stringtotime` accepts -/
structure Tm.Ok (x : Tm) : Prop where
  year : 1900 < x.year ∧ x.year < 2100
  month : 1 ≤ x.month ∧ x.month ≤ 12
  day : 1 ≤ x.day ∧ x.day ≤ 31
  hour : x.hour ≤ 23
  min : x.min ≤ 59
  sec : x.sec ≤ 59

theorem stringtotime_dateStr {x : Tm} (h : x.Ok) (compat : Bool) (tzd : List Char) :
    stringtotime (dateStr compat x ++ tzd) = (tzdToSeconds tzd).map (timegm x + ·) := by
  obtain ⟨⟨h1, h2⟩, ⟨h3, h4⟩, ⟨h5, h6⟩, h7, h8, h9⟩ := h
  have hsplit : (splitSep ((dateStr compat x ++ tzd).take 19)).map parseInt =
      [some (x.year : Int), some (x.month : Int), some (x.day : Int), some (x.hour : Int), some (x.min : Int), some (x.sec : Int)] := by
    rw [show (dateStr compat x ++ tzd).take 19 = dateStr compat x from rfl]
    unfold dateStr
    simp only [List.append_assoc, List.cons_append]
    rw [splitSep_digits (pad4_dig _ (by omega)).1 (by decide), splitSep_digits (pad2_dig _ (by omega)).1 (by decide),
      splitSep_digits (pad2_dig _ (by omega)).1 (by decide), splitSep_digits (pad2_dig _ (by omega)).1 (sep_sep _),
      splitSep_digits (pad2_dig _ (by omega)).1 (sep_sep _), splitSep_last (pad2_dig _ (by omega)).1]
    simp only [List.map_cons, List.map_nil, (pad4_dig _ h2).2, (pad2_dig _ (show x.month < 100 by omega)).2.1,
      (pad2_dig _ (show x.day < 100 by omega)).2.1, (pad2_dig _ (show x.hour < 100 by omega)).2.1,
      (pad2_dig _ (show x.min < 100 by omega)).2.1, (pad2_dig _ (show x.sec < 100 by omega)).2.1]
  unfold stringtotime
  rw [hsplit]
  simp only
  rw [if_pos (by omega), show (dateStr compat x ++ tzd).drop 19 = tzd from rfl]
  rfl

theorem tzdToSeconds_getTzd (compat : Bool) (off : Int) (h : off.natAbs < 6000) :
    tzdToSeconds (getTzd compat off) =
      some (if off < 0 then 3600 * ((off.natAbs / 60 : Nat) : Int) - 60 * ((off.natAbs % 60 : Nat) : Int) else -60 * off) := by
  by_cases h0 : off = 0
  · subst h0; rfl
  · have e1 := (pad2_dig (off.natAbs / 60) (by omega)).2.2
    have e2 := (pad2_dig (off.natAbs % 60) (by omega)).2.1
    have hd : sep compat = ':' ∨ sep compat = '-' := by cases compat <;> decide
    unfold getTzd
    rw [if_neg h0]
    unfold pad2 at e1 e2 ⊢
    simp only [List.cons_append, List.nil_append]
    by_cases hn : off < 0
    · simp only [hn, if_true]
      unfold tzdToSeconds
      rw [if_neg (by simp)]
      simp only [true_or, hd, and_self, if_true]
      rw [show parseInt ['-', dig (off.natAbs / 60 / 10), dig (off.natAbs / 60 % 10)] =
        some (-((off.natAbs / 60 : Nat) : Int)) by simp only [parseInt]; rw [e1]; rfl, e2]
      simp only
      congr 1; omega
    · simp only [hn, if_false]
      unfold tzdToSeconds
      rw [if_neg (by simp)]
      simp only [or_true, hd, and_self, if_true]
      rw [show parseInt ['+', dig (off.natAbs / 60 / 10), dig (off.natAbs / 60 % 10)] =
        some ((off.natAbs / 60 : Nat) : Int) by simp only [parseInt]; rw [e1]; rfl, e2]
      simp only
      congr 1; omega

/-! ### gmtime and timegm -/

theorem timegm_gmtime (t : Int) (h : -62135596800 ≤ t) : timegm (gmtime t) = t := by
  have he : ∃ E : Int, (epochDay : Int) = E ∧ E = 719162 := ⟨_, rfl, rfl⟩
  obtain ⟨E, hE, hE2⟩ := he
  unfold gmtime timegm
  simp only [hE]
  obtain ⟨-, -, h3, -, h5⟩ := ymd_spec ((t / 86400 + E).toNat)
  have hn : (((t / 86400 + E).toNat : Nat) : Int) = t / 86400 + E := by omega
  have hs : (((t % 86400).toNat : Nat) : Int) = t % 86400 := by omega
  generalize (ymd (t / 86400 + E).toNat).2.2 = v at *
  generalize (daysBeforeMonth (ymd (t / 86400 + E).toNat).1 (ymd (t / 86400 + E).toNat).2.1) = u at *
  clear hE hE2
  omega

theorem gmtime_ok (t : Int) (h1 : -2177452800 ≤ t) (h2 : t < 4102444800) : (gmtime t).Ok := by
  unfold gmtime
  simp only
  obtain ⟨a, b, c, d, -⟩ := ymd_spec ((t / 86400 + (epochDay : Nat)).toNat)
  have hy := ymd_year ((t / 86400 + (epochDay : Nat)).toNat) (by unfold epochDay; omega) (by unfold epochDay; omega)
  constructor <;> simp only <;> omega

/-- what reading a printed time gives -/
theorem stringtotime_timetostring (compat : Bool) (off t : Int) (h1 : -2177452800 ≤ t + 60 * off)
    (h2 : t + 60 * off < 4102444800) (ho : off.natAbs < 6000) :
    stringtotime (timetostring compat off t) = some (if off < 0 then t - 120 * ((off.natAbs % 60 : Nat) : Int) else t) := by
  have : timetostring compat off t = dateStr compat (gmtime (t + 60 * off)) ++ getTzd compat off := rfl
  rw [this, stringtotime_dateStr (gmtime_ok _ h1 h2), tzdToSeconds_getTzd compat off ho, timegm_gmtime _ (by omega)]
  simp only [Option.map_some]
  congr 1
  split <;> omega

end Verif.TimeStr
