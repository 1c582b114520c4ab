import Verif.Proof.TimeStr
import Verif.Proof.Genstr
/-
C19 Time strings round-trip.  C20 Interval strings mean the sum of their parts.  C21 nB selects the n-th newest backup.
-/
namespace Verif.C19
open Verif.TimeStr

/-- C19 for UTC offsets which are not negative, or whole hours: the time string of any time from 1901 to 2099 (local time),
in either notation, is read back as the same time. Missing: negative offsets which are not whole hours, see `not_roundtrip`. -/
theorem roundtrip_partial (compat : Bool) (off t : Int) (h1 : -2177452800 ≤ t + 60 * off)
    (h2 : t + 60 * off < 4102444800) (ho : off.natAbs < 6000) (h : 0 ≤ off ∨ 60 ∣ off) :
    stringtotime (timetostring compat off t) = some t := by
  rw [stringtotime_timetostring compat off t h1 h2 ho]
  congr 1
  split <;> omega

example : stringtotime (timetostring true (-420) 1019820121) = some 1019820121 :=
  roundtrip_partial true (-420) 1019820121 (by decide) (by decide) (by decide) (.inr (by decide))
example : timetostring false (-420) 1019820121 = "2002-04-26T04:22:01-07:00".toList := by decide +kernel

/-- Finding F1, the negation of C19: under every other UTC offset, every time is read back as a different (earlier) one. -/
theorem not_roundtrip (compat : Bool) (off t : Int) (h1 : -2177452800 ≤ t + 60 * off)
    (h2 : t + 60 * off < 4102444800) (ho : off.natAbs < 6000) (hn : off < 0) (hf : ¬ 60 ∣ off) :
    ∃ t', stringtotime (timetostring compat off t) = some t' ∧ t' < t := by
  rw [stringtotime_timetostring compat off t h1 h2 ho, if_pos hn]
  exact ⟨_, rfl, by omega⟩

/-- e.g. Newfoundland, UTC-03:30: an hour is lost -/
theorem not_roundtrip_newfoundland (compat : Bool) (t : Int) (h1 : 0 ≤ t) (h2 : t < 4102444800) :
    stringtotime (timetostring compat (-210) t) = some (t - 3600) := by
  rw [stringtotime_timetostring compat (-210) t (by omega) (by omega) (by decide), if_pos (by decide)]
  rfl

/-- A time string given by the user (`--at`, `--older-than` ...) denotes that time too, unless it is the epoch. -/
theorem genstr_roundtrip_partial (pretty : List Char → Option Int) (compat compat' : Bool) (off off' ref t : Int) (times : List Int)
    (h1 : -2177452800 ≤ t + 60 * off) (h2 : t + 60 * off < 4102444800) (ho : off.natAbs < 6000) (h : 0 ≤ off ∨ 60 ∣ off)
    (h0 : t ≠ 0) : genstrtotime pretty compat' off' ref times (timetostring compat off t) = some t :=
  genstr_timestring pretty compat' off' ref times _ (roundtrip_partial compat off t h1 h2 ho h) h0
    (fun hd => by simp [timetostring, isDig] at hd) (by simp [timetostring, pad4])

example (pretty : List Char → Option Int) :
    genstrtotime pretty false 60 0 [] "2002-04-26T04:22:01-07:00".toList = some 1019820121 := by
  have := genstr_roundtrip_partial pretty false false (-420) 60 0 1019820121 [] (by decide) (by decide) (by decide) (.inr (by decide)) (by decide)
  rwa [show timetostring false (-420) 1019820121 = "2002-04-26T04:22:01-07:00".toList by decide +kernel] at this

/-- Finding F13: the time string of the epoch itself is refused. -/
theorem epoch_refused (pretty : List Char → Option Int) (hp : pretty "1970-01-01T00:00:00Z".toList = none) (ref : Int) (times : List Int) :
    stringtotime "1970-01-01T00:00:00Z".toList = some 0 ∧
    genstrtotime pretty false 0 ref times "1970-01-01T00:00:00Z".toList = none := by
  refine ⟨by decide +kernel, ?_⟩
  unfold genstrtotime
  rw [if_neg (by decide), if_neg (by decide +kernel),
    show truthy ((truthy (stringtotime "1970-01-01T00:00:00Z".toList)).or
      (stringtotime ("1970-01-01T00:00:00Z".toList ++ getTzd false 0))) = none by decide +kernel]
  simp only
  rw [if_neg (by decide +kernel), hp,
    show intervalToSeconds "1970-01-01T00:00:00Z".toList = none by decide +kernel,
    show matchDate "1970-01-01T00:00:00Z".toList = none by decide +kernel]

end Verif.C19

namespace Verif.C20
open Verif.TimeStr

/-- value of a string of decimal digits -/
def decimal (ds : List Char) : Nat := ds.foldl (fun a c => 10 * a + (c.toNat - '0'.toNat)) 0

/-- the documented units (man page): seconds, minutes, hours, days, weeks, months of 30 days, years of 365 days -/
inductive Unit : Char → Nat → Prop
  | s : Unit 's' 1
  | m : Unit 'm' 60
  | h : Unit 'h' 3600
  | D : Unit 'D' 86400
  | W : Unit 'W' 604800
  | M : Unit 'M' 2592000
  | Y : Unit 'Y' 31536000

/-- `Interval s v`: `s` is a non-empty sequence of numbers with units, `v` their sum in seconds -/
inductive Interval : List Char → Nat → Prop
  | one {ds : List Char} {u : Char} {k : Nat} : ds ≠ [] → (∀ c ∈ ds, '0' ≤ c ∧ c ≤ '9') → Unit u k →
      Interval (ds ++ [u]) (decimal ds * k)
  | more {ds : List Char} {u : Char} {k : Nat} {s : List Char} {v : Nat} : ds ≠ [] → (∀ c ∈ ds, '0' ≤ c ∧ c ≤ '9') → Unit u k →
      Interval s v → Interval (ds ++ u :: s) (decimal ds * k + v)

theorem isDig_iff (c : Char) : isDig c = true ↔ '0' ≤ c ∧ c ≤ '9' := by
  unfold isDig
  simp [Char.le_def, UInt32.le_iff_toNat_le]

theorem unit_iff (c : Char) (k : Nat) : unitSeconds c = some k ↔ Unit c k := by
  constructor
  · intro h
    unfold unitSeconds at h
    split at h <;> first | (cases h; constructor) | exact absurd h (by simp)
  · rintro (_ | _) <;> rfl

theorem loop_iff (s : List Char) (v : Nat) : s ≠ [] → (intervalLoop none 0 s = some v ↔ Interval s v) := by
  intro hs
  constructor
  · intro h
    obtain ⟨parts, hp, h1, h2⟩ := loop_sound s none 0 v h
    subst h1
    subst h2
    have hne : parts ≠ [] := by rintro rfl; exact hs rfl
    clear h hs
    simp only [Nat.zero_add]
    induction parts with
    | nil => exact absurd rfl hne
    | cons p ps ih =>
      obtain ⟨hd, ha, hu⟩ := hp p List.mem_cons_self
      have hu' := (unit_iff _ _).1 hu
      have ha' : ∀ c ∈ p.1, '0' ≤ c ∧ c ≤ '9' := fun c hc => (isDig_iff c).1 (List.all_eq_true.1 ha c hc)
      by_cases hps : ps = []
      · subst hps
        simpa [concatParts, sumParts, show decimal = value from rfl] using Interval.one hd ha' hu'
      · have := Interval.more hd ha' hu' (ih (fun q hq => hp q (List.mem_cons_of_mem _ hq)) hps)
        simpa [concatParts, sumParts, show decimal = value from rfl] using this
  · intro h
    clear hs
    induction h with
    | one hd ha hu =>
      have := loop_part (ds := _) hd (List.all_eq_true.2 fun c hc => (isDig_iff c).2 (ha c hc)) ((unit_iff _ _).2 hu) 0 []
      rw [this]; simp [intervalLoop, decimal, value]; rfl
    | more hd ha hu _ ih =>
      rw [loop_part hd (List.all_eq_true.2 fun c hc => (isDig_iff c).2 (ha c hc)) ((unit_iff _ _).2 hu) 0]
      rw [loop_total, ih]; simp [decimal, value]; rfl

/-- C20: a string is read as an interval iff it is a sequence of numbers with units, and then as their sum; anything else is
rejected. -/
theorem interval_exact (s : List Char) (v : Nat) : intervalToSeconds s = some v ↔ Interval s v := by
  unfold intervalToSeconds
  split
  · next h =>
    constructor
    · intro hh; exact absurd hh (by simp)
    · intro hi
      exfalso
      cases hi with
      | @one ds _ _ hd _ _ =>
        have := List.length_pos_iff.2 hd
        simp at h; omega
      | @more ds _ _ _ _ hd _ _ hs =>
        have := List.length_pos_iff.2 hd
        simp at h; omega
  · next h => exact loop_iff s v (by rintro rfl; simp at h)

theorem interval_rejected (s : List Char) (h : ¬ ∃ v, Interval s v) : intervalToSeconds s = none := by
  cases hh : intervalToSeconds s with
  | none => rfl
  | some v => exact absurd ⟨v, (interval_exact s v).1 hh⟩ h

theorem Interval.append {s s' : List Char} {v v' : Nat} (h : Interval s v) (h' : Interval s' v') : Interval (s ++ s') (v + v') := by
  induction h with
  | one hd ha hu => simpa using Interval.more hd ha hu h'
  | more hd ha hu _ ih => simpa [Nat.add_assoc] using Interval.more hd ha hu ih

/-- C20: concatenation of intervals adds. -/
theorem interval_append {s s' : List Char} {v v' : Nat} (h : intervalToSeconds s = some v) (h' : intervalToSeconds s' = some v') :
    intervalToSeconds (s ++ s') = some (v + v') :=
  (interval_exact _ _).2 (.append ((interval_exact _ _).1 h) ((interval_exact _ _).1 h'))

example : intervalToSeconds "3D64s".toList = some (3 * 86400 + 64) := by decide +kernel
example : Interval "3D64s".toList 259264 := (interval_exact _ _).1 (by decide +kernel)
example : ¬ ∃ v, Interval "3D64".toList v := by
  rintro ⟨v, h⟩; have := (interval_exact _ _).2 h
  rw [show intervalToSeconds "3D64".toList = none by decide +kernel] at this; cases this

/-- C20, for the time given by the user: an interval string denotes the reference time (now) minus the interval. `pretty` is
`strptime` with the format `%a %b %d %H:%M:%S %Y`, which needs white space. -/
theorem genstr_interval (pretty : List Char → Option Int) (hp : ∀ s, pretty s ≠ none → ∃ c ∈ s, c.isWhitespace)
    (compat : Bool) (off ref : Int) (times : List Int) {s : List Char} {v : Nat} (h : Interval s v) :
    genstrtotime pretty compat off ref times s = some (ref - v) := by
  have hi := (interval_exact s v).2 h
  have hall : ∀ c ∈ s, isDig c = true ∨ unitSeconds c ≠ none := by
    clear hi
    induction h with
    | one hd ha hu =>
      intro c hc
      rcases List.mem_append.1 hc with hc | hc
      · exact .inl ((isDig_iff c).2 (ha c hc))
      · rw [List.mem_singleton.1 hc]; exact .inr (by rw [(unit_iff _ _).2 hu]; simp)
    | more hd ha hu _ ih =>
      intro c hc
      rcases List.mem_append.1 hc with hc | hc
      · exact .inl ((isDig_iff c).2 (ha c hc))
      · rcases List.mem_cons.1 hc with hc | hc
        · rw [hc]; exact .inr (by rw [(unit_iff _ _).2 hu]; simp)
        · exact ih c hc
  have hlast : ∃ c, s.getLast? = some c ∧ unitSeconds c ≠ none := by
    clear hi hall
    induction h with
    | @one _ u _ hd ha hu => exact ⟨u, by simp, by rw [(unit_iff _ _).2 hu]; simp⟩
    | more hd ha hu hs ih =>
      obtain ⟨c, hc, hu⟩ := ih
      refine ⟨c, ?_, hu⟩
      rw [List.getLast?_append]
      simp [List.getLast?_cons, hc]
  obtain ⟨c, hc, hu⟩ := hlast
  have hcm : c ∈ s := List.mem_of_getLast? hc
  have hnd : isDig c = false := unit_not_dig hu
  unfold genstrtotime
  rw [if_neg, if_neg, genstr_no_date compat off (fun c hc => by
    rcases hall c hc with h | h
    · exact isDig_not_sep h
    · exact unit_not_sep h)]
  · simp only
    rw [if_neg]
    · have : pretty s = none := by
        refine Classical.byContradiction fun hne => ?_
        obtain ⟨c, hc, hw⟩ := hp s hne
        rcases hall c hc with h | h
        · exact dig_not_white h hw
        · exact unit_not_white h hw
      rw [this, hi]
    · rintro ⟨-, hb, -⟩
      rw [hc] at hb
      cases hb
      exact hu rfl
  · rintro ⟨-, h⟩
    have := List.all_eq_true.1 h c hcm
    rw [hnd] at this; cases this
  · rintro rfl
    cases hc
    exact hu rfl

example : genstrtotime (fun _ => none) false (-420) 1000000 [] "3D64s".toList = some (1000000 - 259264) :=
  genstr_interval _ (fun _ h => absurd rfl h) _ _ _ _ ((interval_exact _ _).1 (by decide +kernel))

end Verif.C20

namespace Verif.C21
open Verif.TimeStr

/-- `t` is the `n`-th newest of the sessions: `n` sessions are newer -/
def IsNthNewest (n : Nat) (times : List Int) (t : Int) : Prop := t ∈ times ∧ times.countP (fun x => t < x) = n

/-- C21: for sessions in increasing order, `nB` denotes the `n`-th newest one, counted from 0 ... -/
theorem nth_newest (pretty : List Char → Option Int) (compat : Bool) (off ref : Int) {times : List Int}
    (hs : times.Pairwise (· < ·)) (ds : List Char) (hne : ds ≠ []) (hd : ∀ c ∈ ds, '0' ≤ c ∧ c ≤ '9')
    (hn : C20.decimal ds < times.length) :
    ∃ t, genstrtotime pretty compat off ref times (ds ++ ['B']) = some t ∧ IsNthNewest (C20.decimal ds) times t := by
  rw [genstr_session pretty compat off ref times hne (List.all_eq_true.2 fun c hc => (C20.isDig_iff c).2 (hd c hc))]
  exact session_nth hs hn

/-- ... and the oldest one if there are not so many. -/
theorem oldest (pretty : List Char → Option Int) (compat : Bool) (off ref : Int) {times : List Int}
    (hs : times.Pairwise (· < ·)) (hex : times ≠ []) (ds : List Char) (hne : ds ≠ []) (hd : ∀ c ∈ ds, '0' ≤ c ∧ c ≤ '9')
    (hn : times.length ≤ C20.decimal ds) :
    ∃ t, genstrtotime pretty compat off ref times (ds ++ ['B']) = some t ∧ t ∈ times ∧ ∀ x ∈ times, t ≤ x := by
  rw [genstr_session pretty compat off ref times hne (List.all_eq_true.2 fun c hc => (C20.isDig_iff c).2 (hd c hc))]
  exact session_oldest hs hex hn

example : genstrtotime (fun _ => none) false 60 0 [10, 20, 35] "2B".toList = some 10 := by decide +kernel
example : genstrtotime (fun _ => none) false 60 0 [10, 20, 35] "0B".toList = some 35 := by decide +kernel
example : ∃ t, genstrtotime (fun _ => none) false 60 0 [10, 20, 35] ("1".toList ++ ['B']) = some t ∧ IsNthNewest 1 [10, 20, 35] t :=
  nth_newest _ _ _ _ (by simp) _ (by simp) (by simp) (by decide +kernel)
example : ∃ t, genstrtotime (fun _ => none) false 60 0 [10, 20, 35] ("17".toList ++ ['B']) = some t ∧ t ∈ [(10 : Int), 20, 35] ∧
    ∀ x ∈ [(10 : Int), 20, 35], t ≤ x :=
  oldest _ _ _ _ (by simp) (by simp) _ (by simp) (by simp) (by decide +kernel)

end Verif.C21
