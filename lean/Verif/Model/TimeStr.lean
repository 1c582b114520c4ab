/-
Model of the time strings of `src/rdiff_backup/Time.py` (92-121 `stringtotime`, 75-85 `timetostring`, 236-268
`_intervalstr_to_seconds`, 266-285 `_get_tzd`, `_tzd_to_seconds`, 306-318 `_time_from_session`), and of the
library functions they use: `time.localtime` with `strftime`, `calendar.timegm`, `int`.

Simplifications: UTC offsets are whole minutes (as `%z` prints them); times are whole seconds; `int()` accepts an optional
sign and ASCII digits (Python also accepts surrounding blanks, underscores and other digits).
-/
namespace Verif.TimeStr

/-! ### Calendar (Gregorian, proleptic; day 0 is 0001-01-01) -/

/-- Python's `time.struct_time` -/
structure Tm where
  year : Nat
  month : Nat
  day : Nat
  hour : Nat
  min : Nat
  sec : Nat
  deriving DecidableEq

/-- Python's `calendar.isleap` -/
def isLeap (y : Nat) : Bool := y % 4 == 0 && (y % 100 != 0 || y % 400 == 0)

/-- Python's `calendar.mdays` -/
def monthLens (leap : Bool) : List Nat := [31, if leap then 29 else 28, 31, 30, 31, 30, 31, 31, 30, 31, 30, 31]

/-- `datetime.date(year, 1, 1).toordinal() - 1` -/
def daysBeforeYear (y : Nat) : Nat := 365 * (y - 1) + (y - 1) / 4 - (y - 1) / 100 + (y - 1) / 400

/-- `datetime.date(year, month, 1).toordinal() - 1` -/
def daysBeforeMonth (y m : Nat) : Nat := daysBeforeYear y + ((monthLens (isLeap y)).take (m - 1)).sum

/-- month (counted from `m`) and day of the month, from the day of the year -/
def findMonth : List Nat → Nat → Nat → Nat × Nat
  | [], m, r => (m, r + 1)
  | l :: ls, m, r => if r < l then (m, r + 1) else findMonth ls (m + 1) (r - l)

/-- `datetime._ord2ymd` -/
def ymd (n : Nat) : Nat × Nat × Nat :=
  let n400 := n / 146097
  let r400 := n % 146097
  let n100 := r400 / 36524
  let r100 := r400 % 36524
  let n4 := r100 / 1461
  let r4 := r100 % 1461
  let n1 := r4 / 365
  let r1 := r4 % 365
  let year := n400 * 400 + n100 * 100 + n4 * 4 + n1 + 1
  if n1 = 4 ∨ n100 = 4 then (year - 1, 12, 31)
  else
    let md := findMonth (monthLens (isLeap year)) 1 r1
    (year, md.1, md.2)

/-- day number of 1970-01-01 -/
def epochDay : Nat := 719162

/-- `time.gmtime` -/
def gmtime (t : Int) : Tm :=
  let n := (t / 86400 + epochDay).toNat
  let s := (t % 86400).toNat
  let d := ymd n
  ⟨d.1, d.2.1, d.2.2, s / 3600, s / 60 % 60, s % 60⟩

/-- `calendar.timegm` -/
def timegm (x : Tm) : Int :=
  ((((daysBeforeMonth x.year x.month : Int) - epochDay + (x.day : Int) - 1) * 24 + x.hour) * 60 + x.min) * 60 + x.sec

/-! ### Strings -/

/-- a decimal digit -/
def dig (n : Nat) : Char := Char.ofNat (48 + n)
/-- `%02d` -/
def pad2 (n : Nat) : List Char := [dig (n / 10), dig (n % 10)]
/-- `%04d` -/
def pad4 (n : Nat) : List Char := [dig (n / 1000), dig (n / 100 % 10), dig (n / 10 % 10), dig (n % 10)]

/-- an ASCII digit -/
def isDig (c : Char) : Bool := 48 ≤ c.toNat && c.toNat ≤ 57
/-- the value of a digit -/
def valDig (c : Char) : Nat := c.toNat - 48

/-- Python's `int` on digits only (Time.py 92-122, 288-303) -/
def parseNat (s : List Char) : Option Nat :=
  if s ≠ [] ∧ s.all isDig then some (s.foldl (fun a c => 10 * a + valDig c) 0) else none

/-- Python's `int` -/
def parseInt : List Char → Option Int
  | '+' :: r => (parseNat r).map (fun n => (n : Int))
  | '-' :: r => (parseNat r).map (fun n => -(n : Int))
  | r => (parseNat r).map (fun n => (n : Int))

/-- the separator of `TIMEDATE_FORMAT_STRING` or `TIMEDATE_FORMAT_COMPAT` (Time.py 47-49, 285-288) -/
def sep (compat : Bool) : Char := if compat then '-' else ':'

/-- Time.py 266-285 `_get_tzd`; `off`: UTC offset in minutes -/
def getTzd (compat : Bool) (off : Int) : List Char :=
  if off = 0 then ['Z'] else
    (if off < 0 then '-' else '+') :: (pad2 (off.natAbs / 60) ++ sep compat :: pad2 (off.natAbs % 60))

/-- Time.py 75-85 `timetostring`; `off`: the UTC offset which `localtime` uses for this time -/
def timetostring (compat : Bool) (off t : Int) : List Char :=
  let x := gmtime (t + 60 * off)
  pad4 x.year ++ '-' :: pad2 x.month ++ '-' :: pad2 x.day ++ 'T' :: pad2 x.hour ++ sep compat :: pad2 x.min ++
    sep compat :: pad2 x.sec ++ getTzd compat off

/-- Time.py 295-303 `_tzd_to_seconds`; `none` is a ValueError -/
def tzdToSeconds (tzd : List Char) : Option Int :=
  if tzd = ['Z'] then some 0 else
  match tzd with
  | [a, b, c, d, e, f] =>
    if (a = '-' ∨ a = '+') ∧ (d = ':' ∨ d = '-') then
      match parseInt [a, b, c], parseInt [e, f] with
      | some h, some m => some (-60 * (60 * h + m))
      | _, _ => none
    else none
  | _ => none

/-- `re.split("[T:-]", ...)` -/
def splitSep : List Char → List (List Char)
  | [] => [[]]
  | c :: r =>
    if c = 'T' ∨ c = ':' ∨ c = '-' then [] :: splitSep r
    else
      match splitSep r with
      | [] => [[c]]
      | x :: xs => (c :: x) :: xs

/-- Time.py 92-121 `stringtotime` -/
def stringtotime (s : List Char) : Option Int :=
  match (splitSep (s.take 19)).map parseInt with
  | [some y, some mo, some d, some h, some mi, some sc] =>
    if 1900 < y ∧ y < 2100 ∧ 1 ≤ mo ∧ mo ≤ 12 ∧ 1 ≤ d ∧ d ≤ 31 ∧ 0 ≤ h ∧ h ≤ 23 ∧ 0 ≤ mi ∧ mi ≤ 59 ∧ 0 ≤ sc ∧ sc ≤ 61 then
      (tzdToSeconds (s.drop 19)).map
        (timegm ⟨y.toNat, mo.toNat, d.toNat, h.toNat, mi.toNat, sc.toNat⟩ + ·)
    else none
  | _ => none

/-! ### Intervals -/

/-- Time.py 25-33 `_interval_conv_dict` -/
def unitSeconds : Char → Option Nat
  | 's' => some 1
  | 'm' => some 60
  | 'h' => some 3600
  | 'D' => some 86400
  | 'W' => some (7 * 86400)
  | 'M' => some (30 * 86400)
  | 'Y' => some (365 * 86400)
  | _ => none

/-- Time.py 38, 253-267: the loop; `num`: the digits of the current number read so far, if any -/
def intervalLoop (num : Option Nat) (total : Nat) : List Char → Option Nat
  | [] =>
    match num with
    | none => some total
    | some _ => none
  | c :: r =>
    if isDig c then intervalLoop (some (10 * num.getD 0 + valDig c)) total r
    else
      match num, unitSeconds c with
      | some n, some u => intervalLoop none (total + n * u) r
      | _, _ => none

/-- Time.py 237-263 `_intervalstr_to_seconds`; `none` is a TimeException -/
def intervalToSeconds (s : List Char) : Option Nat := if s.length < 2 then none else intervalLoop none 0 s

/-- Time.py 306-318 `_time_from_session`; `none` is an IndexError (no sessions at all) -/
def timeFromSession (n : Nat) (times : List Int) : Option Int :=
  if times.length ≤ n then times[0]? else times[times.length - n - 1]?

/-! ### Generic time strings -/

/-- Python's truth value of the result of `stringtotime`: neither None nor 0 -/
def truthy : Option Int → Option Int
  | some 0 => none
  | x => x

/-- one or two digits at the end of the string or before a separator, as `[0-9]{1,2}` -/
def isNum (lo hi : Nat) (s : List Char) : Bool := lo ≤ s.length && s.length ≤ hi && s.all isDig

/-- splits at `-` and `/` -/
def splitDate : List Char → List (List Char)
  | [] => [[]]
  | c :: r =>
    if c = '-' ∨ c = '/' then [] :: splitDate r
    else
      match splitDate r with
      | [] => [[c]]
      | x :: xs => (c :: x) :: xs

/-- Time.py 39-44 `_genstr_date_regexp1`, `_genstr_date_regexp2`: (year, month, day) -/
def matchDate (s : List Char) : Option (List Char × Nat × Nat) :=
  match splitDate s with
  | [a, b, c] =>
    if isNum 4 4 a ∧ isNum 1 2 b ∧ isNum 1 2 c then
      match parseNat b, parseNat c with
      | some m, some d => some (a, m, d)
      | _, _ => none
    else if isNum 1 2 a ∧ isNum 1 2 b ∧ isNum 4 4 c then
      match parseNat a, parseNat b with
      | some m, some d => some (c, m, d)
      | _, _ => none
    else none
  | _ => none

/-- Time.py 175-234 `genstrtotime`; `none` is a TimeException (or an IndexError for `nB` without sessions).
`pretty` is `prettytotime` (Time.py 137-144, `strptime`), `off` the current UTC offset.
Simplification: `timestr` contains no newline (Python's `$` also matches before a final one). -/
def genstrtotime (pretty : List Char → Option Int) (compat : Bool) (off ref : Int) (times : List Int) (s : List Char) : Option Int :=
  if s = "now".toList then some ref
  else if s ≠ [] ∧ s.all isDig then (parseNat s).map (fun n => (n : Int))
  else
    match truthy ((truthy (stringtotime s)).or (stringtotime (s ++ getTzd compat off))) with
    | some t => some t
    | none =>
      if 2 ≤ s.length ∧ s.getLast? = some 'B' ∧ s.dropLast.all isDig then
        match parseNat s.dropLast with
        | some n => timeFromSession n times
        | none => none
      else
        match pretty s with
        | some t => some t
        | none =>
          match intervalToSeconds s with
          | some v => some (ref - v)
          | none =>
            match matchDate s with
            | some (y, m, d) =>
              stringtotime (y ++ '-' :: pad2 m ++ '-' :: pad2 d ++ "T00:00:00".toList ++ getTzd compat off)
            | none => none

end Verif.TimeStr
