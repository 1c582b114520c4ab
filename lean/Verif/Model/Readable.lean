import Verif.Model.SStats

/-
Sizes and durations for people: `src/rdiffbackup/utils/convert.py` 28-38 (`BYTES_ABBREVS`), 57-89 (`to_human_size_str`), `src/rdiff_backup/Time.py` 148-172
(`inttopretty`).

A size is converted to a double (`SStats.toDouble`), which dividing by 1024 keeps exact. Simplification: durations which are doubles are the fractions `a / d` they
are, and dividing them with remainder is exact (Python rounds the remainder of negative ones).
-/
namespace Verif.Readable
open Verif.Quoting Verif.MetaRecord Verif.FlatFile Verif.SStats

/-- 28-38 `BYTES_ABBREVS` -/
def abbrevs : List Bytes := ["B", "KiB", "MiB", "GiB", "TiB", "PiB", "EiB", "ZiB", "YiB"].map lit

/-- 72-76: `bytes_log`, starting with `k`; at most eight steps -/
def findLog (x : Nat) : Nat → Nat → Nat
  | 0, k => k
  | fuel + 1, k => if 1024 * 1024 ^ k ≤ x ∧ k < 8 then findLog x fuel (k + 1) else k

/-- 79-86: the number of decimals for `x / 1024 ^ k` -/
def precision (x k : Nat) : Nat := if 100 * 1024 ^ k ≤ x then 0 else if 10 * 1024 ^ k ≤ x then 1 else 2

/-- `a / b` rounded, ties to even -/
def roundDiv (a b : Nat) : Nat :=
  if 2 * (a % b) < b ∨ (2 * (a % b) = b ∧ a / b % 2 = 0) then a / b else a / b + 1

/-- a digit -/
def digit (n : Nat) : UInt8 := UInt8.ofNat (48 + n % 10)

/-- `"%.pf"` of `m / 10 ^ p`, for the precisions which are used -/
def fmtFixed (p m : Nat) : Bytes :=
  match p with
  | 0 => fmtNat m
  | 1 => fmtNat (m / 10) ++ [46, digit m]
  | _ => fmtNat (m / 100) ++ [46, digit (m / 10), digit m]

/-- 66-88, without the sign -/
def sizeText (n : Nat) : Bytes :=
  if n < 1024 then fmtNat n ++ lit " B"
  else
    let x := toDouble n
    let k := findLog x 8 1
    let p := precision x k
    fmtFixed p (roundDiv (10 ^ p * x) (1024 ^ k)) ++ 32 :: abbrevs.getD k []

/-- convert.py 57-89 `to_human_size_str` -/
def size (n : Int) : Bytes := (if n < 0 then [45] else []) ++ sizeText n.natAbs

/-- 153-157, 160-163: `one`, `many`: the words -/
def part (n : Int) (one many : Bytes) : List Bytes := if 1 < n then [fmtInt n ++ 32 :: many] else if n = 1 then [lit "1 " ++ one] else []

/-- `" ".join` -/
def join : List Bytes → Bytes
  | [] => []
  | [a] => a
  | a :: b :: l => a ++ 32 :: join (b :: l)

/-- 165-171: the seconds `r / d` -/
def seconds (whole : Bool) (r : Int) (d : Nat) (others : List Bytes) : List Bytes :=
  if r = d then [lit "1 second"]
  else if others = [] ∨ (d : Int) < r then
    if whole then [fmtInt r ++ lit " seconds"] else [fmtFixed 2 (roundDiv (100 * r.toNat) d) ++ lit " seconds"]
  else []

/-- Time.py 148-172 `inttopretty` of `a / d` seconds; `whole`: an `int` (then `d = 1`) -/
def duration (whole : Bool) (a : Int) (d : Nat) : Bytes :=
  let others := part (a / (3600 * d)) (lit "hour") (lit "hours") ++ part (a % (3600 * d) / (60 * d)) (lit "minute") (lit "minutes")
  join (others ++ seconds whole (a % (3600 * d) % (60 * d)) d others)

/-- sstats.py 246-304: the explanations in the session statistics (`timestr`: `Time.timetopretty`, for the times), values in hundredths -/
def pretty (timestr : Int → Bytes) (a : Attr) (x : Int) : Bytes :=
  match a with
  | .StartTime | .EndTime => timestr x
  | .ElapsedTime => duration false x 100
  | _ => size (x / 100)

end Verif.Readable
