import Verif.Model.MetaRecord
import Mathlib.Data.Rat.Defs
import Mathlib.Algebra.Order.Field.Rat

/- How somebody reads a size or a duration. -/
namespace Verif.Spec.Readable
open Verif.Quoting Verif.MetaRecord Verif.FlatFile

/-- a number, with a point or without -/
def decimal (w : Bytes) : Option ℚ :=
  match splitOn 46 w with
  | [a] => (parseNat a).map fun n => (n : ℚ)
  | [a, f] => match parseNat a, parseNat f with | some n, some m => some (n + m / 10 ^ f.length) | _, _ => none
  | _ => none

/-- the units of sizes -/
def sizeUnits : List (Bytes × ℚ) :=
  [(lit "B", 1), (lit "KiB", 2 ^ 10), (lit "MiB", 2 ^ 20), (lit "GiB", 2 ^ 30), (lit "TiB", 2 ^ 40), (lit "PiB", 2 ^ 50), (lit "EiB", 2 ^ 60), (lit "ZiB", 2 ^ 70), (lit "YiB", 2 ^ 80)]

/-- the units of durations, in seconds -/
def timeUnits : List (Bytes × ℚ) :=
  [(lit "hour", 3600), (lit "hours", 3600), (lit "minute", 60), (lit "minutes", 60), (lit "second", 1), (lit "seconds", 1)]

/-- pairs of a number and a unit are added -/
def total (units : List (Bytes × ℚ)) : List Bytes → Option ℚ
  | [] => some 0
  | w :: u :: r => match decimal w, units.lookup u, total units r with | some x, some y, some z => some (x * y + z) | _, _, _ => none
  | _ => none

/-- a size in bytes -/
def readSize (t : Bytes) : Option ℚ :=
  match t with
  | 45 :: r => (total sizeUnits (splitOn 32 r)).map fun v => -v
  | r => total sizeUnits (splitOn 32 r)

/-- a duration in seconds -/
def readDuration (t : Bytes) : Option ℚ := total timeUnits (splitOn 32 t)

end Verif.Spec.Readable
