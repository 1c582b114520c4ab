import Verif.Model.IncName
/-
Which statistics files belong to the chosen times: `src/rdiffbackup/locations/_repo_shadow.py` (RS) 1148-1162 `get_statistics`, 1168-1181 `_get_combined_pairs`, with
`get_incfiles_list` (`Model/IncName.lean`). The names in the data directory are lists of characters.
-/
namespace Verif.StatsChoice
open Verif.IncName

/-- increment.py 88-90 `getinctime` -/
def incTime (name : List Char) : Option Int := (parseIncName name).map (·.time)

/-- RS 1171-1176: the entry of a dictionary made from a list of increments: the last one with this time. The list is sorted by time before (increment.py 51), which
doesn't change the order of those with the same time. -/
def dictOf (l : List (List Char)) (t : Int) : Option (List Char) := (l.filter fun n => incTime n = some t).getLast?

/-- the keys of that dictionary -/
def keysOf (l : List (List Char)) : List Int := (l.filterMap incTime).eraseDups

/-- RS 1168-1181 `_get_combined_pairs` -/
def combinedPairs (l1 l2 : List (List Char)) : List (List Char × List Char) :=
  (((keysOf l1).filter fun t => (keysOf l2).contains t).mergeSort fun a b => a ≤ b).filterMap fun t =>
    match dictOf l1 t, dictOf l2 t with
    | some a, some b => some (a, b)
    | _, _ => none

def sessionBase : List Char := "session_statistics".toList
def fileBase : List Char := "file_statistics".toList

/-- RS 1148-1157: the pairs of session and file statistics which are read, for the names `dir` in the data directory -/
def chosen (dir : List (List Char)) (begin' end' : Option Int) : List (List Char × List Char) :=
  combinedPairs (incfilesList dir sessionBase begin' end') (incfilesList dir fileBase begin' end')

end Verif.StatsChoice
