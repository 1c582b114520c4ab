/-
Model of `FillInIter`, `src/rdiff_backup/rorpiter.py` lines 394-434.
An element is represented by its index; the flag says whether it is an element of the input
(`true`) or a filler `rootrp.new_index(...)` (`false`).  That fillers which are not directories are
turned into empty directories (420-430, an error path) is not modelled.
-/
namespace Verif.FillIn
variable {α : Type} [DecidableEq α]

/-- rorpiter.py:404-411: the first element, preceded by all its proper prefixes. -/
def fillFirst (cur : List α) : List (Bool × List α) :=
  (List.range cur.length).map (fun i => (false, cur.take i)) ++ [(true, cur)]

/-- rorpiter.py:415-433: one further element.  `List.dropLast` is `[:-1]`. -/
def fillOne (old cur : List α) : List (Bool × List α) :=
  (if cur.dropLast ≠ old.dropLast then
    (((List.range cur.length).drop 1).filter (fun i => cur.take i ≠ old.take i)).map
      (fun i => (false, cur.take i))
   else []) ++ [(true, cur)]

/-- rorpiter.py:415-434: the `for` loop, `old_index` is the previous element. -/
def fillRest (old : List α) : List (List α) → List (Bool × List α)
  | [] => []
  | cur :: rest => fillOne old cur ++ fillRest cur rest

/-- rorpiter.py:394-434 `FillInIter` -/
def fillIn : List (List α) → List (Bool × List α)
  | [] => []
  | first :: rest => fillFirst first ++ fillRest first rest

end Verif.FillIn
