import Verif.Model.Selection

/-
Walking through a source in which not everything can be read: `src/rdiff_backup/selection.py` 240-320 (`_iterate_rpath`, `_listdir_sorted`) with
`src/rdiff_backup/robust.py` 102-123 (`check_common_error`, for those errors which are caught; the others end the action).

Simplification: what can't be read doesn't change during the walk. The conditions are asked about a file as in `Verif.Selection`.
-/
namespace Verif.WalkErrors
open Verif.Selection
variable {α : Type} [LinearOrder α]

/-- what `lstat` does: `gone`: the file has been removed since the directory was listed -/
inductive Stat
  | ok | gone | fails
  deriving DecidableEq

/-- what can be read: files, and the lists of directories -/
structure Access (α : Type) where
  stat : List α → Stat
  lists : List α → Bool

/-- an entry of the error log: 245-247 for the file, 314-316 for the directory -/
inductive Err (α : Type) where
  | file (i : List α)
  | dir (i : List α)
  deriving DecidableEq

/-- selection.py 311-320 `_listdir_sorted`: the names in a directory, and the error; 315: the list is empty then -/
def listdir (a : Access α) (d : List α) (content : Forest α) : Forest α × List (Err α) :=
  if a.lists d then (content, []) else (.nil, [.dir d])

/-- selection.py 249-273 `diryield` for one name: the name is checked first, then the file looked at (264-266), which may fail, then the conditions
are asked -/
def entry (a : Access α) (cs : List (Cond α)) (i : List α) (file : File) : Option (Option Val × List (Cond α) × List (Err α)) :=
  match selectFilename cs i with
  | none => none
  | some (.excl, cs') => some (none, cs', [])
  | some (_, cs') =>
    match a.stat i with
    | .fails => some (none, cs', [.file i])
    | .gone => some (none, cs', [])
    | .ok =>
      match selectDefault cs' i (some file) with
      | none => none
      | some (.incl, cs'') => some (some .incl, cs'', [])
      | some (.scan, cs'') => some (if file.isdir then some .scan else none, cs'', [])
      | some (.excl, cs'') => some (none, cs'', [])

omit [LinearOrder α] in
/-- not in the code: termination -/
theorem listdir_size (a : Access α) (d : List α) (content : Forest α) : (listdir a d content).1.size ≤ content.size := by
  unfold listdir
  split
  · exact Nat.le_refl _
  · cases content <;> simp [Forest.size]; omega

/-- selection.py 278-298, as `Selection.walkLoop`, with the errors in the order in which they are logged -/
def walkLoop (a : Access α) (cs : List (Cond α)) (delayed : List (List α)) : List (List α × Forest α) → Option (List (List α) × List (Err α))
  | [] => some ([], [])
  | (_, .nil) :: st => walkLoop a cs delayed.tail st
  | (d, .cons n f ch rest) :: st =>
    match entry a cs (d ++ [n]) f with
    | none => none
    | some (some .incl, cs', es) =>
      if f.isdir then
        (walkLoop a cs' [] ((d ++ [n], (listdir a (d ++ [n]) ch).1) :: (d, rest) :: st)).map
          fun r => (delayed.reverse ++ (d ++ [n]) :: r.1, es ++ (listdir a (d ++ [n]) ch).2 ++ r.2)
      else (walkLoop a cs' [] ((d, rest) :: st)).map fun r => (delayed.reverse ++ (d ++ [n]) :: r.1, es ++ r.2)
    | some (some .scan, cs', es) =>
      (walkLoop a cs' ((d ++ [n]) :: delayed) ((d ++ [n], (listdir a (d ++ [n]) ch).1) :: (d, rest) :: st)).map
        fun r => (r.1, es ++ (listdir a (d ++ [n]) ch).2 ++ r.2)
    | some (_, cs', es) => (walkLoop a cs' delayed ((d, rest) :: st)).map fun r => (r.1, es ++ r.2)
  termination_by st => (st.map fun x => x.2.size).sum
  decreasing_by
    all_goals simp only [List.map_cons, List.sum_cons, Forest.size]
    all_goals first
      | omega
      | exact Nat.lt_of_le_of_lt (Nat.add_le_add_right (listdir_size _ _ _) _) (by omega)

/-- selection.py 240-298 `_iterate_rpath` for a root directory: the paths, and the errors -/
def iterate (a : Access α) (cs : List (Cond α)) (root : File) (content : Forest α) : Option (List (List α) × List (Err α)) :=
  if root.isdir then
    (walkLoop a cs [] [([], (listdir a [] content).1)]).map fun r => ([] :: r.1, (listdir a [] content).2 ++ r.2)
  else some ([[]], [])

end Verif.WalkErrors
