import Verif.Model.TreeReducer
/- Specification for C13: properly nested traces. -/
namespace Verif.NestingSpec
open Verif.TreeReducer
variable {α : Type}

/-- The elements processed in a trace (begun directories and files), in order. -/
def processed : List (Event α) → List (List α)
  | [] => []
  | .start i :: r => i :: processed r
  | .fast i :: r => i :: processed r
  | .finish _ :: r => processed r

/-- `j` lies strictly below `i` -/
def Below (i j : List α) : Prop := i <+: j ∧ i ≠ j

/-- A properly nested sequence of events inside directory `d`: a sequence of files of `d` and of
complete directory blocks `start i … finish i`, where everything between `start i` and `finish i`
is properly nested inside `i`, and nothing after `finish i` lies below `i` any more. -/
inductive Nested : List α → List (Event α) → Prop
  | nil {d} : Nested d []
  | file {d i r} : Below d i → Nested d r → Nested d (.fast i :: r)
  | dir {d i inner r} : Below d i → Nested i inner → Nested d r →
      (∀ j ∈ processed r, ¬ i <+: j) → Nested d (.start i :: (inner ++ .finish i :: r))

end Verif.NestingSpec
