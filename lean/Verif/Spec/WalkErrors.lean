import Verif.Model.WalkErrors

/- What an unreadable file or directory hides, and what is to be reported. -/
namespace Verif.Spec.WalkErrors
open Verif.Selection Verif.WalkErrors
variable {α : Type}

/-- The path can be seen: it and all directories above it can be looked at, and the directories above it can be listed. -/
def Visible (a : Access α) (i : List α) : Prop :=
  (∀ j, j <+: i → j ≠ [] → a.stat j = .ok) ∧ ∀ j, j <+: i → j ≠ i → a.lists j = true

/-- the files which can be seen -/
noncomputable def visible (a : Access α) (paths : List (List α × File)) : List (List α × File) :=
  open Classical in paths.filter fun x => decide (Visible a x.1)

end Verif.Spec.WalkErrors
