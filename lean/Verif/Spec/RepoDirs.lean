import Verif.Model.IncName
/-
What is meant by a path (C63).
-/
namespace Verif.PathSpec
open Verif.IncName

/-- The name of a file: not empty, not `.`, without slashes. -/
def IsName (n : List Char) : Prop := n ≠ [] ∧ n ≠ ['.'] ∧ '/' ∉ n

instance (n : List Char) : Decidable (IsName n) := by unfold IsName; infer_instance

/-- The path of the file which is reached from `p` by the given names: `p/a/b/c`. -/
def below (p : List Char) (names : List (List Char)) : List Char := p ++ names.flatMap ('/' :: ·)

/-- A path as the user gives it: `/a/b/c` or `a/b/c` (not the root directory, and neither a network share `//a/b`). -/
def IsPath (p : List Char) : Prop :=
  ∃ n ns, IsName n ∧ (∀ m ∈ ns, IsName m) ∧ (p = below [] (n :: ns) ∨ p = below n ns)

/-- The names in the path `p`. -/
def InPath (n p : List Char) : Prop := ∃ a b, p = a ++ n ++ b ∧ '/' ∉ n ∧ (a = [] ∨ a.getLast? = some '/') ∧ (b = [] ∨ b.head? = some '/')

/-- Where the increment of the file `dirs/name` of time `t` is in the repository `base`. -/
def incPath (compat : Bool) (off : Int) (base : List Char) (dirs : List (List Char)) (name : List Char) (t : Int) (ty : IncType) (gz : Bool) :
    List Char :=
  below base ("rdiff-backup-data".toList :: "increments".toList :: dirs ++ [incName compat off name t ty gz])

/-- Where the increments of the root directory itself are. -/
def rootIncPath (compat : Bool) (off : Int) (base : List Char) (t : Int) (ty : IncType) (gz : Bool) : List Char :=
  below base ["rdiff-backup-data".toList, incName compat off "increments".toList t ty gz]

/-- The options which select files by their names: `--include` and `--exclude`, with a pattern, a regular expression or lists of them. -/
def SelectsByName (option : String) : Prop :=
  ∃ p ∈ ["include", "exclude"], ∃ q ∈ ["", "-filelist", "-filelist-stdin", "-globbing-filelist", "-globbing-filelist-stdin", "-regexp"], option = p ++ q

end Verif.PathSpec
