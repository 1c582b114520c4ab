import Verif.Model.TempFiles
/-
What it means that a plan turns a tree into another. A tree: what is at every path.
-/
namespace Verif.TempFiles
open Verif.Quoting

variable {C : Type}

/-- what contains something is a directory -/
def Tree (M : Path → Option (Node C)) : Prop := ∀ p n, M (p ++ [n]) ≠ none → M p = some .dir

/-- the entries which something is to be done about -/
def Plan.names : Plan C → List Bytes
  | .nil => []
  | .file n _ rest => n :: rest.names
  | .dir n _ _ rest => n :: rest.names

/-- Every entry of the plan says what is in the tree `M` and what will be in `S`; and below directories nothing else differs. -/
def Plan.Right (M S : Path → Option (Node C)) (d : Path) : Plan C → Prop
  | .nil => True
  | .file n new rest => n ∉ rest.names ∧ M (d ++ [n]) ≠ some .dir ∧ S (d ++ [n]) = new.map .file ∧ rest.Right M S d
  | .dir n repl sub rest =>
    n ∉ rest.names ∧
      (match repl with
        | none => S (d ++ [n]) = some .dir
        | some x => M (d ++ [n]) = some .dir ∧ S (d ++ [n]) = x.map .file) ∧
      sub.Right M S (d ++ [n]) ∧ (∀ m, m ∉ sub.names → ∀ r, M (d ++ [n] ++ m :: r) = S (d ++ [n] ++ m :: r)) ∧ rest.Right M S d

/-- The plan for the directory `d` turns `M` into `S`, which are the same where the plan says nothing. -/
def Plan.Turns (M S : Path → Option (Node C)) (d : Path) (plan : Plan C) : Prop :=
  plan.Right M S d ∧ ∀ n, n ∉ plan.names → ∀ r, M (d ++ n :: r) = S (d ++ n :: r)

/-- no directory has more entries than there are numbers for temporary files -/
def Room (M S : Path → Option (Node C)) : Prop :=
  ∀ d, ∃ l : List Bytes, l.length ≤ 100000000 ∧ ∀ n, (M (d ++ [n]) ≠ none ∨ S (d ++ [n]) ≠ none) → n ∈ l

/-- a name that starts with `rdiff-backup.tmp.` -/
def LooksTemporary (n : Bytes) : Prop := "rdiff-backup.tmp.".toUTF8.data.toList <+: n

end Verif.TempFiles
