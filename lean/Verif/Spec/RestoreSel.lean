import Verif.Proof.Selection
/-
Specification for C64: what selection conditions exclude.  `decide' cs i f` is what the conditions say about the file `f` at path `i` by themselves
(C26 `first_match_wins`, C27 `decide_is_decision`).
-/
namespace Verif.RestoreDir
open Verif.Selection
variable {α : Type} [LinearOrder α]

/-- The path or a directory above it (but not the top) is excluded. -/
def Excluded (cs : List (Cond α)) (i : List α) : Prop := ∃ j f, j ≠ [] ∧ j <+: i ∧ decide' cs j f = .excl

/-- What is excluded is excluded because of its path, and with everything below it. -/
def ByTree (cs : List (Cond α)) : Prop := ∀ i f j g, i ≠ [] → i <+: j → decide' cs i f = .excl → decide' cs j g = .excl

/-- No directory is only scanned for something to include. -/
def NoScan (cs : List (Cond α)) : Prop := ∀ i f, decide' cs i f ≠ .scan

/-! ### The options `--exclude PATH`, `--include PATH`, `--exclude '**'` -/

/-- options which name paths, or everything -/
def Paths : Cond α → Prop
  | .tuple _ _ => True
  | .all _ => True
  | _ => False

/-- what one such option says about a path -/
def saysOf (c : Cond α) (i : List α) : Option Bool :=
  match c with
  | .tuple t true => if i <+: t ∨ t <+: i then some true else none
  | .tuple t false => if t <+: i then some false else none
  | .all b => some b
  | _ => none

/-- the first option which says something decides; without one the path is included -/
def answer : List (Cond α) → List α → Bool
  | [], _ => true
  | c :: cs, i => (saysOf c i).getD (answer cs i)

/-- what the command with options `cs` leaves alone: what the options exclude, and `rdiff-backup-data` -/
def LeftAlone (rb : α) (cs : List (Cond α)) (i : List α) : Prop := cs ≠ [] ∧ i ≠ [] ∧ ([rb] <+: i ∨ answer cs i = false)

/-- the options --include, --exclude (also with globs), their variants with regular expressions and with lists of files -/
def NamesPaths (c : Cond α) : Prop :=
  (∃ t b, c = .tuple t b) ∨ (∃ b, c = .all b) ∨ (∃ g s b, c = .glob g s b) ∨ (∃ p b, c = .regexp p b) ∨ (∃ l e, c = .filelist l e)

end Verif.RestoreDir
