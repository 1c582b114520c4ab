import Verif.Model.FsQuoting
import Verif.Spec.Filenames
/-
What names mean to a file system (C67).
-/
namespace Verif.FsQuoting
open Verif Verif.FilenamesSpec

/-- A file system can have a file of this name: no device name, no blank or dot at the end, only ASCII characters without control characters, none of `"*/:<>?\|` nor control characters,
if it can't deal with them. -/
structure Usable (f : Fsa) (n : Bytes) : Prop where
  device : f.escapeDos = true → ¬ IsDosDevice n
  trailing : f.escapeTrailing = true → n.getLast? ≠ some 32 ∧ n.getLast? ≠ some 46
  ascii : f.extended = some false → ∀ b ∈ n, 32 ≤ b.toNat ∧ b.toNat < 128
  reserved : f.winReserved = true → ∀ b ∈ n, b ∉ ([34, 42, 47, 58, 60, 62, 63, 92, 124, 127] : List UInt8) ∧ (f.extended ≠ none → 32 ≤ b.toNat)

/-- Two names are those of the same file. (Case of ASCII characters; see `other_letters` for others.) -/
def SameFile (f : Fsa) (a b : Bytes) : Prop := if f.caseSensitive then a = b else a.map toLower = b.map toLower

instance (f : Fsa) (a b : Bytes) : Decidable (SameFile f a b) := by
  unfold SameFile
  infer_instance

/-- the configuration and the quotings of all backups of a repository, whichever options are given and whichever file systems are used -/
inductive Used : Config → List Quoting → Prop
  | new : Used ⟨none, none⟩ []
  | backup {cfg cfg' : Config} {qs : List Quoting} {q : Quoting} {flip : Bool} {opt : Option Bytes} {src dst : Fsa} :
      Used cfg qs → backup flip opt src dst cfg = some (q, cfg') → Used cfg' (q :: qs)

end Verif.FsQuoting
