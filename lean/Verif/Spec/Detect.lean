import Verif.Model.Detect
import Verif.Spec.FsQuoting

/- What file systems with certain abilities do. -/
namespace Verif.Detect
open Verif Verif.Filenames Verif.FsQuoting Verif.FilenamesSpec

/-- The file system does with names what the abilities say. Names with blanks or dots at the end which it doesn't keep are the same as those without, or can't be created. -/
structure Behaves (S : Sys) (f : Fsa) : Prop where
  same : ∀ a b, Usable f a → Usable f b → (S.canon a = S.canon b ↔ SameFile f a b)
  usable : ∀ n, n ≠ [] → Usable f n → S.accepts n = true
  extended : f.extended = some false → ∀ n, (∃ b ∈ n, 128 ≤ b.toNat) → S.accepts n = false
  reserved : f.winReserved = true → ∀ n, (∃ b ∈ n, b ∈ ([34, 42, 47, 58, 60, 62, 63, 92, 124] : List UInt8)) → S.accepts n = false
  trailing : f.escapeTrailing = true → ∀ n, S.canon (n ++ [46]) = S.canon n ∨ S.accepts (n ++ [46]) = false ∧ ∀ m, Usable f m → S.canon (n ++ [46]) ≠ S.canon m
  device : ∀ n, S.device n = true ↔ f.escapeDos = true ∧ IsDosDevice n

/-- the names of the files in a directory, and in what is below, are names the file system can have, and those of different files -/
def Good (S : Sys) (f : Fsa) : Dir → Prop
  | .nil => True
  | .file n _ r => Usable f n ∧ (∀ m ∈ r.names, S.canon m ≠ S.canon n) ∧ Good S f r
  | .dir n sub r => Usable f n ∧ (∀ m ∈ r.names, S.canon m ≠ S.canon n) ∧ Good S f sub ∧ Good S f r

/-- somewhere there is a name with letters, of something which can be looked at -/
def Lettered : Dir → Prop
  | .nil => False
  | .file n l r => l = .ok ∧ n ≠ swapcase n ∨ Lettered r
  | .dir n sub r => n ≠ swapcase n ∨ Lettered sub ∨ Lettered r

/-- looking at files doesn't fail but for permissions -/
def Sound : Dir → Prop
  | .nil => True
  | .file _ l r => l ≠ .error ∧ Sound r
  | .dir _ sub r => Sound sub ∧ Sound r

end Verif.Detect
