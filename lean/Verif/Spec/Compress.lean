import Verif.Model.Compress
import Verif.Props.C22
/-
What is assumed of gzip and librsync, and of a history of backups.
-/
namespace Verif.Compress
open Verif.C22

/-- Unpacking gives what was packed, and patching what the difference was made for. -/
structure Codec.Lawful (C : Codec) : Prop where
  gzip : ∀ b, C.gunzip (C.gz b) = some b
  rdiff : ∀ a b, C.patch a (C.delta a b) = some b

/-- the backup before the first of these -/
def lastOf (first : Session) : List (Session × List Name) → Session
  | [] => first
  | (s, _) :: _ => s

/-- Each backup is later than the one before, its time zone is one in which the times of names are read back (C22), and all files which have changed are processed. -/
def Good (first : Session) : List (Session × List Name) → Prop
  | [] => True
  | (s, order) :: r =>
    Good first r ∧ (lastOf first r).time < s.time ∧ Readable s.off (lastOf first r).time ∧ ∀ n, (lastOf first r).files n ≠ s.files n → n ∈ order

end Verif.Compress
