import Verif.Model.MetaRecord
/-
Which attributes a metadata record keeps, and which paths can be recorded (C23).
-/
namespace Verif.MetaRecord
open Verif.Quoting Verif.FlatFile

/-- A user or group name as it comes back: the empty name, `:` and `None` are read as "no name". -/
def keptName : Option (Option Bytes) → Option Bytes
  | some (some s) => if s = [] ∨ s = lit ":" ∨ s = lit "None" then none else some s
  | _ => none

/-- The attributes kept: all which matter for the file type. Inode and device only of files with several hard links (if hard links are
preserved), no times of symbolic links and devices. -/
def kept (hardlinks : Bool) (r : Rorp) : Rorp :=
  match r.type with
  | none => { index := r.index }
  | some ty =>
    let links := ty = .reg ∧ hardlinks = true ∧ 1 < r.nlink.getD 1
    { index := r.index
      type := some ty
      size := if ty = .reg then r.size else none
      nlink := if links then r.nlink else none
      inode := if links then r.inode else none
      devloc := if links then r.devloc else none
      mtime := if ty = .sym ∨ ty = .dev then none else r.mtime
      uid := r.uid
      gid := r.gid
      perms := some (r.perms.getD 0)
      uname := some (keptName r.uname)
      gname := some (keptName r.gname)
      linkname := if ty = .sym then r.linkname else none
      devnums := if ty = .dev then r.devnums else none
      sha1 := if ty = .reg then r.sha1 else none
      mirrorname := r.mirrorname
      incname := if r.mirrorname = none then r.incname else none }

/-- a text which can be the value of a field: one line, not empty -/
def Value (s : Bytes) : Prop := s ≠ [] ∧ (10 : UInt8) ∉ s

/-- Paths as they occur: components are neither empty nor contain a slash, the attributes which belong to the type are there, user and
group names contain no newline, symbolic links are not empty. -/
structure Storable (r : Rorp) : Prop where
  comps : ∀ c ∈ r.index, c ≠ [] ∧ (47 : UInt8) ∉ c
  notDot : r.index ≠ [[46]]
  size : r.type = some .reg → r.size ≠ none
  inode : r.type = some .reg → 1 < r.nlink.getD 1 → r.inode ≠ none ∧ r.devloc ≠ none
  mtime : ∀ ty, r.type = some ty → ty ≠ .sym → ty ≠ .dev → r.mtime ≠ none
  linkname : r.type = some .sym → ∃ l, r.linkname = some l ∧ l ≠ []
  devnums : r.type = some .dev → ∃ c, Value c ∧ (32 : UInt8) ∉ c ∧ ∃ ma mi, r.devnums = some (c, ma, mi)
  owner : r.type ≠ none → r.uid ≠ none ∧ r.gid ≠ none
  uname : ∀ s, r.uname = some (some s) → (10 : UInt8) ∉ s
  gname : ∀ s, r.gname = some (some s) → (10 : UInt8) ∉ s
  sha1 : ∀ s, r.sha1 = some s → Value s ∧ s ≠ lit ":" ∧ s ≠ lit "None"
  mirrorname : ∀ s, r.mirrorname = some s → Value s
  incname : ∀ s, r.incname = some s → Value s

end Verif.MetaRecord
