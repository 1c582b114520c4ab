import Verif.Model.Quoting
/- How a location is written, according to the manual (`docs/rdiff-backup.1.adoc` 499-503): `host::path`, with a backslash before each colon and backslash. -/
namespace Verif.Location
open Verif.Quoting

/-- Escaping a host or path. -/
def esc : Bytes → Bytes
  | [] => []
  | c :: r => if c = 92 ∨ c = 58 then 92 :: c :: esc r else c :: esc r

/-- What is before and after the first double colon which is not escaped. A backslash escapes the next character. -/
def firstSep : Bytes → Option (Bytes × Bytes)
  | [] => none
  | 92 :: c :: r => (firstSep r).map fun x => (92 :: c :: x.1, x.2)
  | 58 :: 58 :: r => some ([], r)
  | c :: r => (firstSep r).map fun x => (c :: x.1, x.2)

/-- the location string -/
def location (host path : Bytes) : Bytes := esc host ++ 58 :: 58 :: esc path

/-- Backslashes in paths become slashes. -/
def slashes (path : Bytes) : Bytes := path.map fun c => if c = 92 then 47 else c

/-- An escaped path that starts with one backslash looks like a Windows share, and gets a second one. -/
def isShare (path : Bytes) : Bool :=
  match path with
  | 92 :: c :: _ => c ≠ 92 && c ≠ 58
  | _ => false

/-- nothing but backslashes, perhaps with a newline at the end -/
def OnlyBackslashes (path : Bytes) : Prop := ∃ n, 0 < n ∧ (path = List.replicate n 92 ∨ path = List.replicate n 92 ++ [10])

end Verif.Location
