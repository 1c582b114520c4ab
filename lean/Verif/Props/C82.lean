import Verif.Proof.Compress
/-
C82  Compression is transparent.
-/
namespace Verif.C82
open Verif.Compress Verif.IncName Verif.C22

/-- **C82**: whatever the settings for compression of each backup, all backups succeed, and the data of every file are restored as they were in any of
the backups, in whatever order the directory of the increments is listed. -/
theorem restored {C : Codec} (hC : C.Lawful) (first : Session) (rest : List (Session × List Name)) (h : Good first rest) :
    ∃ R, history C first rest = some R ∧
      ∀ dir, dir.Perm R.incs → ∀ s ∈ rest.map Prod.fst ++ [first], ∀ n b, s.files n = some (.reg b) → restoreData C dir R s.time n = some b := by
  obtain ⟨R, e, hR⟩ := history_spec hC first rest h
  exact ⟨R, e, fun dir hd s hs n b hb => restore_spec hR hd hs hb⟩

/-- The settings are heeded: of the increments which a backup makes, those of regular files are compressed, if compression is on and the regular expression
doesn't match the file, and no others. -/
theorem compressed_as_told {C : Codec} {s : Session} {order : List Name} {R R' : Repo} (hr : Readable s.off R.time) (h : backup C s order R = some R') :
    ∀ e ∈ R'.incs, e ∈ R.incs ∨ ∃ i, parseIncName e.1 = some i ∧
      (i.compressed = true ↔ s.settings.compression = true ∧ (∀ r, s.settings.notCompressed = some r → r i.base = false) ∧ ∃ b, R.mirror i.base = some (.reg b)) := by
  intro e he
  obtain ⟨R1, h1, h2⟩ := Option.map_eq_some_iff.mp h
  subst h2
  exact stepFiles_told (old := R.mirror) hr (fun _ _ => rfl) order h1 he

/-! ### Examples

Packed data start with 31, 139; a difference is the new file, after 1. -/

def codec : Codec where
  gz b := 31 :: 139 :: b
  gunzip b := match b with | 31 :: 139 :: b => some b | [] => some [] | _ => none
  delta _ b := 1 :: b
  patch _ b := match b with | 1 :: b => some b | _ => none

theorem codec_lawful : codec.Lawful := ⟨fun _ => rfl, fun _ _ => rfl⟩

def a : Name := "a.jpg".toList
def b : Name := "b".toList
def reg (l : List UInt8) : Option Node := some (.reg l)
def files (x y : Option Node) (n : Name) : Option Node := if n = a then x else if n = b then y else none
def s0 : Session := ⟨1000000000, false, 0, ⟨true, none⟩, files (reg [1]) (reg [2])⟩
def s1 : Session := ⟨1000000001, false, 60, ⟨true, some fun n => n = a⟩, files (reg [3]) (reg [31, 139])⟩
def s2 : Session := ⟨1000000002, true, 0, ⟨false, none⟩, files (some (.other 1)) (reg [5])⟩
def s3 : Session := ⟨1000000003, false, -60, ⟨true, none⟩, files (reg [6]) none⟩
def s4 : Session := ⟨1000000004, false, 0, ⟨true, none⟩, files none (reg [7])⟩
def rest : List (Session × List Name) := [(s4, [a, b]), (s3, [b, a]), (s2, [a, b]), (s1, [a, b])]

theorem mem_of_ne {x y x' y' : Option Node} {n : Name} (h : files x y n ≠ files x' y' n) : n = a ∨ n = b := by
  unfold files at h
  by_cases h1 : n = a
  · exact Or.inl h1
  · by_cases h2 : n = b
    · exact Or.inr h2
    · simp [h1, h2] at h

example : Good s0 rest := by
  refine ⟨⟨⟨⟨trivial, by decide, ⟨by decide, by decide, by decide, .inl (by decide)⟩, fun n h => ?_⟩, by decide, ⟨by decide, by decide, by decide, .inl (by decide)⟩, fun n h => ?_⟩,
    by decide, ⟨by decide, by decide, by decide, .inr (by decide)⟩, fun n h => ?_⟩, by decide, ⟨by decide, by decide, by decide, .inl (by decide)⟩, fun n h => ?_⟩ <;>
  rcases mem_of_ne h with rfl | rfl <;> simp

/-- the increments: some are compressed, others not -/
example : (history codec s0 rest).map (fun R => R.incs.map fun x => (String.ofList x.1, x.2)) = some
    [("a.jpg.2001-09-09T02:46:40+01:00.diff", .reg [1, 1]), ("b.2001-09-09T02:46:40+01:00.diff.gz", .reg [31, 139, 1, 2]),
     ("a.jpg.2001-09-09T01-46-41Z.snapshot", .reg [3]), ("b.2001-09-09T01-46-41Z.diff", .reg [1, 31, 139]),
     ("b.2001-09-09T00:46:42-01:00.snapshot.gz", .reg [31, 139, 5]), ("a.jpg.2001-09-09T00:46:42-01:00.snapshot", .other 1),
     ("a.jpg.2001-09-09T01:46:43Z.snapshot.gz", .reg [31, 139, 6]), ("b.2001-09-09T01:46:43Z.missing", .reg [])] := by decide +kernel

example : (history codec s0 rest).map (fun R => [restoreData codec R.incs.reverse R 1000000000 a, restoreData codec R.incs R 1000000001 b, restoreData codec R.incs R 1000000002 b,
    restoreData codec R.incs R 1000000004 b]) = some [some [1], some [31, 139], some [5], some [7]] := by decide +kernel

end Verif.C82
