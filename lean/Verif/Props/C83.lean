import Verif.Proof.MetaWrite
/-
C83  Metadata and statistics are read back as they were written, compressed or not.
-/
namespace Verif.C83
open Verif.MetaWrite Verif.Compress Verif.IncName Verif.C22

variable {C : Codec}

/-- **C83**, metadata files: whether compression is on or not, whatever the records (also none, also empty ones) and however they are collected before writing: the file is read back
as it was written, under the name that the writer reports; that name ends in .gz exactly if compression is on and there are data; no other file is touched. -/
theorem metadata_read_back (hC : C.Lawful) {max : Nat} {compat : Bool} {off t : Int} (hr : Readable off t) {compression : Bool} {d : Dir} {pre : Name} {ty : IncType}
    {records : List Bytes} (h : get d (incName compat off pre t ty false) = none) :
    ∃ d' gz, writeMeta C max compat off compression d pre t ty records = some (d', incName compat off pre t ty gz) ∧ readFile C d' (incName compat off pre t ty gz) = some records.flatten ∧
      (gz = true ↔ compression = true ∧ records.flatten ≠ []) ∧ ∀ m, m ≠ incName compat off pre t ty gz → get d' m = get d m :=
  writeMeta_spec hC hr h

/-- **C83**, file statistics -/
theorem statistics_read_back (hC : C.Lawful) {compat : Bool} {off t : Int} (hr : Readable off t) {compression : Bool} {d : Dir} {pre : Name} {lines : List Bytes}
    (h : get d (incName compat off pre t .data compression) = none) :
    ∃ d', writeStats C compat off compression d pre t lines = some (d', incName compat off pre t .data compression) ∧
      readFile C d' (incName compat off pre t .data compression) = some lines.flatten ∧ ∀ m, m ≠ incName compat off pre t .data compression → get d' m = get d m :=
  writeStats_spec hC hr h

/-- **C83**, files from which entries are removed: they remain readable under their name, in which nothing is changed, and are what is left of the text (`f`) -/
theorem removed_read_back (hC : C.Lawful) {d : Dir} {n tmp : Name} {b : Bytes} (h : readFile C d n = some b) (hne : tmp ≠ n) (ht : get d tmp = none) (f : Bytes → Option Bytes) :
    ∃ d', rewrite C d n tmp f = some d' ∧ readFile C d' n = some ((f b).getD b) ∧ ∀ m, m ≠ n → get d' m = get d m :=
  rewrite_spec hC h hne ht f

/-- **C83**, metadata which are recreated by undoing a backup, partial: read back if compression is on.

Missing: compression off, where they can't be read any more (`recreated_unreadable`). -/
theorem recreated_partial (hC : C.Lawful) {max : Nat} {compat : Bool} {off t : Int} (hr : Readable off t) {compression : Bool} {d : Dir} {tmp pre : Name} {records : List Bytes}
    (hc : compression = true) (h1 : get d tmp = none) (h2 : get d (incName compat off pre t .snapshot true) = none) (h3 : tmp ≠ incName compat off pre t .snapshot true) :
    ∃ d', recreate C max compat off compression d tmp pre t records = some (d', incName compat off pre t .snapshot true) ∧
      readFile C d' (incName compat off pre t .snapshot true) = some records.flatten ∧ ∀ m, m ≠ incName compat off pre t .snapshot true → get d' m = get d m := by
  subst hc
  obtain ⟨d', e, h, h'⟩ := recreate_spec (C := C) (max := max) hr (compression := true) (records := records) h1 h2 h3
  exact ⟨d', e, h.trans (hC.gzip _), h'⟩

/-- **The recreated metadata are unreadable** (found in the code) if compression is off, unless gzip takes the text of the metadata for packed data: they are not
compressed, but their name ends in .gz. -/
theorem recreated_unreadable {max : Nat} {compat : Bool} {off t : Int} (hr : Readable off t) {d : Dir} {tmp pre : Name} {records : List Bytes}
    (hg : C.gunzip records.flatten = none) (h1 : get d tmp = none) (h2 : get d (incName compat off pre t .snapshot true) = none) (h3 : tmp ≠ incName compat off pre t .snapshot true) :
    ∃ d', recreate C max compat off false d tmp pre t records = some (d', incName compat off pre t .snapshot true) ∧ readFile C d' (incName compat off pre t .snapshot true) = none := by
  obtain ⟨d', e, h, -⟩ := recreate_spec (C := C) (max := max) hr (compression := false) (records := records) h1 h2 h3
  exact ⟨d', e, h.trans hg⟩

/-! ### Examples -/

def codec : Codec where
  gz b := 31 :: 139 :: b
  gunzip b := match b with | 31 :: 139 :: b => some b | [] => some [] | _ => none
  delta _ b := 1 :: b
  patch _ b := match b with | 1 :: b => some b | _ => none

theorem codec_lawful : codec.Lawful := ⟨fun _ => rfl, fun _ _ => rfl⟩

def pre : Name := "mirror_metadata".toList
def dir : Dir := [("mirror_metadata.2001-09-09T01:46:39Z.diff.gz".toList, [31, 139, 9])]

example : Readable 0 1000000000 ∧ get dir (incName false 0 pre 1000000000 .snapshot false) = none ∧ get dir (incName false 0 pre 1000000000 .snapshot true) = none ∧
    get dir "rdiff-backup.tmp.0".toList = none ∧ "rdiff-backup.tmp.0".toList ≠ incName false 0 pre 1000000000 .snapshot true ∧
    codec.gunzip [[70, 105], [108, 101]].flatten = none ∧ readFile codec dir "mirror_metadata.2001-09-09T01:46:39Z.diff.gz".toList = some [9] :=
  ⟨⟨by decide, by decide, by decide, .inl (by decide)⟩, by decide +kernel, by decide +kernel, by decide +kernel, by decide +kernel, by decide +kernel, by decide +kernel⟩

/-- three records, two together; no data; no compression -/
example : (writeMeta codec 2 false 0 true dir pre 1000000000 .snapshot [[70], [], [71]]).map (fun x => (x.1.take 1 |>.map fun y => (String.ofList y.1, y.2), readFile codec x.1 x.2)) =
    some ([("mirror_metadata.2001-09-09T01:46:40Z.snapshot.gz", [31, 139, 70, 71])], some [70, 71]) := by decide +kernel
example : (writeMeta codec 2 false 0 true dir pre 1000000000 .snapshot [[], []]).map (fun x => (x.1.take 1 |>.map fun y => (String.ofList y.1, y.2), readFile codec x.1 x.2)) =
    some ([("mirror_metadata.2001-09-09T01:46:40Z.snapshot", [])], some []) := by decide +kernel
example : (writeMeta codec 2 false 0 false dir pre 1000000000 .snapshot [[70], [], [71]]).map (fun x => (x.1.take 1 |>.map fun y => (String.ofList y.1, y.2), readFile codec x.1 x.2)) =
    some ([("mirror_metadata.2001-09-09T01:46:40Z.snapshot", [70, 71])], some [70, 71]) := by decide +kernel

end Verif.C83
