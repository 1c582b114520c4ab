import Verif.Proof.MetaFile
/-
C23 Metadata records round-trip.
C24 Reading a metadata file is independent of block boundaries.
C25 Reading metadata restricted to a sub-path.
C47 An unchanged file is recognised as unchanged.
C48 A file taken for unchanged is unchanged in all recorded attributes.
-/
namespace Verif.C23
open Verif.Quoting Verif.FlatFile Verif.MetaRecord

/-- C23: every storable path can be written, and what is read back is the path with all the attributes which are kept
(`Spec/Metadata.lean`). -/
theorem roundtrip (hardlinks : Bool) {r : Rorp} (h : Storable r) :
    ∃ record, objectToRecord hardlinks r = some record ∧ recordToObject record = some (kept hardlinks r) := by
  obtain ⟨q, fs, -, -, -, h1, h2⟩ := record_roundtrip hardlinks h
  exact ⟨_, h1, h2⟩

/-- what the user can rely on for a file found on disk: names of its owners are proper names -/
structure Proper (s : Stat) : Prop where
  uname : ∀ n, s.uname = some n → n ≠ [] ∧ n ≠ lit ":" ∧ n ≠ lit "None" ∧ (10 : UInt8) ∉ n
  gname : ∀ n, s.gname = some n → n ≠ [] ∧ n ≠ lit ":" ∧ n ≠ lit "None" ∧ (10 : UInt8) ∉ n
  linkname : s.type = .sym → s.linkname ≠ []
  devnums : s.type = .dev → s.devnums.1 = lit "c" ∨ s.devnums.1 = lit "b"

/-- a path relative to the backed up directory -/
def PathIndex (index : List Bytes) : Prop := (∀ c ∈ index, c ≠ [] ∧ (47 : UInt8) ∉ c) ∧ index ≠ [[46]]

theorem storable_fromStat {index : List Bytes} {s : Stat} (hi : PathIndex index) (hs : Proper s) : Storable (fromStat index s) where
  comps := hi.1
  notDot := hi.2
  size := by simp [fromStat]
  inode := by simp [fromStat]
  mtime := by
    intro ty hty h1 h2
    simp only [fromStat, Option.some.injEq] at hty ⊢
    subst hty
    simp [h1, h2]
  linkname := by
    intro h
    simp only [fromStat, Option.some.injEq] at h
    exact ⟨s.linkname, by simp [fromStat, h], hs.linkname h⟩
  devnums := by
    intro h
    simp only [fromStat, Option.some.injEq] at h
    refine ⟨s.devnums.1, ?_, ?_, s.devnums.2.1, s.devnums.2.2, by simp [fromStat, h]⟩
    · rcases hs.devnums h with h | h <;> rw [h] <;> unfold Value <;> decide
    · rcases hs.devnums h with h | h <;> rw [h] <;> decide
  owner := by simp [fromStat]
  uname := by
    intro n h
    simp only [fromStat, Option.some.injEq] at h
    exact (hs.uname n h).2.2.2
  gname := by
    intro n h
    simp only [fromStat, Option.some.injEq] at h
    exact (hs.gname n h).2.2.2
  sha1 := by simp [fromStat]
  mirrorname := by simp [fromStat]
  incname := by simp [fromStat]

theorem keptName_proper {n : Option Bytes} (h : ∀ m, n = some m → m ≠ [] ∧ m ≠ lit ":" ∧ m ≠ lit "None" ∧ (10 : UInt8) ∉ m) :
    keptName (some n) = n := by
  cases n with
  | none => rfl
  | some m =>
    obtain ⟨h1, h2, h3, -⟩ := h m rfl
    simp only [keptName]
    rw [if_neg]
    rintro (h | h | h)
    exacts [h1 h, h2 h, h3 h]

/-- C23 for the files of a backed up directory, in full: whatever the name and the attributes, the record gives back path, type,
permissions, owner and group by number and name, and by file type size, modification time, link target and device numbers. -/
theorem attributes_restored (hardlinks : Bool) {index : List Bytes} {s : Stat} (hi : PathIndex index) (hs : Proper s) :
    ∃ record r', objectToRecord hardlinks (fromStat index s) = some record ∧ recordToObject record = some r' ∧
      r'.index = index ∧ r'.type = some s.type ∧ r'.perms = some s.perms ∧ r'.uid = some s.uid ∧ r'.gid = some s.gid ∧
      r'.uname = some s.uname ∧ r'.gname = some s.gname ∧
      (s.type = .reg → r'.size = some s.size) ∧
      (s.type ≠ .sym → s.type ≠ .dev → r'.mtime = some s.mtime) ∧
      (s.type = .sym → r'.linkname = some s.linkname) ∧
      (s.type = .dev → r'.devnums = some s.devnums) ∧
      (s.type = .reg → hardlinks = true → 1 < s.nlink → r'.nlink = some s.nlink ∧ r'.inode = some s.inode ∧ r'.devloc = some s.devloc) := by
  obtain ⟨record, h1, h2⟩ := roundtrip hardlinks (storable_fromStat hi hs)
  refine ⟨record, _, h1, h2, kept_index _ _, ?_⟩
  have hu := keptName_proper hs.uname
  have hg := keptName_proper hs.gname
  simp only [kept, fromStat, hu, hg, Option.getD_some]
  simp only [true_and]
  refine ⟨?_, ?_, ?_, ?_, ?_⟩
  · intro h; simp [h]
  · intro h1 h2; simp [h1, h2]
  · intro h; simp [h]
  · intro h; simp [h]
  · intro h h' h''; simp [h, h', h'']

/-- a file with newlines and backslashes in its name -/
def demoIndex : List Bytes := [lit "a\nFile b", lit "c\\n"]
def demoStat : Stat :=
  { type := .reg, size := 12, perms := 420, uid := -2, gid := 100, inode := 7, devloc := 3, nlink := 2, mtime := -5, uname := some (lit "root"),
    gname := none, linkname := [], devnums := ([], 0, 0) }

theorem demo_index : PathIndex demoIndex := by unfold PathIndex; decide
theorem demo_proper : Proper demoStat where
  uname := by
    intro n h
    have : n = lit "root" := by simpa [demoStat] using h.symm
    subst this; decide
  gname := by intro n h; simp [demoStat] at h
  linkname := by decide
  devnums := by decide

example : ∃ record, objectToRecord true (fromStat demoIndex demoStat) = some record ∧
    recordToObject record = some (kept true (fromStat demoIndex demoStat)) := roundtrip true (storable_fromStat demo_index demo_proper)

example : objectToRecord true (fromStat [lit "x\ny"] { demoStat with type := .sym, linkname := lit "to" }) =
    some (lit "File x\\ny\n  Type sym\n  SymData to\n  Uid -2\n  Uname root\n  Gid 100\n  Gname :\n  Permissions 420\n") := by decide +kernel

/-- The names excluded by `Proper` are really lost (finding F6): a user called `None` is read back as no user name. -/
theorem user_None_lost (hardlinks : Bool) :
    ∃ record, objectToRecord hardlinks (fromStat [lit "a"] { demoStat with type := .dir, uname := some (lit "None") }) = some record ∧
      (recordToObject record).map (·.uname) = some (some none) := by
  cases hardlinks <;> exact ⟨_, rfl, by decide +kernel⟩

/-- ... and the target of an empty symbolic link is not read back at all (finding F6). -/
theorem empty_link_lost (hardlinks : Bool) :
    ∃ record, objectToRecord hardlinks (fromStat [lit "a"] { demoStat with type := .sym, linkname := [] }) = some record ∧
      (recordToObject record).map (·.linkname) = some none := by
  cases hardlinks <;> exact ⟨_, rfl, by decide +kernel⟩

end Verif.C23

namespace Verif.C24
open Verif.Quoting Verif.FlatFile Verif.MetaRecord

/-- C24: any list of storable paths can be written to a metadata file, and however the writer buffers (`max`) and however the reads of
the file are sized (`sizes`), iterating gives exactly those paths in their order (with the attributes kept). -/
theorem iterate_written (hardlinks : Bool) (max : Nat) (sizes : Nat → Nat) {rs : List Rorp} (h : ∀ r ∈ rs, Storable r) :
    ∃ content, writeObjects max (objectToRecord hardlinks) rs = some content ∧
      iterate (lit "File ") sizes recordToObject content = rs.map (kept hardlinks) := by
  obtain ⟨rec, hrec⟩ := recs_of_storable hardlinks rs h
  refine ⟨_, writeObjects_spec max _ rs (fun r => (rec r).text (lit "File ")) fun r hr => (hrec r hr).2.2.1, ?_⟩
  have ht : (rs.flatMap fun r => (rec r).text (lit "File ")) = texts (lit "File ") (rs.map rec) := by
    simp [texts, List.flatMap_map]
  rw [ht]
  unfold iterate
  rw [iterateRecords_spec (rs := rs.map rec) (by decide) (by decide) _ _ _ rfl rfl]
  · rw [List.filterMap_map]
    exact filterMap_recs fun r hr => (hrec r hr).2.2.2
  · exact Nat.lt_succ_of_le (length_texts _)
  · intro x hx
    obtain ⟨r, hr, rfl⟩ := List.mem_map.1 hx
    exact (hrec r hr).1

def demo : List Rorp := [fromStat [] { C23.demoStat with type := .dir }, fromStat C23.demoIndex C23.demoStat]

theorem demo_storable : ∀ r ∈ demo, Storable r := by
  intro r hr
  rcases List.mem_cons.1 hr with rfl | hr
  · refine C23.storable_fromStat (by unfold C23.PathIndex; decide) { C23.demo_proper with linkname := ?_, devnums := ?_ } <;> decide
  · rw [List.mem_singleton.1 hr]
    exact C23.storable_fromStat C23.demo_index C23.demo_proper

example : ∃ content, writeObjects 100 (objectToRecord true) demo = some content ∧
    iterate (lit "File ") (fun k => k % 3) recordToObject content = demo.map (kept true) := iterate_written true 100 _ demo_storable

end Verif.C24

namespace Verif.C25
open Verif.Quoting Verif.FlatFile Verif.MetaRecord

/-- C25: reading restricted to an index gives exactly the paths at or below it, in their order; for every index, whether there is
such a path or not. (Paths are written in increasing order, C13.) -/
theorem restricted (hardlinks : Bool) (max : Nat) (sizes : Nat → Nat) (index : List Bytes) {rs : List Rorp} (h : ∀ r ∈ rs, Storable r)
    (hsort : rs.Pairwise fun a b => a.index < b.index) :
    ∃ content, writeObjects max (objectToRecord hardlinks) rs = some content ∧
      getObjects (lit "File ") sizes filenameToIndex recordToObject Rorp.index index content =
        (rs.filter fun r => index.isPrefixOf r.index).map (kept hardlinks) := by
  obtain ⟨rec, hrec⟩ := recs_of_storable hardlinks rs h
  have hw := writeObjects_spec max (objectToRecord hardlinks) rs (fun r => (rec r).text (lit "File ")) fun r hr => (hrec r hr).2.2.1
  have ht : (rs.flatMap fun r => (rec r).text (lit "File ")) = texts (lit "File ") (rs.map rec) := by
    simp [texts, List.flatMap_map]
  refine ⟨_, hw, ?_⟩
  unfold getObjects
  split
  · next hi =>
    subst hi
    obtain ⟨content, h1, h2⟩ := C24.iterate_written hardlinks max sizes h
    rw [hw] at h1
    rw [Option.some.inj h1, h2]
    congr 1
    symm
    rw [List.filter_eq_self]
    intro r _; rfl
  · rw [ht, iterateStartingWith_spec (by decide) (by decide) (rs := rs.map rec)]
    · rw [List.filter_map]
      rw [List.filter_congr (q := fun r : Rorp => index.isPrefixOf r.index)]
      rotate_left
      · intro r hr
        simp only [Function.comp, (hrec r hr).2.1]
        exact isPrefixOf_inst _ _ inferInstance inferInstance _ _
      exact filterMap_recs fun r hr => (hrec r (List.mem_filter.1 hr).1).2.2.2
    · intro x hx
      obtain ⟨r, hr, rfl⟩ := List.mem_map.1 hx
      exact (hrec r hr).1
    · intro x hx o ho
      obtain ⟨r, hr, rfl⟩ := List.mem_map.1 hx
      rw [(hrec r hr).2.2.2] at ho
      rw [← Option.some.inj ho, kept_index, (hrec r hr).2.1]
    · rw [List.pairwise_map]
      refine hsort.imp_of_mem ?_
      intro a b ha hb hab
      rw [(hrec a ha).2.1, (hrec b hb).2.1]
      exact hab

example : ∃ content, writeObjects 100 (objectToRecord true) C24.demo = some content ∧
    getObjects (lit "File ") (fun k => k % 3) filenameToIndex recordToObject Rorp.index [lit "a\nFile b"] content =
      [kept true (fromStat C23.demoIndex C23.demoStat)] :=
  restricted true 100 _ _ C24.demo_storable (by decide +kernel)

end Verif.C25

namespace Verif.C47
open Verif.Quoting Verif.FlatFile Verif.MetaRecord

/-- C47: a file which has the attributes it had at the last backup compares equal to what the metadata of that backup says about it,
whatever its type, name and attributes and whatever the digest recorded. So it is not backed up again. -/
theorem unchanged_equal (c : Cfg) {index : List Bytes} {s : Stat} (hi : C23.PathIndex index) (hs : C23.Proper s) (hn : 1 ≤ s.nlink)
    (sha1 : Option Bytes) (hsha : ∀ d, sha1 = some d → Value d ∧ d ≠ lit ":" ∧ d ≠ lit "None") :
    ∃ record r', objectToRecord c.hardlinks { fromStat index s with sha1 := sha1 } = some record ∧ recordToObject record = some r' ∧
      Rorp.eqv c (fromStat index s) r' = true := by
  have hst : Storable { fromStat index s with sha1 := sha1 } :=
    { C23.storable_fromStat hi hs with sha1 := hsha }
  obtain ⟨record, h1, h2⟩ := C23.roundtrip c.hardlinks hst
  refine ⟨record, _, h1, h2, ?_⟩
  have hu := C23.keptName_proper hs.uname
  have hg := C23.keptName_proper hs.gname
  have hname : ∀ n : Option Bytes, sameName (some n) (some n) = true := by
    intro n
    cases n with
    | none => rfl
    | some m => simp [sameName]
  have hl : s.type = .reg → s.nlink ≠ 1 → c.hardlinks = true → 1 < s.nlink := by intro _ _ _; omega
  cases hty : s.type <;> simp [Rorp.eqv, kept, fromStat, hty, sameKey, hu, hg, hname]
  by_cases h1 : s.nlink = 1
  · simp [h1]
  · by_cases h2 : c.hardlinks = true
    · have := hl hty h1 h2
      simp [h2, this]
    · simp [h2]

example : ∃ record r', objectToRecord true { fromStat C23.demoIndex C23.demoStat with sha1 := some (lit "da39") } = some record ∧
    recordToObject record = some r' ∧ Rorp.eqv ⟨true, true⟩ (fromStat C23.demoIndex C23.demoStat) r' = true :=
  unchanged_equal ⟨true, true⟩ C23.demo_index C23.demo_proper (by decide) _ (by intro d h; cases h; unfold Value; decide)

end Verif.C47

namespace Verif.C48
open Verif.Quoting Verif.FlatFile Verif.MetaRecord

/-- the file replaced an empty regular file and is no regular file, nor a directory (finding F15) -/
def SpecialForEmpty (old new : Stat) : Prop :=
  old.type = .reg ∧ old.size = 0 ∧ (new.type = .sock ∨ new.type = .fifo)

/-- C48, except for finding F15 (`fifo_undetected`): if a file compares equal to the record of the last backup, then its type,
permissions, modification time, size, link target, device numbers and owners are those recorded: any change of one of them makes the
file be backed up again. (Owners of symbolic links, times of links and devices are not looked at.) -/
theorem equal_unchanged_partial (c : Cfg) {index : List Bytes} {old new : Stat} (hi : C23.PathIndex index) (hs : C23.Proper old)
    (hx : ¬ SpecialForEmpty old new)
    (sha1 : Option Bytes) (hsha : ∀ d, sha1 = some d → Value d ∧ d ≠ lit ":" ∧ d ≠ lit "None") {record : Bytes} {r' : Rorp}
    (h1 : objectToRecord c.hardlinks { fromStat index old with sha1 := sha1 } = some record) (h2 : recordToObject record = some r')
    (heq : Rorp.eqv c (fromStat index new) r' = true) :
    new.type = old.type ∧ new.perms = old.perms ∧
    (new.type ≠ .sym → new.uid = old.uid ∧ new.gid = old.gid) ∧
    (new.type ≠ .sym → ∀ n, old.uname = some n → new.uname = some n) ∧
    (new.type ≠ .sym → ∀ n, old.gname = some n → new.gname = some n) ∧
    (new.type ≠ .sym → new.type ≠ .dev → new.mtime = old.mtime) ∧
    (new.type = .reg → new.size = old.size) ∧
    (new.type = .sym → new.linkname = old.linkname) ∧
    (new.type = .dev → new.devnums = old.devnums) ∧
    (new.type = .reg → new.nlink ≠ 1 → c.compareInode = true → c.hardlinks = true →
      1 < old.nlink ∧ new.inode = old.inode ∧ new.devloc = old.devloc) := by
  have hst : Storable { fromStat index old with sha1 := sha1 } :=
    { C23.storable_fromStat hi hs with sha1 := hsha }
  obtain ⟨record', h1', h2'⟩ := C23.roundtrip c.hardlinks hst
  rw [h1] at h1'
  obtain rfl := Option.some.inj h1'
  rw [h2] at h2'
  obtain rfl := Option.some.inj h2'
  clear h1 h2
  have hu := C23.keptName_proper hs.uname
  have hg := C23.keptName_proper hs.gname
  have hname : ∀ n m : Option Bytes, (∀ x, m = some x → x ≠ [] ∧ x ≠ lit ":" ∧ x ≠ lit "None" ∧ (10 : UInt8) ∉ x) →
      sameName (some n) (some m) = true → ∀ x, m = some x → n = some x := by
    intro n m hm h x hx
    subst hx
    obtain ⟨a, -, b, -⟩ := hm x rfl
    simp [sameName, a, b] at h
    exact h.symm
  have hun := hname new.uname old.uname hs.uname
  have hgn := hname new.gname old.gname hs.gname
  unfold SpecialForEmpty at hx
  cases hty : new.type <;> cases hty' : old.type <;>
    simp [Rorp.eqv, kept, fromStat, hty, hty', sameKey, hu, hg] at heq hx ⊢ <;> grind

example : ∃ record r', objectToRecord true { fromStat C23.demoIndex C23.demoStat with sha1 := none } = some record ∧
    recordToObject record = some r' ∧ Rorp.eqv ⟨true, true⟩ (fromStat C23.demoIndex C23.demoStat) r' = true ∧
    ¬ SpecialForEmpty C23.demoStat C23.demoStat := by
  obtain ⟨record, r', h1, h2, h3⟩ := C47.unchanged_equal ⟨true, true⟩ C23.demo_index C23.demo_proper (by decide) none (by simp)
  exact ⟨record, r', h1, h2, h3, by unfold SpecialForEmpty; decide⟩

/-- Finding F15: an empty regular file which has been replaced by a named pipe with the same times, permissions and owner compares
equal to its record and is not backed up again. -/
theorem fifo_undetected (c : Cfg) :
    ∃ old new record r', C23.Proper old ∧ C23.Proper new ∧ old.type = .reg ∧ new.type = .fifo ∧
      objectToRecord c.hardlinks (fromStat [lit "a"] old) = some record ∧ recordToObject record = some r' ∧
      Rorp.eqv c (fromStat [lit "a"] new) r' = true := by
  refine ⟨{ C23.demoStat with size := 0, nlink := 1 }, { C23.demoStat with size := 0, nlink := 1, type := .fifo }, ?_⟩
  have hp : C23.Proper { C23.demoStat with size := 0, nlink := 1 } := { C23.demo_proper with linkname := by decide, devnums := by decide }
  have hp' : C23.Proper { C23.demoStat with size := 0, nlink := 1, type := .fifo } :=
    { C23.demo_proper with linkname := by decide, devnums := by decide }
  obtain ⟨record, h1, h2⟩ := C23.roundtrip c.hardlinks (C23.storable_fromStat (index := [lit "a"]) (by unfold C23.PathIndex; decide) hp)
  refine ⟨record, _, hp, hp', rfl, rfl, h1, h2, ?_⟩
  rcases c with ⟨i, h⟩
  cases i <;> cases h <;> decide

end Verif.C48
