import Verif.Model.Hardlinks
/-
Backups of files with hard links: contents, attributes, increments and metadata, on a file system with inodes.

`src/rdiffbackup/locations/_repo_shadow.py` (RS) 567-616, 2421-2455, 2506-2535, 2565-2700, 2742-2780; `map/hardlinks.py`;
`src/rdiff_backup/rpath.py`; the decisions are those of `Verif.Hardlinks`.

Simplifications: all paths are of files which are not directories (`I`: the paths), in directories which are there; contents are values: that
deltas and increments give back the contents is C36 and C50 and C01. Interruptions are in C04. `A`: attributes, `C`: contents (or what other
files are instead), `K`: pairs of inode and device, `D`: digests.
-/
namespace Verif.Linked
open Verif.Hardlinks (Decision Rorp Run)
variable {I K A C D : Type} [DecidableEq I] [DecidableEq K] [DecidableEq A] [DecidableEq C] [DecidableEq D]

/-- a file which is not a directory -/
structure File (A C : Type) where
  reg : Bool
  attr : A
  data : C
  deriving DecidableEq

/-- a file in the source: rpath.py 1699-1750 `get_rpath_data` -/
structure Src (K A C : Type) where
  file : File A C
  nlink : Nat
  key : Option K
  deriving DecidableEq

/-- what the metadata say about a file: meta/stdattr.py 153-228 (size and digest of a regular file, number of links and inode if there are several;
the target of a symbolic link, the numbers of a device) -/
structure Rec (K A C D : Type) where
  reg : Bool
  attr : A
  size : Nat
  target : Option C
  nlink : Nat
  key : Option K
  sha1 : Option D
  deriving DecidableEq

structure Ops (C D : Type) where
  size : C → Nat
  hash : C → D
  /-- the content of a new file -/
  empty : C

/-- the metadata of a source file: meta/stdattr.py 153-228 -/
def recOf (o : Ops C D) (s : Src K A C) (sha1 : Option D) : Rec K A C D :=
  ⟨s.file.reg, s.file.attr, if s.file.reg then o.size s.file.data else 0, if s.file.reg then none else some s.file.data,
    if s.file.reg then s.nlink else 1, if s.file.reg && decide (2 ≤ s.nlink) then s.key else none, sha1⟩

/-- rpath.py 132-171 `RORPath.__eq__` of the source file and the metadata, with the default of the option `compare_inode`; special files which
could not be created (C48) are not modelled -/
def sameAs (o : Ops C D) (s : Src K A C) (r : Rec K A C D) : Bool :=
  s.file.reg = r.reg && s.file.attr = r.attr &&
    if s.file.reg then decide (o.size s.file.data = r.size) && (decide (s.nlink < 2) || decide (r.key = s.key)) else decide (r.target = some s.file.data)

/-- rpath.py 218-280 `equal_loose` of the source file and a regular file in the mirror -/
def looksLike (o : Ops C D) (s : Src K A C) (f : File A C) : Bool :=
  s.file.reg = f.reg && s.file.attr = f.attr && decide (o.size s.file.data = o.size f.data)

/-! ### a file system with inodes -/

/-- `ino`: the directory entries; inode numbers below `next` are in use -/
structure FS (I A C : Type) where
  ino : I → Option Nat
  node : Nat → File A C
  next : Nat

/-- the file at a path -/
def FS.file (fs : FS I A C) (i : I) : Option (File A C) := (fs.ino i).map fs.node

/-- the entry `i` is from now on `n` (`os.rename`, `os.link`, `os.unlink`) -/
def FS.setEntry (fs : FS I A C) (i : I) (n : Option Nat) : FS I A C := { fs with ino := Hardlinks.set fs.ino i n }

/-- a new file is renamed to `i` -/
def FS.create (fs : FS I A C) (i : I) (f : File A C) : FS I A C :=
  ⟨Hardlinks.set fs.ino i (some fs.next), fun n => if n = fs.next then f else fs.node n, fs.next + 1⟩

/-- rpath.py 1514-1556 `copy_attribs` to a file which is there: all its links are affected -/
def FS.chattr (fs : FS I A C) (n : Nat) (a : A) : FS I A C :=
  { fs with node := fun m => if m = n then { fs.node m with attr := a } else fs.node m }

/-! ### patching one file -/

/-- what becomes of the transfer of a file: all right; an error on the side of the repository, or the file changes meanwhile (robust.py 95-117
`check_common_error`, RS 2656-2676 `_matches_cached_rorp`); the source can't be opened (`_dir_shadow.py` 116-138) -/
inductive Transfer where
  | ok
  | failed
  | unreadable
  deriving DecidableEq

/-- the success flag in the cache: RS 2211-2215, 2240-2260 -/
inductive Flag where
  | none
  | updated
  | deleted
  deriving DecidableEq

/-- `inc`: an increment with the old contents has been made; `err`: an error has been logged; `sha1`: the digest set in the source's rorp -/
structure Done (I A C D : Type) where
  fs : FS I A C
  flag : Flag
  sha1 : Option D := none
  inc : Bool := false
  err : Bool := false

/-- nothing done because of an error: RS 2506-2535, 2742-2780 with the result FAILED -/
def failure (fs : FS I A C) : Done I A C D := ⟨fs, .none, none, false, true⟩

/-- RS 2605-2614 `_patch_hardlink_to_temp`, hardlinks.py 182-208 `link_rp`: the file becomes a link to `j`. If it is one already, only its attributes are set
(RS 2514-2516); otherwise the file linked to must look like the source (RS 2656-2676). If `j` is not there, an empty file is made. The
digest of the group (RS 2301-2308) is never there, as sources have none when they are added (hardlinks.py 66-68). -/
def linkTo (o : Ops C D) (stamp : A) (fs : FS I A C) (i j : I) (s : Src K A C) : Done I A C D :=
  match fs.ino j with
  | some n =>
    if fs.ino i = some n then ⟨fs.chattr n s.file.attr, .updated, none, false, false⟩
    else if looksLike o s (fs.node n) then ⟨fs.setEntry i (some n), .updated, none, true, false⟩
    else failure fs
  | none => if looksLike o s ⟨true, stamp, o.empty⟩ then ⟨fs.create i ⟨true, stamp, o.empty⟩, .updated, none, true, false⟩ else failure fs

/-- RS 2577-2580, 2626-2654 and 2282-2299 `update_hash`: the file is transferred. If its digest is the one recorded for the mirror's file, only the
attributes are set. -/
def replace (o : Ops C D) (fs : FS I A C) (i : I) (s : Src K A C) (dest : Option (Rec K A C D)) : Done I A C D :=
  if s.file.reg then
    if dest.any (fun r => r.reg && decide (r.sha1 = some (o.hash s.file.data))) then
      match fs.ino i with
      | some n => ⟨fs.chattr n s.file.attr, .updated, some (o.hash s.file.data), false, false⟩
      | none => failure fs
    else ⟨fs.create i s.file, .updated, some (o.hash s.file.data), true, false⟩
  else ⟨fs.create i s.file, .updated, none, true, false⟩

/-- the file is deleted: RS 2522-2524, 2769-2771 -/
def remove (fs : FS I A C) (i : I) (err : Bool) : Done I A C D :=
  match fs.ino i with
  | some _ => ⟨fs.setEntry i none, .deleted, none, true, err⟩
  | none => ⟨fs, .none, none, true, err⟩

/-- RS 2506-2535 and 2742-2780 `fast_process_file` -/
def patch (o : Ops C D) (stamp : A) (fs : FS I A C) (i : I) (src : Option (Src K A C)) (dest : Option (Rec K A C D)) (x : Decision I) (tr : Transfer) :
    Done I A C D :=
  match x, src with
  | .keep, _ => ⟨fs, .none, none, false, false⟩
  | _, none => remove fs i false
  | .link j, some s => if tr = .failed then failure fs else linkTo o stamp fs i j s
  | .replace, some s =>
    match tr with
    | .ok => replace o fs i s dest
    | .failed => failure fs
    | .unreadable => if s.file.reg then remove fs i true else replace o fs i s dest

/-- RS 2421-2455 `_post_process`: the metadata which are written -/
def newRec (o : Ops C D) (src : Option (Src K A C)) (dest : Option (Rec K A C D)) (p : Done I A C D) : Option (Rec K A C D) :=
  match p.flag with
  | .none => dest
  | .updated => src.map (recOf o · p.sha1)
  | .deleted => none

/-! ### a backup -/

/-- a repository: the mirror, the metadata of all backups (newest first), for each path the increments (newest first; `none`: missing) -/
structure State (I K A C D : Type) where
  fs : FS I A C
  metas : List (Nat × (I → Option (Rec K A C D)))
  incs : I → List (Nat × Option (File A C))

/-- a backup: its time, the source, how the transfers end, the attributes of new files, and the paths in order -/
structure Sess (I K A C : Type) where
  now : Nat
  src : I → Option (Src K A C)
  transfer : I → Transfer
  stamp : A
  order : List I

/-- the metadata of the last backup -/
def State.recs (st : State I K A C D) : I → Option (Rec K A C D) := (st.metas.head?.map (·.2)).getD fun _ => none

/-- rorps of the source, as far as hardlinks.py looks at them -/
def rorpSrc (i : I) (s : Src K A C) : Rorp I K D := ⟨i, s.file.reg, s.nlink, s.key, none⟩
/-- rorps of the metadata -/
def rorpRec (i : I) (r : Rec K A C D) : Rorp I K D := ⟨i, r.reg, r.nlink, r.key, r.sha1⟩

/-- RS 559-560: a pair of the collated iterator -/
def pairOf (o : Ops C D) (src : I → Option (Src K A C)) (recs : I → Option (Rec K A C D)) (i : I) : Hardlinks.Pair I K D :=
  ⟨(src i).map (rorpSrc i), (recs i).map (rorpRec i), match src i, recs i with
    | some s, some r => sameAs o s r
    | _, _ => false⟩

/-- during a backup -/
structure Work (I K A C D : Type) where
  fs : FS I A C
  recs : I → Option (Rec K A C D)
  incs : I → List (Nat × Option (File A C))
  errs : List I

/-- a path is patched and post-processed: RS 2506-2535 (first backup) or 2742-2780, and 2421-2455. `h`: the digest in the metadata of the mirror's
file, which may come from another link (hardlinks.py 62-65); `prev`: the time of the previous backup -/
def step (o : Ops C D) (prev : Option Nat) (s : Sess I K A C) (w : Work I K A C D) (i : I) (h : Option D) (x : Decision I) : Work I K A C D :=
  let dest := (w.recs i).map fun r => { r with sha1 := h }
  let p := patch o s.stamp w.fs i (s.src i) dest x (s.transfer i)
  ⟨p.fs, Hardlinks.set w.recs i (newRec o (s.src i) dest p),
    match prev with
    | some t => if p.inc then fun j => if j = i then (t, w.fs.file i) :: w.incs i else w.incs j else w.incs
    | none => w.incs,
    if p.err then i :: w.errs else w.errs⟩

/-- all paths -/
def steps (o : Ops C D) (prev : Option Nat) (s : Sess I K A C) : Work I K A C D → List (I × Option D × Decision I) → Work I K A C D
  | w, [] => w
  | w, (i, h, x) :: l => steps o prev s (step o prev s w i h x) l

/-- the digest in the metadata of a pair -/
def digest (p : Hardlinks.Pair I K D) : Option D := p.dest.bind (·.sha1)

/-- A backup, with any order in which files are seen, decided about and post-processed (`Run`): the state afterwards and the errors logged.
Patches are applied in order (RS 278-295). -/
def Session (o : Ops C D) (st : State I K A C D) (s : Sess I K A C) (st' : State I K A C D) (errs : List I) : Prop :=
  ∃ ps a d t out w, Run (s.order.map (pairOf o s.src st.recs)) ps a s.order.length d t out ∧
    w = steps o (st.metas.head?.map (·.1)) s ⟨st.fs, st.recs, st.incs, []⟩ (s.order.zip ((ps.map digest).zip out)) ∧
    st' = ⟨w.fs, (s.now, w.recs) :: st.metas, w.incs⟩ ∧ errs = w.errs

/-! ### restoring a file -/

/-- the contents of the file at a time: the oldest increment which is not older, or the mirror (RS 2908-3172 `_RestoreFile`, C01, C57) -/
def State.contents (st : State I K A C D) (i : I) (t : Nat) : Option (File A C) :=
  match ((st.incs i).filter fun x => decide (t ≤ x.1)).getLast? with
  | some x => x.2
  | none => st.fs.file i

/-- Restoring a single file: the attributes are those of the metadata, the contents those found. -/
def State.restore (st : State I K A C D) (i : I) (t : Nat) : Option (File A C) :=
  match (st.metas.find? fun m => decide (m.1 = t)).bind (·.2 i) with
  | none => none
  | some r => match r.target with
    | some c => some ⟨r.reg, r.attr, c⟩
    | none => (st.contents i t).map fun f => ⟨r.reg, r.attr, f.data⟩

end Verif.Linked
