/-
What is left after a power failure. One path of the mirror which is not a directory: `src/rdiffbackup/locations/_repo_shadow.py` (RS) 2744-2783 `fast_process_file` of the increment
writer with `increment.py` (INC) 129-155 `make_increment` and 213-280; RS 3308-3320 `fast_process_file` and 3370-3402 `_restore_orig_regfile` of the regress, RS 3000-3049 `get_restore_fp`;
`src/rdiff_backup/rpath.py` (RP) 1156-1209 `fsync`, `fsync_with_dir`, 218-280 `equal_loose`.

The file system: what has been done is seen at once by every program; on the disk is what was synchronised, and of all which was done later any part: each name has one of the values it
had since its directory was synchronised last, each file any data if it was written since it was synchronised last, and one of the attributes it had since. Left out: errors of the
system, hard links, the permissions changed to read a file (INC 264-276), several temporary files with the same name. Directories and the data directory are the matter of other claims (C04-C06).
-/
namespace Verif.Power

/-- the names which matter: of the file in the mirror, of its new increment, and of temporary files (RP 1062-1088; in the directory of the mirror) -/
inductive Name where
  | mir
  | inc
  | tmp (k : Nat)
deriving DecidableEq

/-- the type of a file; for increments the one which its name tells (INC 186-210). Others than regular files and increments: `spec`. -/
inductive Kind (S : Type) where
  | reg
  | spec (s : S)
  | missing
  | snap
  | diff
deriving DecidableEq

variable {C A S H : Type}

/-- the file system, as programs see it, and what it may be after a power failure -/
structure St (C A S : Type) where
  ent : Name → Option Nat
  mayEnt : Name → Option Nat → Prop
  kind : Nat → Kind S
  data : Nat → C
  mayData : Nat → C → Prop
  attr : Nat → A
  mayAttr : Nat → A → Prop
  next : Nat

/-- settings: `--fsync`, `generics.fsync_directories`; and whether the file system writes the data of a file before it is renamed (which POSIX doesn't ask for) -/
structure Opts where
  fsync : Bool
  syncDirs : Bool
  flush : Bool

/-- data: empty, its size, its hash, the delta which makes one content from another, and applying it; the attributes of a new file -/
structure Env (C A S H : Type) where
  empty : C
  size : C → Nat
  sha : C → H
  delta : C → C → C
  patch : C → C → C
  fresh : Name → A
  /-- special files without data of their own (fifos, sockets) -/
  plain : S → Bool

/-- system calls -/
inductive Op (C A S : Type) where
  | mk (n : Name) (k : Kind S)
  | wr (n : Name) (c : C)
  | at (n : Name) (a : A)
  | sync (n : Name)
  | syncDir (n : Name)
  | mv (a b : Name)
  | rm (n : Name)
  | syncAll

/-- in the same directory: all but the increment -/
def sameDir (a b : Name) : Bool := (a = .inc) = (b = .inc)

/-- a function changed in one place -/
def upd {I V : Type} [DecidableEq I] (f : I → V) (i : I) (v : V) : I → V := fun j => if j = i then v else f j

/-- what a system call does -/
def step (o : Opts) (e : Env C A S H) (s : St C A S) : Op C A S → St C A S
  | .mk n k =>
      { ent := upd s.ent n (some s.next)
        mayEnt := upd s.mayEnt n fun x => s.mayEnt n x ∨ x = some s.next
        kind := upd s.kind s.next k
        data := upd s.data s.next e.empty
        mayData := upd s.mayData s.next (· = e.empty)
        attr := upd s.attr s.next (e.fresh n)
        mayAttr := upd s.mayAttr s.next (· = e.fresh n)
        next := s.next + 1 }
  | .wr n c =>
      match s.ent n with
      | none => s
      | some i => { s with data := upd s.data i c, mayData := upd s.mayData i fun _ => True }
  | .at n a =>
      match s.ent n with
      | none => s
      | some i => { s with attr := upd s.attr i a, mayAttr := upd s.mayAttr i fun x => s.mayAttr i x ∨ x = a }
  | .sync n =>
      match s.ent n with
      | none => s
      | some i => { s with mayData := upd s.mayData i (· = s.data i), mayAttr := upd s.mayAttr i (· = s.attr i) }
  | .syncDir n => { s with mayEnt := fun m => if sameDir n m then (· = s.ent m) else s.mayEnt m }
  | .mv a b =>
      match s.ent a with
      | none => s
      | some i =>
          { s with
            ent := upd (upd s.ent b (some i)) a none
            mayEnt := upd (upd s.mayEnt b fun x => s.mayEnt b x ∨ x = some i) a fun x => s.mayEnt a x ∨ x = none
            mayData := if o.flush then upd s.mayData i (· = s.data i) else s.mayData }
  | .rm n => { s with ent := upd s.ent n none, mayEnt := upd s.mayEnt n fun x => s.mayEnt n x ∨ x = none }
  | .syncAll => { s with mayEnt := fun n x => x = s.ent n, mayData := fun i x => x = s.data i, mayAttr := fun i x => x = s.attr i }

def run (o : Opts) (e : Env C A S H) (s : St C A S) (ops : List (Op C A S)) : St C A S := ops.foldl (step o e) s

/-- what is on the disk is what programs see -/
structure Durable (s : St C A S) : Prop where
  ent : ∀ n x, s.mayEnt n x ↔ x = s.ent n
  data : ∀ i x, s.mayData i x ↔ x = s.data i
  attr : ∀ i x, s.mayAttr i x ↔ x = s.attr i

/-- a power failure: afterwards programs see what was on the disk -/
structure Fail (s s' : St C A S) : Prop where
  ent : ∀ n, s.mayEnt n (s'.ent n)
  data : ∀ i, s.mayData i (s'.data i)
  attr : ∀ i, s.mayAttr i (s'.attr i)
  kind : s'.kind = s.kind
  next : s'.next = s.next
  durable : Durable s'

/-! ### The program -/

/-- a file in the source or the mirror -/
inductive File (C A S : Type) where
  | reg (c : C) (a : A)
  | spec (s : S) (a : A)

/-- RP 1205-1209 `fsync_with_dir` -/
def fsyncWithDir (o : Opts) (n : Name) : List (Op C A S) :=
  (if o.fsync then [.sync n] else []) ++ (if o.syncDirs && o.fsync then [.syncDir n] else [])

/-- RP 1156-1167 `fsync` of the directory, if `fsync_directories` -/
def fsyncParent (o : Opts) (n : Name) : List (Op C A S) := if o.syncDirs && o.fsync then [.syncDir n] else []

/-- RS 2566-2690 `_patch_to_temp`: the new file under a temporary name -/
def tempOps (n : Name) : File C A S → List (Op C A S)
  | .reg c a => [.mk n .reg, .wr n c, .at n a]
  | .spec s a => [.mk n (.spec s), .at n a]

/-- INC 129-155 `make_increment`, 213-280, and RS 2764-2765: the increment, synchronised if it's a regular file -/
def incOps (o : Opts) (e : Env C A S H) (old new : Option (File C A S)) : List (Op C A S) :=
  match old, new with
  | none, _ => [.mk .inc .missing] ++ fsyncWithDir o .inc
  | some (.reg c a), some (.reg c' _) => [.mk .inc .diff, .wr .inc (e.delta c' c), .at .inc a] ++ fsyncWithDir o .inc
  | some (.reg c a), _ => [.mk .inc .snap, .wr .inc c, .at .inc a] ++ fsyncWithDir o .inc
  | some (.spec s a), _ => [.mk .inc (.spec s), .at .inc a]

/-- RS 2744-2783: one file which has changed (`new = none`: it isn't there any more) -/
def backupOps (o : Opts) (e : Env C A S H) (old new : Option (File C A S)) (k : Nat) : List (Op C A S) :=
  (match new with
    | some f => tempOps (.tmp k) f
    | none => []) ++
  incOps o e old new ++
  (match new with
    | some _ => [.mv (.tmp k) .mir]
    | none => if old.isSome then [.rm .mir] else [])

/-- RS 2751-2754: only the attributes have changed -/
def touchOps (a : A) : List (Op C A S) := [.at .mir a]

/-- what the metadata of the last good backup says -/
inductive Meta (A S H : Type) where
  | none
  | reg (size : Nat) (sha : Option H) (a : A)
  | spec (s : S) (a : A)

/-- the metadata of a file, with or without a hash -/
def metaOf (e : Env C A S H) (hasSha : Bool) : Option (File C A S) → Meta A S H
  | none => .none
  | some (.reg c a) => .reg (e.size c) (if hasSha then some (e.sha c) else none) a
  | some (.spec s a) => .spec s a

variable [DecidableEq A] [DecidableEq S] [DecidableEq H]

/-- RP 218-280 `equal_loose` (`self` is the metadata). A special file may be an empty regular file. -/
def looks (e : Env C A S H) (m : Meta A S H) (f : Option (Kind S × C × A)) : Bool :=
  match m, f with
  | .none, none => true
  | .reg sz _ a, some (.reg, c, a') => e.size c = sz && a' = a
  | .spec s a, some (.spec s', _, a') => s' = s && a' = a
  | .spec s a, some (.reg, c, a') => e.plain s && e.size c = 0 && a' = a
  | _, _ => false

/-- what is at a name -/
def fileAt (s : St C A S) (n : Name) : Option (Kind S × C × A) := (s.ent n).map fun i => (s.kind i, s.data i, s.attr i)

/-- RS 3000-3049 `get_restore_fp`, with the increments of the failed backup only (2930-2960): the snapshot, or the mirror with the diff, or the mirror -/
def restoreFp (e : Env C A S H) (s : St C A S) : C :=
  match fileAt s .inc, fileAt s .mir with
  | some (.snap, c, _), _ => c
  | some (.diff, d, _), some (.reg, c, _) => e.patch c d
  | none, some (.reg, c, _) => c
  | _, _ => e.empty

/-- RS 3370-3402 `_restore_orig_regfile` -/
def restoreRegOps (o : Opts) (e : Env C A S H) (s : St C A S) (k : Nat) (size : Nat) (sha : Option H) (a : A) : List (Op C A S) :=
  match fileAt s .mir with
  | some (.reg, c, _) =>
      (if e.size c = size ∧ sha = some (e.sha c) then [.at .mir a]
      else [.mk (.tmp k) .reg, .wr (.tmp k) (restoreFp e s)] ++ fsyncWithDir o (.tmp k) ++ [.at (.tmp k) a, .mv (.tmp k) .mir]) ++ fsyncParent o .mir
  | some _ => [.rm .mir, .mk .mir .reg, .wr .mir (restoreFp e s), .at .mir a] ++ fsyncParent o .mir
  | none => [.mk .mir .reg, .wr .mir (restoreFp e s), .at .mir a] ++ fsyncParent o .mir

/-- RS 3308-3320 `fast_process_file` of the regress -/
def regressOps (o : Opts) (e : Env C A S H) (m : Meta A S H) (s : St C A S) (k : Nat) : List (Op C A S) :=
  (if looks e m (fileAt s .mir) then []
  else match m with
    | .reg size sha a => restoreRegOps o e s k size sha a
    | .none => if (s.ent .mir).isSome then [.rm .mir] else []
    | .spec x a => (if (s.ent .mir).isSome then [.rm .mir] else []) ++ [.mk .mir (.spec x), .at .mir a]) ++
  (if (s.ent .inc).isSome then [.rm .inc] else [])

end Verif.Power
