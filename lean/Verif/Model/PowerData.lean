/-
What is left of the data directory after a power failure: the markers of the state of the repository and the main metadata files. `src/rdiffbackup/locations/_repo_shadow.py` (RS) 655-677
`touch_current_mirror`, 680-700 `remove_current_mirror`, 1637-1689 `needs_regress`, 1691-1723 `regress`, 1866-1903 `_regress_rbdir`, 2317-2325; `src/rdiffbackup/actions/backup.py` (BA) 127-156
`_operate_backup`; `src/rdiffbackup/meta_mgr.py` (MM) 116-148 `recreate_attr`, 269-286 `convert_meta_main_to_diff`, 325-373; `src/rdiffbackup/meta/__init__.py` 278-291 `close`.

The file system is the one of `Power.lean`, with one directory for all these files. The mirror with the increments is one value; what becomes of each file is the matter of `Power.lean`.
Backups are numbered 0, 1, ...; other metadata files, statistics and logs are left out, and errors of the system.
-/
namespace Verif.PowerData

/-- the names which matter: the markers `current_mirror.T.data`, the metadata files `mirror_metadata.T.snapshot.gz` and `mirror_metadata.T.diff.gz`, and temporary files -/
inductive Name where
  | cm (t : Nat)
  | sn (t : Nat)
  | df (t : Nat)
  | tmp (k : Nat)
deriving DecidableEq

variable {C M : Type}

/-- the file system, as programs see it, and what it may be after a power failure -/
structure St (C M : Type) where
  ent : Name → Option Nat
  mayEnt : Name → Option Nat → Prop
  data : Nat → C
  mayData : Nat → C → Prop
  mir : M
  mayMir : M → Prop
  next : Nat

/-- settings: `--fsync`, `generics.fsync_directories`, and whether metadata are replaced by differences (not if the chain is long, MM 299-323) -/
structure Opts where
  fsync : Bool
  syncDirs : Bool
  diffs : Bool

/-- contents: empty, the differences which lead from the newer metadata back to the older ones (MM 288-297), and applying them (MM 358-373) -/
structure Env (C : Type) where
  empty : C
  delta : C → C → C
  patch : C → C → C

/-- system calls; `work`: any number of changes of the mirror and the increments, the last of which leads to `m` -/
inductive Op (C M : Type) where
  | mk (n : Name)
  | wr (n : Name) (c : C)
  | sync (n : Name)
  | syncDir
  | mv (a b : Name)
  | rm (n : Name)
  | work (m : M)
  | syncAll

/-- a function changed in one place -/
def upd {I V : Type} [DecidableEq I] (f : I → V) (i : I) (v : V) : I → V := fun j => if j = i then v else f j

/-- what a system call does -/
def step (e : Env C) (s : St C M) : Op C M → St C M
  | .mk n =>
      { s with
        ent := upd s.ent n (some s.next)
        mayEnt := upd s.mayEnt n fun x => s.mayEnt n x ∨ x = some s.next
        data := upd s.data s.next e.empty
        mayData := upd s.mayData s.next (· = e.empty)
        next := s.next + 1 }
  | .wr n c =>
      match s.ent n with
      | none => s
      | some i => { s with data := upd s.data i c, mayData := upd s.mayData i fun _ => True }
  | .sync n =>
      match s.ent n with
      | none => s
      | some i => { s with mayData := upd s.mayData i (· = s.data i) }
  | .syncDir => { s with mayEnt := fun n x => x = s.ent n }
  | .mv a b =>
      match s.ent a with
      | none => s
      | some i =>
          { s with
            ent := upd (upd s.ent b (some i)) a none
            mayEnt := upd (upd s.mayEnt b fun x => s.mayEnt b x ∨ x = some i) a fun x => s.mayEnt a x ∨ x = none }
  | .rm n => { s with ent := upd s.ent n none, mayEnt := upd s.mayEnt n fun x => s.mayEnt n x ∨ x = none }
  | .work m => { s with mir := m, mayMir := fun _ => True }
  | .syncAll => { s with mayEnt := fun n x => x = s.ent n, mayData := fun i x => x = s.data i, mayMir := fun x => x = s.mir }

def run (e : Env C) (s : St C M) (ops : List (Op C M)) : St C M := ops.foldl (step e) s

/-- what is on the disk is what programs see -/
structure Durable (s : St C M) : Prop where
  ent : ∀ n x, s.mayEnt n x ↔ x = s.ent n
  data : ∀ i x, s.mayData i x ↔ x = s.data i
  mir : ∀ x, s.mayMir x ↔ x = s.mir

/-- a power failure: afterwards programs see what was on the disk -/
structure Fail (s s' : St C M) : Prop where
  ent : ∀ n, s.mayEnt n (s'.ent n)
  data : ∀ i, s.mayData i (s'.data i)
  mir : s.mayMir s'.mir
  next : s'.next = s.next
  durable : Durable s'

/-! ### The program -/

/-- the content of a file -/
def content (s : St C M) (n : Name) : Option C := (s.ent n).map s.data

/-- `src/rdiff_backup/rpath.py` 1205-1209 `fsync_with_dir` -/
def fsyncWithDir (o : Opts) (n : Name) : List (Op C M) :=
  (if o.fsync then [.sync n] else []) ++ (if o.syncDirs && o.fsync then [.syncDir] else [])

/-- RS 655-677 `touch_current_mirror` (the content of a marker is not needed) -/
def touchMarker (o : Opts) (t : Nat) : List (Op C M) := [.mk (.cm t)] ++ fsyncWithDir o (.cm t)

/-- a metadata file is written and closed -/
def writeMeta (o : Opts) (n : Name) (c : C) : List (Op C M) := [.mk n, .wr n c] ++ fsyncWithDir o n

/-- BA 141-153 with RS 2317-2325, MM 269-286 and RS 680-700: the backup after backup `t`, with the metadata `c` and the mirror `m` -/
def backupOps (o : Opts) (e : Env C) (t : Nat) (s : St C M) (c : C) (m : M) : List (Op C M) :=
  touchMarker o (t + 1) ++ [.mk (.sn (t + 1)), .work m, .wr (.sn (t + 1)) c] ++ fsyncWithDir o (.sn (t + 1)) ++
  (if o.diffs then writeMeta o (.df t) (e.delta c ((content s (.sn t)).getD e.empty)) ++ [.rm (.sn t)] else []) ++
  (if o.fsync then [.syncAll] else []) ++ [.rm (.cm t)]

/-- BA 141-155: the first backup: only the marker is synchronised -/
def firstOps (o : Opts) (c : C) (m : M) : List (Op C M) :=
  [.mk (.sn 0), .work m, .wr (.sn 0) c] ++ fsyncWithDir o (.sn 0) ++ touchMarker o 0

/-- MM 325-373 `_get_meta_main_at_time`: the metadata of backup `u`, with `n` newer backups: a snapshot, or what the differences make of the next ones -/
def readMeta (e : Env C) (s : St C M) : Nat → Nat → Option C
  | 0, u => content s (.sn u)
  | n + 1, u =>
      match content s (.sn u) with
      | some c => some c
      | none =>
          match content s (.df u), readMeta e s n (u + 1) with
          | some d, some b => some (e.patch b d)
          | _, _ => none

/-- RS 1710-1722 `regress` and 1866-1903 `_regress_rbdir` to backup `t`, whose mirror was `m`. (How the mirror is restored from the metadata: `Power.lean`, `Regress.lean`.) -/
def regressOps (o : Opts) (e : Env C) (t : Nat) (s : St C M) (k : Nat) (m : M) : List (Op C M) :=
  (if (s.ent (.df t)).isSome && (s.ent (.sn t)).isNone then
    writeMeta o (.tmp k) ((readMeta e s 1 t).getD e.empty) ++ [.mv (.tmp k) (.sn t)] ++ (if o.syncDirs && o.fsync then [.syncDir] else [])
  else []) ++
  (if (s.ent (.sn (t + 1))).isSome then [.rm (.sn (t + 1))] else []) ++
  (if (s.ent (.df t)).isSome then [.rm (.df t)] else []) ++
  [.work m] ++ (if o.fsync then [.syncAll] else []) ++ [.rm (.cm (t + 1))]

end Verif.PowerData
