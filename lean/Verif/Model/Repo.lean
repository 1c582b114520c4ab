import Verif.Model.Collate
import Verif.Model.FillIn
import Verif.Model.TreeReducer
import Verif.Model.MetaChain
/-
Model of a repository (mirror, increments, metadata, markers) and of the incremental backup session:
`src/rdiffbackup/locations/_repo_shadow.py` (below: RS), `src/rdiffbackup/locations/increment.py`,
`src/rdiffbackup/actions/backup.py`.

A session is a list of atomic file system operations (`Step`).  Operations can fail, as the operating
system would make them fail (creating something in a missing directory, removing a non-empty directory ...).
Writing a file is never atomic: it is first there with arbitrary content ("junk"), then complete.
Creating, renaming or deleting something changes the attributes (the modification time) of the
directory it is in.

Simplifications: hard links, long names, ACLs/EAs and resource forks are not part of this model; special
files can always be created; the quoting of file names is C17; text formats are C23; reading errors of the
mirror abort the session.  Temporary files have one reserved name per directory.
Attributes are those that `RORPath.__eq__` compares.
-/
namespace Verif.Repo
open Verif.Collate Verif.FillIn Verif.TreeReducer Verif.MetaChain

variable {α A C S H Δ L : Type}

/-- What the code computes with file contents and attributes: size, SHA1 (`hash.py`), librsync's delta
and patch (`Rdiff.py`; taken by contract `patch_delta`), and the part of the attributes that
`RORPath.equal_loose` (`rpath.py` 218-270) looks at. -/
structure Ops (A C H Δ L : Type) where
  size : C → Nat
  sha : C → H
  /-- `delta basis new` -/
  delta : C → C → Δ
  patch : C → Δ → C
  patch_delta : ∀ b n, patch b (delta b n) = n
  loose : A → L

/-- A file of the source or of the mirror. `other`: symbolic links, fifos, sockets, devices. -/
inductive Node (A C S : Type) where
  | dir (a : A)
  | reg (a : A) (c : C)
  | other (a : A) (s : S)
  deriving DecidableEq

/-- `isdir` -/
def Node.isDir : Node A C S → Bool
  | .dir _ => true
  | _ => false

/-- `isreg` -/
def Node.isReg : Node A C S → Bool
  | .reg _ _ => true
  | _ => false

/-- the attributes apart from type and content -/
def Node.attr : Node A C S → A
  | .dir a => a
  | .reg a _ => a
  | .other a _ => a

/-- `rpath.copy_attribs` (`rpath.py`) -/
def Node.setAttr (n : Node A C S) (a : A) : Node A C S :=
  match n with
  | .dir _ => .dir a
  | .reg _ c => .reg a c
  | .other _ s => .other a s

/-- The metadata of a file as recorded (C23): attributes, size and SHA1 (if known). -/
inductive MRec (A S H : Type) where
  | dir (a : A)
  | reg (a : A) (size : Nat) (sha : Option H)
  | other (a : A) (s : S)
  deriving DecidableEq

/-- `isdir` of a metadata record -/
def MRec.isDir : MRec A S H → Bool
  | .dir _ => true
  | _ => false

/-- `isreg` of a metadata record -/
def MRec.isReg : MRec A S H → Bool
  | .reg _ _ _ => true
  | _ => false

/-- Directory contents: a finite map from paths. -/
abbrev Files (α V : Type) := List (List α × V)

variable [LinearOrder α] {V : Type}

/-- `lstat` of a path: the file there, if any -/
def get (m : Files α V) (i : List α) : Option V :=
  match m with
  | [] => none
  | (k, v) :: r => if k = i then some v else get r i

/-- a file made or replaced at a path -/
def put (m : Files α V) (i : List α) (v : V) : Files α V := (i, v) :: m.filter (fun x => x.1 ≠ i)

/-- the file at a path removed -/
def del (m : Files α V) (i : List α) : Files α V := m.filter (fun x => x.1 ≠ i)

/-- rmtree -/
def delTree (m : Files α V) (i : List α) : Files α V := m.filter (fun x => !(i.isPrefixOf x.1))

/-- `isdir` of a path -/
def isDirAt (m : Files α (Node A C S)) (i : List α) : Bool :=
  match get m i with
  | some (.dir _) => true
  | _ => false

/-- An increment, `increment.py` 129-154; see `_make_missing_increment` and following (213-290). -/
inductive Inc (A C S Δ : Type) where
  | missing
  | dir
  | snap (n : Node A C S)
  | diff (d : Δ)
  deriving DecidableEq

/-- A file `increments/<path>.<time>.<type>` -/
structure IncFile (α A C S Δ : Type) where
  idx : List α
  time : Nat
  inc : Inc A C S Δ

/-- A repository. `incdirs`: the directories under `increments/` (`[]` is `increments/` itself);
`marks`: the times of the `current_mirror` files. -/
structure State (α A C S H Δ : Type) where
  mirror : Files α (Node A C S)
  incs : List (IncFile α A C S Δ)
  incdirs : List (List α)
  metas : Dir (List α) (MRec A S H)
  marks : List Nat

/-- Atomic operations on the repository. -/
inductive Step (α A C S H Δ : Type) where
  | write (i : List α) (n : Node A C S)
  | rename (i j : List α)
  | delete (i : List α)
  | mkdir (i : List α)
  | rmdir (i : List α)
  | chattr (i : List α) (a : A)
  | mkIncDir (i : List α)
  | newInc (f : IncFile α A C S Δ)
  | fillInc (f : IncFile α A C S Δ)
  | delInc (i : List α) (t : Nat)
  | putMeta (f : MFile (List α) (MRec A S H))
  | delMeta (t : Nat) (snap : Bool)
  | mark (t : Nat)
  | unmark (t : Nat)

/-- the attributes of a directory change when something in it is created, renamed or deleted -/
def touch (stamp : A) (m : Files α (Node A C S)) (p : List α) : Files α (Node A C S) :=
  if isDirAt m p then put m p (.dir stamp) else m

/-- The effect of an operation; `none` if it is refused.  `stamp`: the attributes which new files get. -/
def apply (stamp : A) : Step α A C S H Δ → State α A C S H Δ → Option (State α A C S H Δ)
  | .write i n, st =>
    if i ≠ [] ∧ isDirAt st.mirror i.dropLast ∧ ¬ isDirAt st.mirror i ∧ n.isDir = false then
      let m := if (get st.mirror i).isNone then touch stamp st.mirror i.dropLast else st.mirror
      some { st with mirror := put m i n }
    else none
  | .rename i j, st =>
    match get st.mirror i with
    | none => none
    | some n =>
      if i ≠ [] ∧ j ≠ [] ∧ i ≠ j ∧ i.dropLast = j.dropLast ∧ n.isDir = false ∧ ¬ isDirAt st.mirror j then
        some { st with mirror := put (del (touch stamp st.mirror j.dropLast) i) j n }
      else none
  | .delete i, st =>
    if i ≠ [] ∧ (get st.mirror i).isSome then
      some { st with mirror := delTree (touch stamp st.mirror i.dropLast) i }
    else none
  | .mkdir i, st =>
    if i ≠ [] ∧ (get st.mirror i).isNone ∧ isDirAt st.mirror i.dropLast then
      some { st with mirror := put (touch stamp st.mirror i.dropLast) i (.dir stamp) }
    else none
  | .rmdir i, st =>
    if i ≠ [] ∧ isDirAt st.mirror i ∧ (∀ x ∈ st.mirror, i <+: x.1 → x.1 = i) then
      some { st with mirror := del (touch stamp st.mirror i.dropLast) i }
    else none
  | .chattr i a, st =>
    match get st.mirror i with
    | none => none
    | some n => some { st with mirror := put st.mirror i (n.setAttr a) }
  | .mkIncDir i, st =>
    if i ≠ [] ∧ i.dropLast ∈ st.incdirs ∧ i ∉ st.incdirs then
      some { st with incdirs := i :: st.incdirs } else none
  | .newInc f, st =>
    if (f.idx = [] ∨ f.idx.dropLast ∈ st.incdirs) ∧ (∀ g ∈ st.incs, ¬ (g.idx = f.idx ∧ g.time = f.time)) then
      some { st with incs := f :: st.incs } else none
  | .fillInc f, st =>
    some { st with incs := st.incs.map (fun g => if g.idx = f.idx ∧ g.time = f.time then f else g) }
  | .delInc i t, st =>
    some { st with incs := st.incs.filter (fun g => ¬ (g.idx = i ∧ g.time = t)) }
  | .putMeta f, st =>
    some { st with metas := f :: st.metas.filter (fun g => ¬ (g.time = f.time ∧ g.snap = f.snap)) }
  | .delMeta t s, st =>
    some { st with metas := st.metas.filter (fun g => ¬ (g.time = t ∧ g.snap = s)) }
  | .mark t, st => if t ∈ st.marks then none else some { st with marks := t :: st.marks }
  | .unmark t, st => some { st with marks := st.marks.filter (· ≠ t) }

/-- Run operations one after the other; `none` if one is refused. -/
def exec (stamp : A) : List (Step α A C S H Δ) → State α A C S H Δ → Option (State α A C S H Δ)
  | [], st => some st
  | s :: ss, st => (apply stamp s st).bind (exec stamp ss)

/-! ### The session -/

/-- Everything a session depends on besides the repository: the time, the source as delivered by the
selection (C26-C27), which transfers fail and for which no hash is reported, the
attributes of fresh files, the content of incompletely written files. -/
structure Sess (α A C S H Δ : Type) where
  now : Nat
  src : Files α (Node A C S)
  fails : List α → Bool
  nohash : List α → Bool
  stamp : A
  junk : List α → C
  junkInc : List α → Δ
  junkMeta : List (Rec (List α) (MRec A S H))
  /-- the reserved name of temporary files (`RPath.get_temp_rpath`) -/
  tmp : α

section
variable [DecidableEq A] [DecidableEq S] [DecidableEq H]
variable (o : Ops A C H Δ L)

/-- `src_rorp == dest_rorp`, `rpath.py` 132-171 (the SHA1 is never in `src_rorp`) -/
def eqMeta (n : Node A C S) (m : MRec A S H) : Bool :=
  match n, m with
  | .dir a, .dir a' => a = a'
  | .reg a c, .reg a' sz _ => a = a' && o.size c == sz
  | .other a s, .other a' s' => a = a' && s = s'
  | _, _ => false

/-- What a session sees: source and recorded metadata of the mirror (RS 526-565). -/
structure Ctx (α A C S H Δ : Type) where
  st : State α A C S H Δ
  s : Sess α A C S H Δ
  /-- time of the mirror, `none` for the first backup -/
  prev : Option Nat
  /-- destination rorps -/
  dest : List (Rec (List α) (MRec A S H))

variable (c : Ctx α A C S H Δ)

/-- `mirror_rp` (`self.basis_root_rp.new_index(index)`) RS 2503-2530, 2745-2790 -/
def Ctx.mirror (i : List α) : Option (Node A C S) := get c.st.mirror i
/-- the file in the source directory (_dir_shadow.py 58-75) -/
def Ctx.src (i : List α) : Option (Node A C S) := get c.s.src i

/-- `CCPP.get_mirror_rorp` RS 2284-2289 -/
def Ctx.dst (i : List α) : Option (MRec A S H) := (c.dest.find? (fun r => r.idx = i)).bind (·.data)

/-- index, source and destination of a collated pair (RS 2172-2193) -/
def rowPair : Option (List α × Node A C S) × Option (Rec (List α) (MRec A S H)) →
    Option (List α × Option (Node A C S) × Option (MRec A S H))
  | (some x, y) => some (x.1, some x.2, y.bind (·.data))
  | (none, some y) => some (y.idx, none, y.data)
  | (none, none) => none

/-- RS 547-565: collated source and destination, with the index of each pair -/
def Ctx.pairs : List (List α × Option (Node A C S) × Option (MRec A S H)) :=
  (collate2 Prod.fst Rec.idx c.s.src c.dest).filterMap rowPair

/-- RS 567-594 `_sigs_iterator`: is the pair different? -/
def changedPair : Option (Node A C S) → Option (MRec A S H) → Bool
  | some n, some m => !(eqMeta o n m)
  | _, _ => true

/-- the indices for which the source is asked for a diff -/
def Ctx.changed : List (List α) :=
  c.pairs.filterMap fun p => if changedPair o p.2.1 p.2.2 then some p.1 else none

/-- RS 273-295 `apply`: the diffs, with missing parent directories filled in (C14). -/
def Ctx.filled : List (Bool × List α) := fillIn (c.changed o)

/-- whether rorpiter.py 394-430 `FillInIter` made the directory up -/
def Ctx.isFiller (i : List α) : Bool := (c.filled o).contains (false, i)

/-- `lstat() and isdir()` -/
def isDirNode : Option (Node A C S) → Bool
  | some n => n.isDir
  | none => false

/-- `is not None and isdir()` -/
def isDirRec : Option (MRec A S H) → Bool
  | some n => n.isDir
  | none => false

/-- RS 2498-2501 `can_fast_process`; a filler is the directory on disk (rorpiter.py 394-434) -/
def Ctx.canFast (x : Bool × List α) : Bool :=
  if x.1 then !(isDirNode (c.src x.2) || isDirRec (c.dst x.2)) else !(isDirNode (c.mirror x.2))

/-- the calls made by the tree reducer (C13) -/
def Ctx.events : Option (List (Event α)) := run ((c.filled o).map fun x => (x.2, c.canFast x))

/-- `get_temp_rpath(sibling=True)` -/
def tmpOf (tmp : α) (i : List α) : List α := i.dropLast ++ [tmp]

/-- RS 2471-2475: results of `_patch_to_temp`; `tf` is what is in the temporary file, if anything -/
inductive Patched (A C S : Type) where
  | failed
  | unchanged (tf : Node A C S)
  | done (tf : Option (Node A C S))

/-- RS 2564-2668 `_patch_to_temp` with `_patch_snapshot_to_temp`, `_patch_diff_to_temp` and
`_matches_cached_rorp`; the diff sent for a regular file is a delta against the mirror file if that is
regular (`_dir_shadow.py` 110-167 `get_diffs`). -/
def Ctx.patch (i : List α) : Patched A C S :=
  match c.src i with
  | none => .done none
  | some (.dir _) => .failed
  | some (.other a s) => if c.s.fails i then .failed else .done (some (.other a s))
  | some (.reg a cont) =>
    if c.s.fails i then .failed else
    match c.dst i, c.mirror i with
    | some (.reg _ _ h), some (.reg _ old) =>
      let new := o.patch old (o.delta old cont)
      if c.s.nohash i = false ∧ h = some (o.sha new) then .unchanged (.reg a new)
      else if o.size new = o.size cont then .done (some (.reg a new)) else .failed
    | _, _ => .done (some (.reg a cont))

/-- writing the temporary file -/
def Ctx.writeTmp (i : List α) : Option (Node A C S) → List (Step α A C S H Δ)
  | none => []
  | some tf => [.write (tmpOf c.s.tmp i) (.reg c.s.stamp (c.s.junk i)), .write (tmpOf c.s.tmp i) tf]

/-- increment.py 129-154 `make_increment`; `newDir`, `newReg`: the type of `new`. Nothing happens in the
first backup (`_RepoPatchITRB`). -/
def Ctx.makeIncrement (i : List α) (newDir newReg : Bool) : List (Step α A C S H Δ) :=
  match c.prev with
  | none => []
  | some t =>
    (if (newDir || isDirNode (c.mirror i)) && !(c.st.incdirs.contains i) then [.mkIncDir i] else []) ++
    match c.mirror i with
    | none => [.newInc ⟨i, t, .missing⟩]
    | some (.dir _) => [.newInc ⟨i, t, .dir⟩]
    | some (.reg a old) =>
      if newReg then
        match c.patch o i with
        | .done (some (.reg _ new)) =>
          [.newInc ⟨i, t, .diff (c.s.junkInc i)⟩, .fillInc ⟨i, t, .diff (o.delta new old)⟩]
        | _ => []
      else [.newInc ⟨i, t, .snap (.reg c.s.stamp (c.s.junk i))⟩, .fillInc ⟨i, t, .snap (.reg a old)⟩]
    | some (.other a s) =>
      [.newInc ⟨i, t, .snap (.reg c.s.stamp (c.s.junk i))⟩, .fillInc ⟨i, t, .snap (.other a s)⟩]

/-- RS 2742-2780 (first backup: 2506-2535) `fast_process_file` -/
def Ctx.fastSteps (i : List α) : List (Step α A C S H Δ) :=
  match c.patch o i with
  | .failed =>
    c.writeTmp i (some (.reg c.s.stamp (c.s.junk i))) ++ [.delete (tmpOf c.s.tmp i)]
  | .unchanged tf =>
    c.writeTmp i (some tf) ++ [.chattr i tf.attr, .delete (tmpOf c.s.tmp i)]
  | .done (some tf) =>
    c.writeTmp i (some tf) ++ c.makeIncrement o i false tf.isReg ++ [.rename (tmpOf c.s.tmp i) i]
  | .done none =>
    if (c.mirror i).isSome then c.makeIncrement o i false false ++ [.delete i] else
      c.makeIncrement o i false false

/-- RS 2782-2806 (first backup: 2537-2549) `start_process_directory`, with `_prepare_dir` 2715-2729 and
`_set_dir_replacement` 2690-2713 -/
def Ctx.startSteps (i : List α) : List (Step α A C S H Δ) :=
  let diffDir := if c.isFiller o i then isDirNode (c.mirror i) else isDirNode (c.src i)
  if diffDir then
    c.makeIncrement o i true false ++
    (if isDirNode (c.mirror i) then [] else
      (if (c.mirror i).isSome then [.delete i] else []) ++ [.mkdir i])
  else c.writeTmp i (c.src i) ++ c.makeIncrement o i false false

/-- RS 2551-2562 `end_process_directory` -/
def Ctx.finishSteps (i : List α) : List (Step α A C S H Δ) :=
  match (if c.isFiller o i then c.mirror i else c.src i) with
  | some (.dir a) => [.chattr i a]
  | some _ => [.rmdir i, .rename (tmpOf c.s.tmp i) i]
  | none => [.rmdir i]

/-- RS 2470-2806: `fast_process_file`, `start_process_directory`, `end_process_directory` of the patching or of the incrementing ITRB -/
def Ctx.eventSteps : Event α → List (Step α A C S H Δ)
  | .fast i => c.fastSteps o i
  | .start i => c.startSteps o i
  | .finish i => c.finishSteps o i

/-- The record of a source file, once transferred: `update_hash` RS 2292-2304 -/
def srcRec (nohash : Bool) : Node A C S → MRec A S H
  | .dir a => .dir a
  | .reg a x => .reg a (o.size x) (if nohash then none else some (o.sha x))
  | .other a s => .other a s

/-- RS 2422-2452 `_post_process`: which record is written: of the source after success (flag 1), none
after a deletion (2), else the old one (0: nothing done, or failed). -/
def Ctx.newRec (i : List α) (src : Option (Node A C S)) (dst : Option (MRec A S H)) : Option (MRec A S H) :=
  if changedPair o src dst then
    match src with
    | none => none
    | some n =>
      if n.isDir || isDirRec dst then some (srcRec o (c.s.nohash i) n) else
      match c.patch o i with
      | .failed => dst
      | _ => some (srcRec o (c.s.nohash i) n)
  else dst

/-- the metadata written, in the order of the collated pairs -/
def Ctx.listing : List (Rec (List α) (MRec A S H)) :=
  c.pairs.filterMap fun p =>
    match c.newRec o p.1 p.2.1 p.2.2 with
    | some m => some ⟨p.1, some m⟩
    | none => none

/-- meta_mgr.py 269-286 `convert_meta_main_to_diff` as operations (C07 has it in one piece) -/
def convertSteps (junk : List (Rec (List α) (MRec A S H))) (dir : Dir (List α) (MRec A S H)) :
    Option (List (Step α A C S H Δ)) :=
  match checkNeedsDiff dir with
  | .error => none
  | .no => some []
  | .yes new old =>
    some [.putMeta ⟨old.time, false, junk⟩,
      .putMeta ⟨old.time, false, getDiffIter new.recs old.recs⟩, .delMeta old.time true]

/-- RS 526-545 `_get_dest_select`: the metadata at the time of the mirror; without previous backup
what is in the directory (no hashes known). -/
def destOf (st : State α A C S H Δ) : Option Nat → Option (List (Rec (List α) (MRec A S H)))
  | some t => metaAtTime st.metas t (fun _ => true)
  | none => some ((Sort.sortBy (fun x y => decide (x.1 ≤ y.1)) st.mirror).map
      (fun x => ⟨x.1, some (srcRec o true x.2)⟩))

/-- RS 743-779 `get_mirror_time` (`must_exist=False`): `none` is -1, `some none` is 0 -/
def mirrorTime (st : State α A C S H Δ) : Option (Option Nat) :=
  match st.marks with
  | [] => some none
  | [t] => some (some t)
  | _ => none

/-- The operations of a whole session: actions/backup.py 105-155, RS 264-300, RS 2317-2325 `close`, RS 653-703.
`none`: the session is refused or breaks off with an error before changing anything. -/
def sessionSteps (st : State α A C S H Δ) (s : Sess α A C S H Δ) : Option (List (Step α A C S H Δ)) :=
  match mirrorTime st with
  | none => none
  | some prev =>
    if prev.any (fun t => s.now ≤ t) then none else
    match destOf o st prev with
    | none => none
    | some dest =>
      let c : Ctx α A C S H Δ := ⟨st, s, prev, dest⟩
      match c.events o, convertSteps s.junkMeta (⟨s.now, true, c.listing o⟩ :: st.metas) with
      | some evs, some conv =>
        let work : List (Step α A C S H Δ) := .putMeta ⟨s.now, true, s.junkMeta⟩ ::
          (evs.flatMap (c.eventSteps o) ++ .putMeta ⟨s.now, true, c.listing o⟩ :: conv)
        match prev with
        | some t => some (.mark s.now :: (work ++ [.unmark t]))
        | none => some (work ++ [.mark s.now])
      | _, _ => none

/-- A complete backup session. -/
def backup (st : State α A C S H Δ) (s : Sess α A C S H Δ) : Option (State α A C S H Δ) :=
  (sessionSteps o st s).bind fun steps => exec s.stamp steps st

end

/-! ### Restoring -/

/-- RS 805-822 `get_increment_times` (sorting and removing duplicates does not matter for what is done
with it here) -/
def incrementTimes (st : State α A C S H Δ) (mirrorTime : Nat) : List Nat :=
  mirrorTime :: (st.incs.filter (fun f => f.idx = [])).map (·.time) ++ st.metas.map (·.time)

/-- RS 924-945 `_set_restore_time` -/
def setRestoreTime (times : List Nat) (t : Nat) : Option Nat :=
  match (times.filter (· ≤ t)).max? with
  | some x => some x
  | none => times.min?

/-- an element of `relevant_incs` -/
inductive Rel (A C S Δ : Type) where
  | mirror (n : Option (Node A C S))
  | inc (x : Inc A C S Δ)

/-- RS 2965-2981 `get_newer_incs` -/
def newerIncs (incs : List (IncFile α A C S Δ)) (t : Nat) : List (IncFile α A C S Δ) :=
  Sort.sortBy (fun x y => decide (x.time ≤ y.time)) (incs.filter (fun f => t ≤ f.time))

/-- RS 2953-2959: leading diffs and the first increment of another type -/
def takeRelevant : List (Inc A C S Δ) → List (Inc A C S Δ)
  | [] => []
  | .diff d :: r => .diff d :: takeRelevant r
  | x :: _ => [x]

/-- RS 2959-2963: whether the mirror must be added, as the last increment is a diff -/
def endsInDiff : List (Inc A C S Δ) → Bool
  | [] => true
  | [.diff _] => true
  | [_] => false
  | _ :: r => endsInDiff r

/-- RS 2940-2963 `set_relevant_incs`: newest first -/
def setRelevantIncs (incs : List (IncFile α A C S Δ)) (m : Option (Node A C S)) (t mirrorTime : Nat) :
    List (Rel A C S Δ) :=
  if incs.isEmpty ∨ mirrorTime ≤ t then [Rel.mirror m] else
    let r := takeRelevant ((newerIncs incs t).map (·.inc))
    ((r.map Rel.inc) ++ (if endsInDiff r then [Rel.mirror m] else [])).reverse

/-- RS 3124-3147 `_get_first_fp` -/
def firstContent : Rel A C S Δ → Option C
  | .mirror (some (.reg _ x)) => some x
  | .inc (.snap (.reg _ x)) => some x
  | _ => none

/-- RS 3003-3024: apply the diffs -/
def patchAll (o : Ops A C H Δ L) (x : C) : List (Rel A C S Δ) → Option C
  | [] => some x
  | .inc (.diff d) :: r => patchAll o (o.patch x d) r
  | _ :: _ => none

/-- RS 3000-3049 `get_restore_fp`; `none` for the failing assertions and for the cases where an empty file
is returned after a warning -/
def restoreFp (o : Ops A C H Δ L) (rel : List (Rel A C S Δ)) : Option C :=
  match rel with
  | [] => none
  | f :: r => (firstContent f).bind fun x => patchAll o x r

/-- the content of a regular file at time `t`: RS 2831-2848 `get_fp` -/
def restoreContent (o : Ops A C H Δ L) (st : State α A C S H Δ) (mirrorTime t : Nat) (i : List α) : Option C :=
  restoreFp o (setRelevantIncs (st.incs.filter (fun f => f.idx = i)) (get st.mirror i) t mirrorTime)

/-- one file restored to an empty target: RS 981-992 `_get_diff` -/
def restoreOne (o : Ops A C H Δ L) (st : State α A C S H Δ) (mirrorTime t : Nat)
    (r : Rec (List α) (MRec A S H)) : Option (List α × Node A C S) :=
  match r.data with
  | none => none
  | some (.dir a) => some (r.idx, .dir a)
  | some (.other a s) => some (r.idx, .other a s)
  | some (.reg a _ _) => (restoreContent o st mirrorTime t r.idx).map fun x => (r.idx, .reg a x)

/-- all results, if none of them is an exception (the first one ends the loop) -/
def allSome {β : Type} : List (Option β) → Option (List β)
  | [] => some []
  | none :: _ => none
  | some x :: r => (allSome r).map (x :: ·)

variable [DecidableEq A] [DecidableEq S] [DecidableEq H]

/-- Restore the whole tree, or what is below `sub`, as of time `t` to an empty target:
RS 827-835, 846-870 (the listing comes from the metadata), 909-922 `get_diffs`, 956-995.
With two markers nothing is restored: actions/restore.py 193-201 (not so in the rare state where the check does not
find the interruption, see C06 `not_always_detected`; restoring there is not modelled). -/
def restore (o : Ops A C H Δ L) (st : State α A C S H Δ) (t : Nat) (sub : List α) :
    Option (List (List α × Node A C S)) :=
  match mirrorTime st with
  | some (some mt) =>
    match setRestoreTime (incrementTimes st mt) t with
    | none => none
    | some rt =>
      match metaAtTime st.metas rt (fun i => sub.isPrefixOf i) with
      | none => none
      | some recs => allSome (recs.map (restoreOne o st mt rt))
  | _ => none

end Verif.Repo
