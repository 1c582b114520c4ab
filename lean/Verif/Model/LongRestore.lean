import Verif.Model.LongNames
/-
Backing up and restoring files whose names may be too long:
`src/rdiffbackup/locations/map/longnames.py` together with the code of `_repo_shadow.py` that calls it.
Directories are taken together with the other files without data: only which records there are matters for them.
-/
namespace Verif.LongRestore
open Verif.LongNames Verif.Quoting

/-- What a file is: a regular file with data and attributes, or something else (only in the metadata). -/
inductive Node (C A : Type) where
  | reg (c : C) (a : A)
  | other (a : A)
  deriving DecidableEq

/-- An increment: increment.py 115-153. A difference makes `c` out of `b`, and garbage out of anything else. -/
inductive Inc (C : Type) where
  | missing
  | diff (b c : C)
  /-- `none`: of something that is no regular file -/
  | snapshot (c : Option C)
  deriving DecidableEq

/-- Where a file or its increments are: at its path in the mirror (or below `increments`), or in the directory for long names. -/
inductive Place (I : Type) where
  | usual (i : I)
  | long (n : Bytes)
  deriving DecidableEq

/-- a record of the metadata: the file, and the alternate names (stdattr.py 228-236) -/
structure Rec (C A : Type) where
  node : Node C A
  names : Names
  deriving DecidableEq

/-- The repository. `mirror` and `incs` say what is at a place; increments in the order in which they were made. `metas`: newest first (how
they are stored as differences is another matter, C07). -/
structure Repo (I C A : Type) where
  names : LongNames.St := {}
  mirror : Place I → Option (Option C) := fun _ => none
  incs : Place I → List (Nat × Inc C) := fun _ => []
  metas : List (Nat × List (I × Rec C A)) := []

variable {I C A : Type} [DecidableEq I] [DecidableEq C] [DecidableEq A]

/-- what is found under an index -/
def find (l : List (I × V)) (i : I) : Option V := (l.find? (·.1 = i)).map Prod.snd

/-- the data of a file in the mirror: `some none` for something without data -/
def Node.data : Node C A → Option C
  | .reg c _ => some c
  | .other _ => none

/-- longnames.py: where `LongNames.Loc` is, for a file -/
def placeOf (i : I) : Loc → Place I
  | .usual => .usual i
  | .long n => .long n

/-- increment.py 130-154 `make_increment`: `new` is the new file, `mirror` what is in the mirror -/
def makeIncrement (new : Option (Node C A)) (mirror : Option (Option C)) : Inc C :=
  match mirror with
  | none => .missing
  | some (some b) =>
    match new with
    | some (.reg c _) => .diff c b
    | _ => .snapshot (some b)
  | some none => .snapshot none

/-- assignment to a function -/
def upd {α β : Type} [DecidableEq α] (f : α → β) (a : α) (b : β) : α → β := fun x => if x = a then b else f x

/-- What fits: are the path of a file in the mirror, and those of its increments, short enough
(longnames.py 317-358 `_check_new_index`)? -/
structure Fits (I : Type) where
  mirror : I → Bool
  inc : I → Bool
  root : I → Bool

/-- the names in the directory for long names -/
def locNames : Loc → List Bytes
  | .usual => []
  | .long n => [n]

/-- regular files with the same data (2730-2735 and 2750-2753: UNCHANGED) -/
def sameData : Option (Node C A) → Option (Node C A) → Bool
  | some (.reg b _), some (.reg c _) => b = c
  | _, _ => false

/-- _repo_shadow.py 2745-2780 `_RepoIncrementITRB.fast_process_file` and, for the first backup (`prev` is none),
2505-2525 `_RepoPatchITRB.fast_process_file`, with CCPP's choice of the record to write (2380-2393). The result is the record of the new
metadata. A file whose data are the same has its attributes changed only (2750-2753). Every file can be written.
Deleting what isn't there doesn't happen. -/
def process (f : Fits I) (prev : Option Nat) (i : I) (old : Option (Rec C A)) (new : Option (Node C A)) (R : Repo I C A) :
    Option (Option (Rec C A) × Repo I C A) :=
  -- 585-597: the same in the source and in the mirror
  if old.map (·.node) = new then some (old, R)
  else
    match place { old := old.map (·.names), new := new.isSome, root := f.root i, fitsMirror := f.mirror i, fitsInc := f.inc i } R.names with
    | none => none
    | some (p, names) =>
      let m := placeOf i p.mirror
      let k := placeOf i p.inc
      let rec' := match new, p.recorded with
        | some n, some ns => some ⟨n, ns⟩
        | _, _ => none
      let incs := match prev with
        | none => R.incs
        | some t =>
          if sameData (old.map (·.node)) new then R.incs
          else upd R.incs k (R.incs k ++ [(t, makeIncrement new (R.mirror m))])
      some (rec', { R with
        -- the names of increments have a suffix, which doesn't matter there (`LongNames.base`)
        names := { names with dir := locNames p.mirror ++ locNames p.inc ++ names.dir }
        incs
        mirror := upd R.mirror m (new.map Node.data) })

/-- How far it comes with a file before it fails: the name is taken; the increment is written. -/
inductive Half where
  | named | incremented
  deriving DecidableEq

/-- `process` fails -/
def processHalf (x : Half) (f : Fits I) (prev : Option Nat) (i : I) (old : Option (Rec C A)) (new : Option (Node C A)) (R : Repo I C A) : Option (Repo I C A) :=
  match process f prev i old new R with
  | none => none
  | some (_, R') =>
    match x with
    | .named => some { R with names := R'.names }
    | .incremented => some { R with names := R'.names, incs := R'.incs }

/-- one file after the other, in any order; the new records -/
def processAll (f : Fits I) (prev : Option Nat) (old : List (I × Rec C A)) (src : List (I × Node C A)) :
    List I → Repo I C A → Option (List (I × Rec C A) × Repo I C A)
  | [], R => some ([], R)
  | i :: is, R =>
    match process f prev i (find old i) (find src i) R with
    | none => none
    | some (r, R) =>
      match processAll f prev old src is R with
      | none => none
      | some (rs, R) => some ((r.map fun r => (i, r)).toList ++ rs, R)

/-- A backup that fails: after `upTo` files, and at what moment of the next one. -/
structure Attempt (I C A : Type) where
  before : List LongNames.Op := []
  src : List (I × Node C A)
  order : List I
  fits : Fits I
  upTo : Nat
  half : Half
  /-- the order in which the files are regressed -/
  back : List I

/-- A backup: when, of which files; in which order they are processed; and what fits then. `before`: what happened to the names in the directory
for long names since the last backup (like a backup that was killed after it had taken a name). -/
structure Session (I C A : Type) where
  before : List LongNames.Op := []
  /-- backups that failed before this one -/
  attempts : List (Attempt I C A) := []
  now : Nat
  src : List (I × Node C A)
  order : List I
  fits : Fits I

/-! ### Restoring -/

/-- What `_RestoreFile` (_repo_shadow.py 2917-2925) holds: where the file is in the mirror, and its increments. -/
structure RF (I C : Type) where
  mirror : Place I
  /-- `inc_rp`: the increments are there -/
  inc : Place I
  incs : List (Nat × Inc C)

/-- longnames.py 360-376 `_get_inclist`: the increments of a name in the directory for long names -/
def getInclist (R : Repo I C A) (n : Bytes) : List (Nat × Inc C) := R.incs (.long n)

/-- _repo_shadow.py 2855-2894 `_get_rf`: found by listing the directory of the file in the mirror and below `increments` -/
def getRf (R : Repo I C A) (i : I) : Option (RF I C) :=
  if (R.mirror (.usual i)).isSome || !(R.incs (.usual i)).isEmpty then some ⟨.usual i, .usual i, R.incs (.usual i)⟩ else none

/-- longnames.py 184-250 `update_rf`; `none`: the exception "doesn't make any sense" (218-224) -/
def updateRf (R : Repo I C A) (i : I) (rf : Option (RF I C)) (names : Names) : Option (RF I C) :=
  match rf with
  | some rf =>
    match names.mirror, names.inc with
    | none, none => some rf
    | some _, _ => none
    | none, some n => some { rf with inc := .long n, incs := getInclist R n }
  | none =>
    match names.mirror, names.inc with
    | some n, _ => some ⟨.long n, .long n, getInclist R n⟩
    | none, some n => some ⟨.usual i, .long n, getInclist R n⟩
    | none, none => some ⟨.usual i, .usual i, []⟩

/-- an entry of `relevant_incs`: the file in the mirror, or an increment -/
inductive Entry (C : Type) where
  | mirror (d : Option (Option C))
  | inc (x : Inc C)
  deriving DecidableEq

/-- insertion into a sorted list, for `incpairs.sort()` (_repo_shadow.py 2989) -/
def insertInc (x : Nat × Inc C) : List (Nat × Inc C) → List (Nat × Inc C)
  | [] => [x]
  | y :: l => if x.1 ≤ y.1 then x :: y :: l else y :: insertInc x l

/-- _repo_shadow.py 2974-2990 `get_newer_incs`, sorted by time -/
def newerIncs (t : Nat) (incs : List (Nat × Inc C)) : List (Inc C) :=
  ((incs.filter fun x => t ≤ x.1).foldr insertInc []).map Prod.snd

/-- _repo_shadow.py 2958-2968: up to the first that is no difference; the mirror if there is none. Oldest first. -/
def upTo (mirror : Option (Option C)) : List (Inc C) → List (Entry C)
  | [] => [.mirror mirror]
  | .diff b c :: l => .inc (.diff b c) :: upTo mirror l
  | x :: _ => [.inc x]

/-- _repo_shadow.py 2945-2972 `set_relevant_incs`, newest first -/
def relevantIncs (t m : Nat) (R : Repo I C A) (rf : RF I C) : List (Entry C) :=
  if rf.incs.isEmpty || m ≤ t then [.mirror (R.mirror rf.mirror)]
  else (upTo (R.mirror rf.mirror) (newerIncs t rf.incs)).reverse

/-- is it a regular file? (The files of increments called "missing" are.) -/
def Entry.isReg : Entry C → Bool
  | .mirror (some (some _)) => true
  | .mirror _ => false
  | .inc (.snapshot none) => false
  | .inc _ => true

/-- _repo_shadow.py 3003-3023: apply the differences; `none` is an exception, or garbage -/
def applyAll : C → List (Entry C) → Option C
  | x, [] => some x
  | x, .inc (.diff b c) :: l => if x = b then applyAll c l else none
  | _, _ :: _ => none

/-- _repo_shadow.py 3000-3049 `get_restore_fp`, 3119-3145 `_get_first_fp`; `empty` is returned with a warning if the last
entry is no regular file -/
def restoreFp (empty : C) (l : List (Entry C)) : Option C :=
  match l.getLast? with
  | none => none
  | some e =>
    if e.isReg then
      match l with
      | .mirror (some (some c)) :: l => applyAll c l
      | .inc (.snapshot (some c)) :: l => applyAll c l
      | _ => none
    else some empty

/-- _repo_shadow.py 2831-2849 `get_fp`, for a record of the metadata: the data of the file -/
def getFp (empty : C) (R : Repo I C A) (t : Nat) (i : I) (names : Names) : Option C :=
  match R.metas.head? with
  | none => none
  | some (m, _) =>
    match updateRf R i (getRf R i) names with
    | none => none
    | some rf => restoreFp empty (relevantIncs t m R rf)

/-- What is restored of the time `t`: every file of the metadata, regular files with their data (981-992 `_get_diff`).
`none`: an exception. -/
def restore (empty : C) (R : Repo I C A) (t : Nat) : Option (List (I × Node C A)) :=
  match R.metas.find? (·.1 = t) with
  | none => none
  | some (_, recs) => recs.mapM fun x =>
    match x.2.node with
    | .reg _ a => (getFp empty R t x.1 x.2.names).map fun c => (x.1, .reg c a)
    | .other a => some (x.1, .other a)


/-! ### Failed backups -/

/-- A backup that fails (`_set_regress_time` etc. are in C44; metadata of the failed backup are deleted). -/
def interrupted (R : Repo I C A) (a : Attempt I C A) : Option (Repo I C A) :=
  let prev := R.metas.head?
  let old := (prev.map Prod.snd).getD []
  match processAll a.fits (prev.map Prod.fst) old a.src (a.order.take a.upTo) R with
  | none => none
  | some (_, R) =>
    match a.order.drop a.upTo with
    | [] => some R
    | i :: _ => processHalf a.half a.fits (prev.map Prod.fst) i (find old i) (find a.src i) R

/-- _repo_shadow.py 1914-1927: the object for a file that is regressed, its places taken from the record, if any. `some none`: there is
nothing to be regressed; `none`: an exception. -/
def regressRf (R : Repo I C A) (i : I) : Option (Rec C A) → Option (Option (RF I C))
  | none => some (getRf R i)
  | some r => (updateRf R i (getRf R i) r.names).map some

/-- _repo_shadow.py 1905-1932, 3240-3256, 3308-3326: one file is regressed to the time `t` of its record, if any. The mirror's attributes are
taken to tell whether it has the data of the record (assumption 1 of the code, 3289-3292). `none`: an exception. -/
def regressFile (empty : C) (t : Nat) (i : I) (rec' : Option (Rec C A)) (R : Repo I C A) : Option (Repo I C A) :=
  match regressRf R i rec' with
  | none => none
  | some none => some R
  | some (some rf) =>
    if (newerIncs t rf.incs).length > 1 then none
    else
      let goal := rec'.map (·.node.data)
      let R1 : Option (Repo I C A) :=
        if R.mirror rf.mirror = goal then some R
        else
          match goal with
          | some (some _) => (restoreFp empty (relevantIncs t (t + 1) R rf)).map fun c => { R with mirror := upd R.mirror rf.mirror (some (some c)) }
          | _ => some { R with mirror := upd R.mirror rf.mirror goal }
      R1.map fun R => { R with incs := upd R.incs rf.inc ((R.incs rf.inc).filter fun x => !(t ≤ x.1)) }

/-- all files, in any order -/
def regressAll (empty : C) (t : Nat) (old : List (I × Rec C A)) : List I → Repo I C A → Option (Repo I C A)
  | [], R => some R
  | i :: is, R =>
    match regressFile empty t i (find old i) R with
    | none => none
    | some R => regressAll empty t old is R

/-- a failed backup, which is undone -/
def attempt (empty : C) (R : Repo I C A) (a : Attempt I C A) : Option (Repo I C A) :=
  match LongNames.run R.names (a.before ++ [.restart]) with
  | none => none
  | some names =>
    match interrupted { R with names } a with
    | none => none
    | some R1 => regressAll empty ((R.metas.head?.map Prod.fst).getD 0) ((R.metas.head?.map Prod.snd).getD []) a.back R1

/-- one after the other -/
def attemptAll (empty : C) (R : Repo I C A) : List (Attempt I C A) → Option (Repo I C A)
  | [] => some R
  | a :: as =>
    match attempt empty R a with
    | none => none
    | some R => attemptAll empty R as

/-! ### Histories -/

/-- a backup: the files that are in the old metadata or in the source; new metadata (backup.py 127-156) -/
def backup (R : Repo I C A) (s : Session I C A) : Option (Repo I C A) :=
  let prev := R.metas.head?
  match processAll s.fits (prev.map Prod.fst) ((prev.map Prod.snd).getD []) s.src s.order R with
  | none => none
  | some (rs, R) => some { R with metas := (s.now, rs) :: R.metas }

/-- backups, each by a new process (`_free_name_counter` is None again) -/
def run (empty : C) (R : Repo I C A) : List (Session I C A) → Option (Repo I C A)
  | [] => some R
  | s :: ss =>
    match attemptAll empty R s.attempts with
    | none => none
    | some R =>
    match LongNames.run R.names (s.before ++ [.restart]) with
    | none => none
    | some names =>
      match backup { R with names } s with
      | none => none
      | some R => run empty R ss

end Verif.LongRestore
