import Verif.Model.Collate
import Verif.Model.Sort
/-
Model of the metadata history: `PatchDiffMan` (and the parts of `Manager` it uses) in
`src/rdiffbackup/meta_mgr.py` lines 52-373.

A metadata record is an index together with the attributes (`RORPath.data`); the attributes `none`
stand for a record of `Type None`, which in a diff means "deleted".  A metadata file is the list of
its records (the text format is the subject of C23-C25).  Only the main metadata ("mirror_metadata")
is modelled; ACLs and EAs are not stored as diffs.
-/
namespace Verif.MetaChain
open Verif.Collate

variable {K D : Type}

/-- A record: a RORPath with index and data. `lstat()` is true iff `data` is not `none`. -/
structure Rec (K D : Type) where
  idx : K
  data : Option D
  deriving DecidableEq

/-- A file `mirror_metadata.<time>.snapshot` or `.diff` of the data directory. -/
structure MFile (K D : Type) where
  time : Nat
  snap : Bool
  recs : List (Rec K D)

/-- The `mirror_metadata` files of the data directory, in any order (the order of `listdir`). -/
abbrev Dir (K D : Type) := List (MFile K D)

variable [LinearOrder K] [DecidableEq D]

/-- meta_mgr.py:229-267 `sorted_prefix_inclist`: newest first, only those not older than `minTime`.
Duplicate times are a fatal error unless explicitly allowed (245-263): `none`. -/
def sortedInclist (dir : Dir K D) (minTime : Nat) : Option (List (MFile K D)) :=
  if (dir.map (·.time)).Nodup then
    some ((Sort.sortBy (fun a b => decide (b.time ≤ a.time)) dir).filter (fun f => minTime ≤ f.time))
  else none

/-- meta_mgr.py:288-297 `_get_diffiter` -/
def getDiffIter (new old : List (Rec K D)) : List (Rec K D) :=
  (collate2 Rec.idx Rec.idx new old).filterMap fun
    | (some n, none) => some ⟨n.idx, none⟩
    | (some n, some o) => if n.data ≠ o.data then some o else none
    | (none, some o) => some o
    | (none, none) => none

/-- meta_mgr.py:227 `max_diff_chain` -/
def maxDiffChain : Nat := 9

/-- meta_mgr.py:316-320: number of diffs directly following -/
def countDiffs : List (MFile K D) → Nat
  | f :: fs => if f.snap then 0 else countDiffs fs + 1
  | [] => 0

/-- What `_check_needs_diff` can answer. -/
inductive Check (K D : Type) where
  | error
  | no
  | yes (new old : MFile K D)

/-- meta_mgr.py:299-323 `_check_needs_diff`; `error` stands for the two assertions and the fatal
error on duplicates. -/
def checkNeedsDiff (dir : Dir K D) : Check K D :=
  match sortedInclist dir 0 with
  | none => .error
  | some [] => .error
  | some [_] => .no
  | some (new :: old :: rest) =>
    if new.snap && old.snap then
      if maxDiffChain ≤ 1 + countDiffs rest then .no else .yes new old
    else .error

/-- meta_mgr.py:269-286 `convert_meta_main_to_diff`: write the diff, then delete the snapshot. -/
def convertToDiff (dir : Dir K D) : Option (Dir K D) :=
  match checkNeedsDiff dir with
  | .error => none
  | .no => some dir
  | .yes new old =>
    some (⟨old.time, false, getDiffIter new.recs old.recs⟩ ::
      dir.filter (fun f => !(f.time == old.time && f.snap)))

/-- The metadata side of one backup session at `time`: the new listing is written as snapshot
(`_repo_shadow.py` `_CacheCollatedPostProcess`, via `get_writer` meta_mgr.py:103-114), then
`convert_meta_main_to_diff` is called. -/
def session (dir : Dir K D) (time : Nat) (listing : List (Rec K D)) : Option (Dir K D) :=
  convertToDiff (⟨time, true, listing⟩ :: dir)

/-- meta_mgr.py:350-356: from the end of the list back to the last snapshot -/
def backToSnapshot (l : List (MFile K D)) : Option (List (MFile K D)) :=
  match l with
  | [] => none
  | f :: fs =>
    match backToSnapshot fs with
    | some r => some r
    | none => if f.snap then some (f :: fs) else none

/-- meta_mgr.py:339-356 `_relevant_meta_main_incs`: `[snapshot, diff, ...]` newest first.
`none` for an empty list, the failing assertion (346) and the fatal error (354). -/
def relevantIncs (dir : Dir K D) (time : Nat) : Option (List (MFile K D)) :=
  match sortedInclist dir time with
  | none => none
  | some l =>
    match l.getLast? with
    | none => none
    | some last => if last.time = time then backToSnapshot l else none

/-- meta_mgr.py:358-373 `_iterate_patched_attr`: per index, the record of the oldest file having one
decides; it is yielded unless it is a deletion.  (The fatal error 373 would need a row without any
record, which the join never has: C12.) -/
def iteratePatched (iters : List (List (Rec K D))) : List (Rec K D) :=
  (collateIterators Rec.idx iters).filterMap fun row =>
    match row.reverse.findSome? id with
    | some r => if r.data.isSome then some r else none
    | none => none

/-- meta_mgr.py:325-337 `_get_meta_main_at_time`.  `restrict` is the restriction to the records at or
below an index (`get_objects(restrict_index)`, see C25), here any predicate on indices. -/
def metaAtTime (dir : Dir K D) (time : Nat) (restrict : K → Bool) : Option (List (Rec K D)) :=
  match relevantIncs dir time with
  | none => none
  | some fs =>
    match fs.map (fun f => f.recs.filter (fun r => restrict r.idx)) with
    | [] => none
    | [l] => some l
    | ls => some (iteratePatched ls)

end Verif.MetaChain
