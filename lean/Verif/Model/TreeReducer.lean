import Mathlib.Data.List.Lex
/-
Model of `IterTreeReducer`, `src/rdiff_backup/rorpiter.py` lines 93-196.

The calls made on the branch objects are recorded as events.  `can_fast_process` may be any
function of the element, so an element is its index together with the answer.
`gather_from_child` is a stub everywhere outside the tests (224-227) and is not recorded.
-/
namespace Verif.TreeReducer
variable {α : Type} [LinearOrder α]

/-- the calls `branch.start_process_directory`, `fast_process_file`, `end_process_directory` -/
inductive Event (α : Type) where
  | start (i : List α)
  | fast (i : List α)
  | finish (i : List α)
  deriving DecidableEq

/-- rorpiter.py:105-113: `self.index`, `self.branches` (their `base_index`, innermost first) and
`self.root_fast_processed`. -/
structure St (α : Type) where
  index : Option (List α)
  branches : List (List α)
  rootFast : Bool

/-- rorpiter.py:105-113 `__init__`. (The root branch has no base_index yet.) -/
def init : St α := ⟨none, [], false⟩

/-- rorpiter.py:169-189 `_finish_branches`: events and remaining branches; an empty remainder
means "out of the entire tree". -/
def finishBranches (index : List α) : List (List α) → List (Event α) × List (List α)
  | [] => ([], [])
  | b :: bs =>
    if b ≠ index.take b.length then
      let (ev, rest) := finishBranches index bs
      (.finish b :: ev, rest)
    else ([], b :: bs)

/-- Result of one call: `ValueError`, or (events, new state, returned value). -/
inductive Res (α : Type) where
  | valueError
  | ok (ev : List (Event α)) (st : St α) (ret : Bool)

/-- rorpiter.py:115-153 `__call__`. -/
def call (st : St α) (index : List α) (canFast : Bool) : Res α :=
  match st.index with
  | none =>
    if canFast then .ok [.fast index] ⟨some index, [index], true⟩ true
    else .ok [.start index] ⟨some index, [index], st.rootFast⟩ true
  | some cur =>
    if index = cur then .ok [] { st with index := some index } true      -- repeated: warning only
    else if index < cur then .valueError
    else
      match finishBranches index st.branches with
      | (ev, []) => .ok ev { st with branches := [] } false
      | (ev, b :: bs) =>
        if canFast then .ok (ev ++ [.fast index]) ⟨some index, b :: bs, st.rootFast⟩ true
        else .ok (ev ++ [.start index]) ⟨some index, index :: b :: bs, st.rootFast⟩ true

/-- rorpiter.py:155-163 `finish_processing`. -/
def finishProcessing (st : St α) : List (Event α) :=
  if st.index = none ∨ st.rootFast then [] else st.branches.map .finish

/-- The use made of it everywhere: call on each element in turn, then `finish_processing`.
`none` if a call raises or returns `False`. -/
def runFrom (st : St α) : List (List α × Bool) → Option (List (Event α))
  | [] => some (finishProcessing st)
  | (i, f) :: rest =>
    match call st i f with
    | .valueError => none
    | .ok _ _ false => none
    | .ok ev st' true => (runFrom st' rest).map (ev ++ ·)

/-- rorpiter.py 93-196: a new `IterTreeReducer` called on all elements (see `runFrom`) -/
def run (xs : List (List α × Bool)) : Option (List (Event α)) := runFrom init xs

end Verif.TreeReducer
