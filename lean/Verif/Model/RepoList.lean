import Verif.Model.RepoVerify
import Verif.Model.Remove
/-
Model of `rdiff-backup list` on a whole repository: `src/rdiffbackup/actions/list_.py` and
`src/rdiffbackup/locations/_repo_shadow.py` (RS) 998-1144, 2136-2164.
Without hard links and selections. Printing (names, times, human readable sizes) is not modelled.
-/
namespace Verif.Repo
open Verif.MetaChain

variable {α A C S H Δ L : Type} [LinearOrder α] [DecidableEq A] [DecidableEq S] [DecidableEq H]

/-- RS 1024-1039 `list_files_at_time`: the paths of the records; `mirrorTime`: from `get_mirror_time` -/
def listFilesAt (st : State α A C S H Δ) (mirrorTime t : Nat) (sub : List α) : Option (List (List α)) :=
  (recordsAt st mirrorTime t sub).map fun x => x.2.map (·.idx)

/-- `RORPath.__eq__` (rpath.py 132-171) of two records with the same path: what is recorded in the first one must be in the second one,
this includes the digest -/
def eqRec : Option (MRec A S H) → Option (MRec A S H) → Bool
  | some (.dir a), some (.dir a') => decide (a = a')
  | some (.reg a s d), some (.reg a' s' d') => decide (a = a') && decide (s = s') && (d.isNone || decide (d = d'))
  | some (.other a s), some (.other a' s') => decide (a = a' ∧ s = s')
  | _, _ => false

/-- RS 998-1021 `list_files_changed_since`: the second listing is that of the time of the mirror, as it is -/
def listChangedSince (st : State α A C S H Δ) (mirrorTime t : Nat) (sub : List α) : Option (List (List α × Compare.Report)) :=
  match recordsAt st mirrorTime t sub with
  | none => none
  | some (_, old) =>
    match metaAtTime st.metas mirrorTime (fun i => sub.isPrefixOf i) with
    | none => none
    | some cur => some (Compare.changedSince Rec.idx (fun a c => eqRec a.data c.data) old cur)

/-- RS 2155-2164: the answers of `_get_file_type` -/
inductive FileType where
  | missing
  | directory
  | regular
  | special
  deriving DecidableEq, Repr

/-- RS 2155-2164 `_get_file_type` -/
def fileType : Option (Node A C S) → FileType
  | none => .missing
  | some (.dir _) => .directory
  | some (.reg _ _) => .regular
  | some (.other _ _) => .special

/-- RS 2137-2152 `_get_inc_type` -/
def incType : Inc A C S Δ → FileType
  | .dir => .directory
  | .diff _ => .regular
  | .missing => .missing
  | .snap n => fileType (some n)

/-- RS 1042-1072 `get_increments`: times and types, by increasing time -/
def getIncrements (st : State α A C S H Δ) (mirrorTime : Nat) (sub : List α) : List (Nat × FileType) :=
  Sort.sortBy (fun x y => decide (x.1 ≤ y.1))
    ((st.incs.filter (fun f => f.idx = sub)).map (fun f => (f.time, incType f.inc)) ++ [(mirrorTime, fileType (get st.mirror sub))])

/-- the sizes of files on disk: of the mirror and of increments (which may be compressed) -/
structure Sizes (A C S Δ : Type) where
  node : Node A C S → Nat
  inc : Inc A C S Δ → Nat

/-- RS 1091-1101 `get_time_dict`: the sizes of increments added up for each time -/
def addTime (t n : Nat) : List (Nat × Nat) → List (Nat × Nat)
  | [] => [(t, n)]
  | x :: l => if x.1 = t then (t, x.2 + n) :: l else x :: addTime t n l

/-- RS 1091-1101 `get_time_dict` -/
def timeDict (l : List (Nat × Nat)) : List (Nat × Nat) := l.foldl (fun d x => addTime x.1 x.2 d) []

/-- RS 1130-1137: the loop of `get_summary_triples`, by decreasing time -/
def cumulate : Nat → List (Nat × Nat) → List (Nat × Nat × Nat)
  | _, [] => []
  | c, x :: l => (x.1, x.2, c + x.2) :: cumulate (c + x.2) l

/-- RS 1076-1144 `get_increments_sizes`: time, size, cumulative size; `none`: the path isn't in the mirror (`getsize` raises KeyError) -/
def getIncrementsSizes (z : Sizes A C S Δ) (st : State α A C S H Δ) (mirrorTime : Nat) (sub : List α) : Option (List (Nat × Nat × Nat)) :=
  match get st.mirror sub with
  | none => none
  | some _ =>
    let total := ((st.mirror.filter fun x => sub.isPrefixOf x.1).map fun x => z.node x.2).sum
    let incs := (st.incs.filter fun f => sub.isPrefixOf f.idx).map fun f => (f.time, z.inc f.inc)
    some (Sort.sortBy (fun x y => decide (x.1 ≤ y.1))
      ((mirrorTime, total, total) :: cumulate total (Sort.sortBy (fun x y => decide (y.1 ≤ x.1)) (timeDict incs))))

end Verif.Repo
