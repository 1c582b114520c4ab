import Verif.Model.RFCache
import Verif.Model.Compare
/-
Model of `rdiff-backup verify` and `rdiff-backup compare` on a whole repository:
`src/rdiffbackup/locations/_repo_shadow.py` (RS) 1471-1590, `src/rdiffbackup/locations/_dir_shadow.py` 171-277,
`src/rdiffbackup/actions/verify.py`, `src/rdiffbackup/actions/compare.py`.
Without hard links (for them see C38-C40) and selections.
-/
namespace Verif.Repo
open Verif.Collate Verif.MetaChain

variable {α A C S H Δ L : Type} [LinearOrder α] [DecidableEq H]

/-- RS 1538-1571 `verify`: the numbers of bad files and of files without digest; `l`: the cache. `none`: exception, or a loop which has not
ended within `n` passes. -/
def verifyFiles (o : Ops A C H Δ L) (F : Reading C S) (st : State α A C S H Δ) (n mirrorTime t : Nat) :
    List (Rec (List α) (MRec A S H)) → List (RestoreFile α A C S Δ) → Option (Nat × Nat)
  | [], _ => some (0, 0)
  | r :: rs, l =>
    match r.data with
    | some (.reg _ _ none) => (verifyFiles o F st n mirrorTime t rs l).map fun x => (x.1, x.2 + 1)
    | some (.reg _ _ (some d)) =>
      match getRf st r.idx n l with
      | none => none
      | some (rf, l') =>
        match getFp o F mirrorTime t rf with
        | none => none
        | some c => (verifyFiles o F st n mirrorTime t rs l').map fun x => (if o.sha c = d then x.1 else x.1 + 1, x.2)
    | _ => verifyFiles o F st n mirrorTime t rs l

variable [DecidableEq A] [DecidableEq S]

/-- actions/verify.py 98-105 `run` with RS 1520-1590 `verify`; `mirrorTime`: from `get_mirror_time`, the time of the first `current_mirror` file
listed -/
def verifyRepo (o : Ops A C H Δ L) (F : Reading C S) (st : State α A C S H Δ) (n mirrorTime t : Nat) (sub : List α) : Option (Nat × Nat) :=
  match recordsAt st mirrorTime t sub with
  | none => none
  | some (rt, recs) => verifyFiles o F st n mirrorTime rt recs []

/-- `RORPath.__eq__` (C47, C48) of a file and a record: type, attributes, and size of regular files -/
def eqFile (o : Ops A C H Δ L) (n : Node A C S) (m : Option (MRec A S H)) : Bool :=
  match n, m with
  | .dir a, some (.dir a') => decide (a = a')
  | .reg a x, some (.reg a' sz _) => decide (a = a' ∧ o.size x = sz)
  | .other a s, some (.other a' s') => decide (a = a' ∧ s = s')
  | _, _ => false

/-- size of a file -/
def nodeSize (o : Ops A C H Δ L) : Node A C S → Nat
  | .reg _ x => o.size x
  | _ => 0

/-- recorded size of a file -/
def recSize : Option (MRec A S H) → Nat
  | some (.reg _ sz _) => sz
  | _ => 0

/-- `isreg` of a record -/
def recIsReg : Option (MRec A S H) → Bool
  | some m => m.isReg
  | none => false

/-- what comparisons ask of the files of the directory (a path which may not exist: `none`) and of the records (with paths relative to the
repository path given, RS 883-906 `_subtract_indices`) -/
def cmpOps (o : Ops A C H Δ L) (sub : List α) :
    Compare.Ops (List α) (List α × Option (Node A C S)) (Rec (List α) (MRec A S H)) where
  idxS s := s.1
  idxR r := r.idx.drop sub.length
  existS s := s.2.isSome
  existR r := r.data.isSome
  regS s := match s.2 with | some n => n.isReg | none => false
  regR r := recIsReg r.data
  sizeS s := match s.2 with | some n => nodeSize o n | none => 0
  sizeR r := recSize r.data
  eq s r := match s.2 with | some n => eqFile o n r.data | none => false

/-- what hardlinks.py looks at, for a file without links -/
def noLink (sub : List α) (r : Rec (List α) (MRec A S H)) : Hardlinks.Rorp (List α) Unit H :=
  ⟨r.idx.drop sub.length, recIsReg r.data, 1, none, match r.data with | some (.reg _ _ d) => d | _ => none⟩

/-- the data of a file of the directory, `none` if it is no regular file -/
def nodeData (s : List α × Option (Node A C S)) : Option C :=
  match s.2 with
  | some (.reg _ x) => some x
  | _ => none

/-- `hash.compute_sha1` of a file of the directory; asked of regular files only -/
def nodeSha (o : Ops A C H Δ L) (F : Reading C S) (s : List α × Option (Node A C S)) : H := o.sha ((nodeData s).getD F.empty)

/-- actions/compare.py 131-137 `_compare_meta` -/
def compareMetaRepo (o : Ops A C H Δ L) (st : State α A C S H Δ) (mirrorTime t : Nat) (sub : List α) (dir : Files α (Node A C S)) :
    Option (List (List α × Compare.Report)) :=
  match recordsAt st mirrorTime t sub with
  | none => none
  | some (_, recs) => Compare.compareMeta (cmpOps o sub) (dir.map fun x => (x.1, some x.2)) recs

/-- actions/compare.py 139-149 `_compare_hash` -/
def compareHashRepo (o : Ops A C H Δ L) (F : Reading C S) (st : State α A C S H Δ) (mirrorTime t : Nat) (sub : List α) (dir : Files α (Node A C S)) :
    Option (List (List α × Compare.Report)) :=
  match recordsAt st mirrorTime t sub with
  | none => none
  | some (_, recs) => Compare.compareHash (cmpOps o sub) (noLink sub) (nodeSha o F) (dir.map fun x => (x.1, some x.2)) recs

/-- RS 1486-1518 `_attach_files` with the cache `l`; in `Compare.attachFiles` the data are a parameter -/
def attachRepo (o : Ops A C H Δ L) (F : Reading C S) (st : State α A C S H Δ) (n mirrorTime t : Nat) (sub : List α) :
    List (Option (List α × Option (Node A C S)) × Option (Rec (List α) (MRec A S H))) → List (RestoreFile α A C S Δ) →
      Option (List (Compare.Sent (List α) (Rec (List α) (MRec A S H)) C))
  | [], _ => some []
  | (none, none) :: _, _ => none
  | (none, some r) :: ps, l => (attachRepo o F st n mirrorTime t sub ps l).map (⟨(cmpOps o sub).idxR r, some r, none⟩ :: ·)
  | (some s, none) :: ps, l =>
    if (cmpOps (H := H) o sub).idxS s = [] then none
    else (attachRepo o F st n mirrorTime t sub ps l).map (⟨(cmpOps (H := H) o sub).idxS s, none, none⟩ :: ·)
  | (some s, some r) :: ps, l =>
    if !(cmpOps (H := H) o sub).regS s && (cmpOps o sub).eq s r then attachRepo o F st n mirrorTime t sub ps l
    else if (cmpOps (H := H) o sub).regS s && (cmpOps o sub).regR r && (cmpOps (H := H) o sub).sizeS s == (cmpOps o sub).sizeR r then
      match getRf st (sub ++ (cmpOps o sub).idxR r) n l with
      | none => none
      | some (rf, l') =>
        match getFp o F mirrorTime t rf with
        | none => none
        | some c => (attachRepo o F st n mirrorTime t sub ps l').map (⟨(cmpOps o sub).idxR r, some r, some c⟩ :: ·)
    else (attachRepo o F st n mirrorTime t sub ps l).map (⟨(cmpOps o sub).idxR r, some r, none⟩ :: ·)

variable [DecidableEq C]

/-- actions/compare.py 151-161 `_compare_full` -/
def compareFullRepo (o : Ops A C H Δ L) (F : Reading C S) (st : State α A C S H Δ) (n mirrorTime t : Nat) (sub : List α)
    (dir : Files α (Node A C S)) : Option (List (List α × Compare.Report)) :=
  match recordsAt st mirrorTime t sub with
  | none => none
  | some (rt, recs) =>
    match attachRepo o F st n mirrorTime rt sub (collate2 (cmpOps (H := H) o sub).idxS (cmpOps o sub).idxR (dir.map fun x => (x.1, some x.2)) recs) [] with
    | none => none
    | some xs => Compare.compareFullLoop (cmpOps o sub) (fun k => (k, get dir k)) nodeData xs

end Verif.Repo
