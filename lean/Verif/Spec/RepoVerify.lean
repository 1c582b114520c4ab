import Verif.Model.RepoVerify
import Verif.Spec.RFCache
import Verif.Spec.RepoHistory
/-
What verification (C58) and comparison (C59) of a repository should report.
-/
namespace Verif.Repo
open Verif.MetaChain
variable {α A C S H Δ L : Type} [LinearOrder α]

/-- a regular file is recorded without digest -/
def noDigest (r : Rec (List α) (MRec A S H)) : Bool :=
  match r.data with
  | some (.reg _ _ none) => true
  | _ => false

/-- the digest recorded for a regular file -/
def digest (r : Rec (List α) (MRec A S H)) : Option H :=
  match r.data with
  | some (.reg _ _ d) => d
  | _ => none

/-- Records as they are in all metadata files written by rdiff-backup (C07, C24): in order, and the base directory is no regular file. -/
structure IsRecords (recs : List (Rec (List α) (MRec A S H))) : Prop where
  ordered : recs.Pairwise (fun x y => x.idx < y.idx)
  root : ∀ r ∈ recs, r.idx = [] → ∀ a s d, r.data ≠ some (.reg a s d)

/-- the same file, as far as metadata tell: type, attributes, size -/
def SameMeta (o : Ops A C H Δ L) : Node A C S → Node A C S → Prop
  | .dir a, .dir a' => a = a'
  | .reg a x, .reg a' y => a = a' ∧ o.size x = o.size y
  | .other a s, .other a' s' => a = a' ∧ s = s'
  | _, _ => False

/-- What should be reported about a path with the file `n` in the directory and `m` in the backup. `same`: how the data of regular files are
compared (`none`: not at all). -/
inductive Differs (o : Ops A C H Δ L) (same : Option (List α → C → C → Prop)) (k : List α) : Option (Node A C S) → Option (Node A C S) → Compare.Report → Prop
  | new (n : Node A C S) : Differs o same k (some n) none .new
  | deleted (m : Node A C S) : Differs o same k none (some m) .deleted
  | changed {n m : Node A C S} (h : ¬ SameMeta o n m) (hd : same = none ∨ ¬ (n.isReg = true ∧ m.isReg = true)) :
      Differs o same k (some n) (some m) .changed
  | detail {a a' : A} {x y : C} {sm : List α → C → C → Prop} {mc dc : Bool} (hs : same = some sm) (hm : mc = true ↔ ¬ (a = a' ∧ o.size x = o.size y))
      (hd : dc = true ↔ ¬ sm k x y) (h : mc = true ∨ dc = true) : Differs o same k (some (.reg a x)) (some (.reg a' y)) (.detail mc dc)

/-- `reps` are the differences between a directory and the files at `sub` in a backup, one for each path, in order. -/
def AreDifferences (o : Ops A C H Δ L) (same : Option (List α → C → C → Prop)) (dir T : Files α (Node A C S)) (sub : List α)
    (reps : List (List α × Compare.Report)) : Prop :=
  reps.Pairwise (fun x y => x.1 < y.1) ∧ ∀ k rep, (k, rep) ∈ reps ↔ Differs o same k (get dir k) (get T (sub ++ k)) rep

end Verif.Repo
