import Verif.Model.RepoList
import Verif.Spec.RepoVerify
/-
What `list` (C60, C61, C62) should say about a repository.
-/
namespace Verif.Repo
open Verif.MetaChain
variable {α A C S H Δ L : Type} [LinearOrder α]

/-- the digest recorded for a path -/
def digestOf (recs : List (Rec (List α) (MRec A S H))) (k : List α) : Option H := (recs.find? fun r => r.idx = k).bind digest

/-- What should be reported about a path with the file `old` in an older backup and `cur` in the last one; `dOld`, `dCur`: the digests recorded
then (`none`: not recorded). -/
inductive Changed (o : Ops A C H Δ L) (dOld dCur : Option H) : Option (Node A C S) → Option (Node A C S) → Compare.Report → Prop
  | new (n : Node A C S) : Changed o dOld dCur none (some n) .new
  | deleted (m : Node A C S) : Changed o dOld dCur (some m) none .deleted
  | changed {m n : Node A C S} (h : ¬ SameMeta o m n ∨ (m.isReg = true ∧ n.isReg = true ∧ ∃ d, dOld = some d ∧ dCur ≠ some d)) :
      Changed o dOld dCur (some m) (some n) .changed

/-- the same file except for attributes -/
def SameContents : Option (Node A C S) → Option (Node A C S) → Prop
  | none, none => True
  | some (.dir _), some (.dir _) => True
  | some (.reg _ x), some (.reg _ y) => x = y
  | some (.other _ s), some (.other _ s') => s = s'
  | _, _ => False

/-- the same file as far as metadata tell -/
def SameOrNone (o : Ops A C H Δ L) : Option (Node A C S) → Option (Node A C S) → Prop
  | none, none => True
  | some m, some n => SameMeta o m n
  | _, _ => False

/-- the type of a file, if there is one -/
def typeIn : Option (Node A C S) → FileType
  | none => .missing
  | some (.dir _) => .directory
  | some (.reg _ _) => .regular
  | some (.other _ _) => .special

/-- `e` is the first entry of a listing with a time not before `t` -/
def FirstFrom (entries : List (Nat × FileType)) (t : Nat) (e : Nat × FileType) : Prop :=
  e ∈ entries ∧ t ≤ e.1 ∧ ∀ e' ∈ entries, t ≤ e'.1 → e.1 ≤ e'.1

/-- the increments at and below a path -/
def incsBelow (st : State α A C S H Δ) (sub : List α) : List (IncFile α A C S Δ) := st.incs.filter fun f => sub.isPrefixOf f.idx

/-- the size of the mirror at and below a path -/
def mirrorSize (z : Sizes A C S Δ) (st : State α A C S H Δ) (sub : List α) : Nat :=
  ((st.mirror.filter fun x => sub.isPrefixOf x.1).map fun x => z.node x.2).sum

/-- the size of those increments at and below a path whose times are as wanted -/
def incSize (z : Sizes A C S Δ) (st : State α A C S H Δ) (sub : List α) (p : Nat → Bool) : Nat :=
  (((incsBelow st sub).filter fun f => p f.time).map fun f => z.inc f.inc).sum

/-- What should be in the listing of sizes: the mirror, and each time of increments, with the size of the increments of this time and the size
of the mirror and all increments which are not older. -/
def SizeEntry (z : Sizes A C S Δ) (st : State α A C S H Δ) (mt : Nat) (sub : List α) (e : Nat × Nat × Nat) : Prop :=
  e = (mt, mirrorSize z st sub, mirrorSize z st sub) ∨
  (∃ f ∈ incsBelow st sub, f.time = e.1) ∧ e.2.1 = incSize z st sub (fun t => decide (t = e.1)) ∧
    e.2.2 = mirrorSize z st sub + incSize z st sub (fun t => decide (e.1 ≤ t))

end Verif.Repo
