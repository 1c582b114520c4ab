import Mathlib.Order.MinMax
import Mathlib.Data.List.Forall2
/- Specification of an ordered outer join (C11, C12), independent of the model. -/
namespace Verif.JoinSpec
variable {K α β : Type} [LinearOrder K]

/-- A stream is ordered: indices strictly increase. -/
def Ordered (idx : α → K) (l : List α) : Prop := l.Pairwise (fun x y => idx x < idx y)

/-- `p` is the row for index `k`: it pairs the element of `l1` with that index, or nothing, with
the element of `l2` with that index, or nothing; and at least one of them exists. -/
def IsRow (idx1 : α → K) (idx2 : β → K) (l1 : List α) (l2 : List β) (k : K)
    (p : Option α × Option β) : Prop :=
  (p ≠ (none, none)) ∧
  (∀ x, p.1 = some x ↔ x ∈ l1 ∧ idx1 x = k) ∧
  (∀ y, p.2 = some y ↔ y ∈ l2 ∧ idx2 y = k)

/-- `r` is the ordered outer join of `l1` and `l2`: its rows are labelled by strictly increasing
indices `ks`, which are exactly the indices occurring in either stream. -/
def IsOuterJoin (idx1 : α → K) (idx2 : β → K) (l1 : List α) (l2 : List β)
    (r : List (Option α × Option β)) : Prop :=
  ∃ ks : List K, ks.Pairwise (· < ·) ∧
    (∀ k, k ∈ ks ↔ (∃ x ∈ l1, idx1 x = k) ∨ (∃ y ∈ l2, idx2 y = k)) ∧
    List.Forall₂ (IsRow idx1 idx2 l1 l2) ks r

/-- The n-ary version: row `row` for index `k` has one component per stream. -/
def IsNRow (idx : α → K) (ss : List (List α)) (k : K) (row : List (Option α)) : Prop :=
  List.Forall₂ (fun (s : List α) (o : Option α) => ∀ x, o = some x ↔ x ∈ s ∧ idx x = k) ss row

def IsNJoin (idx : α → K) (ss : List (List α)) (r : List (List (Option α))) : Prop :=
  ∃ ks : List K, ks.Pairwise (· < ·) ∧
    (∀ k, k ∈ ks ↔ ∃ s ∈ ss, ∃ x ∈ s, idx x = k) ∧
    List.Forall₂ (IsNRow idx ss) ks r

end Verif.JoinSpec
