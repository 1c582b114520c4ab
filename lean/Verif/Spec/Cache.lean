import Verif.Model.Cache
/-
C54: the pairs of two trees, and when a diff may arrive.
-/
namespace Verif.Cache
open Verif.Repo

section
variable {α V W : Type} [LinearOrder α]

/-- is one of the sides a directory? -/
def isd (sdir : V → Bool) (ddir : W → Bool) (k : Pair α V W) : Bool := k.2.1.any sdir || k.2.2.any ddir

/-- the pairs of two trees: in order, and every parent is there and is a directory on one of the sides -/
structure Pairs (sdir : V → Bool) (ddir : W → Bool) (ps : List (Pair α V W)) : Prop where
  sorted : ps.Pairwise (fun x y => x.1 < y.1)
  closed : ∀ p ∈ ps, p.1 ≠ [] → ∃ q ∈ ps, q.1 = p.1.dropLast ∧ isd sdir ddir q = true

end

section
variable {α A C S H Δ L : Type} [LinearOrder α] [DecidableEq A] [DecidableEq S] [DecidableEq H]

/-- `sched i`: how many pairs of source and destination have been read when the diff of `i` is processed.  Diffs are processed
in order, not before the file has been read, and at most `N - 1` further pairs have been read by then. -/
structure Timely (o : Ops A C H Δ L) (c : Ctx α A C S H Δ) (N : Nat) (sched : List α → Nat) : Prop where
  order : ∀ i ∈ c.changed o, ∀ j ∈ c.changed o, i < j → sched i ≤ sched j
  window : ∀ p x, c.pairs[p]? = some x → x.1 ∈ c.changed o → p < sched x.1 ∧ sched x.1 ≤ p + N

/-- the source files among the first `n` pairs -/
def srcAmong (c : Ctx α A C S H Δ) (n : Nat) : List (List α × Node A C S) :=
  (c.pairs.take n).filterMap fun p => p.2.1.map fun v => (p.1, v)

end
end Verif.Cache
