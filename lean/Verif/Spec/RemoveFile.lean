import Verif.Spec.RepoHistory
/-
What an interrupted removal of a file may leave behind (C52).
-/
namespace Verif.Repo
open Verif.MetaChain

variable {α A C S H Δ L : Type} [LinearOrder α]

/-- the same file, or two directories (whose time stamps may differ) -/
def SameOrDirs (a b : Option (Node A C S)) : Prop := a = b ∨ (isDirNode a = true ∧ isDirNode b = true)

/-- `st'` lies between `st` and the repository without `p`: metadata files have been replaced or not, of what is stored
for `p` and below in the increments and in the mirror, anything may be gone already; everything else is there. -/
structure PartlyWithout (p : List α) (st st' : State α A C S H Δ) : Prop where
  marks : st'.marks = st.marks
  metas : ∃ q : MFile (List α) (MRec A S H) → Bool,
    st'.metas = st.metas.map fun f => if q f then { f with recs := f.recs.filter fun r => !(p.isPrefixOf r.idx) } else f
  incs : ∃ q : IncFile α A C S Δ → Bool, (∀ f, ¬ p <+: f.idx → q f = true) ∧ st'.incs = st.incs.filter q
  incdirs : ∃ q : List α → Bool, (∀ d, ¬ p <+: d → q d = true) ∧ st'.incdirs = st.incdirs.filter q
  mirror : ∀ j, (¬ p <+: j → SameOrDirs (get st'.mirror j) (get st.mirror j)) ∧
    (p <+: j → get st'.mirror j = none ∨ SameOrDirs (get st'.mirror j) (get st.mirror j))
  /-- a directory goes after what is in it -/
  parents : (∀ d ∈ st'.incdirs, d.dropLast ∈ st'.incdirs) ∧ (∀ f ∈ st'.incs, f.idx.dropLast ∈ st'.incdirs) ∧
    ∀ j, j ≠ [] → (get st'.mirror j).isSome → isDirNode (get st'.mirror j.dropLast) = true

end Verif.Repo
