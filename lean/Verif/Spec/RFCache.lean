import Verif.Model.RFCache
/-
What restore, verify and compare should find in a repository for a path (C57).
-/
namespace Verif.Repo
variable {α A C S H Δ : Type} [LinearOrder α]

/-- Directories of any file system: what is in a directory is in a directory; this for the mirror and for the tree of increments. -/
structure OnFileSystem (st : State α A C S H Δ) : Prop where
  mirrorRoot : ∃ a, get st.mirror [] = some (.dir a)
  mirrorParent : ∀ i, i ≠ [] → (get st.mirror i).isSome = true → ∃ a, get st.mirror i.dropLast = some (.dir a)
  incRoot : [] ∈ st.incdirs
  incParent : ∀ i ∈ st.incdirs, i.dropLast ∈ st.incdirs
  incFileParent : ∀ f ∈ st.incs, f.idx.dropLast ∈ st.incdirs

/-- there is something on disk for a path (not the base directory): the file in the mirror, an increment, or a directory of increments -/
def OnDisk (st : State α A C S H Δ) (i : List α) : Prop :=
  i ≠ [] ∧ ((get st.mirror i).isSome = true ∨ (∃ f ∈ st.incs, f.idx = i) ∨ i ∈ st.incdirs)

/-- the mirror file and all increments of a path -/
def directRf (st : State α A C S H Δ) (i : List α) : RestoreFile α A C S Δ := ⟨i, get st.mirror i, st.incs.filter (fun f => f.idx = i)⟩

/-- a file all of which is lost, which would be the last one in its directory, where something else is left -/
def LostLast (st : State α A C S H Δ) (i : List α) : Prop :=
  ¬ OnDisk st i ∧ (∃ j, OnDisk st j ∧ j.dropLast = i.dropLast) ∧ ∀ j, OnDisk st j → j.dropLast = i.dropLast → j < i

end Verif.Repo
