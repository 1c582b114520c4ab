import Verif.Model.Linked
/-
What C65 says: the state of a path at a backup, and which sources and sequences of backups are considered.
-/
namespace Verif.Linked
variable {I K A C D : Type} [DecidableEq I] [DecidableEq K] [DecidableEq A] [DecidableEq C] [DecidableEq D]

/-- the files of all paths at some time -/
abbrev Version (I K A C : Type) := I → Option (Src K A C)

/-- The two are links of the same file. -/
def Links (s s' : Src K A C) : Prop := s.file.reg = true ∧ s'.file.reg = true ∧ 2 ≤ s.nlink ∧ 2 ≤ s'.nlink ∧ s.key = s'.key

/-- the file has no other links (or isn't there) -/
def Alone (s : Option (Src K A C)) : Prop := ∀ x, s = some x → x.file.reg = true → x.nlink < 2

/-- A directory in which nothing is changed meanwhile. `order`: all paths. -/
structure IsSource (S : Version I K A C) (order : List I) : Prop where
  /-- paths with the same inode are the same file -/
  same : ∀ i j s s', S i = some s → S j = some s' → s.key = s'.key → s.file = s'.file ∧ s.nlink = s'.nlink
  /-- there are not more links of a file than it has -/
  count : ∀ i s, S i = some s → s.file.reg = true → 2 ≤ s.nlink → order.countP (fun j => decide ((S j).map (·.key) = some s.key)) ≤ s.nlink
  /-- all files have an inode and a link -/
  key : ∀ i s, S i = some s → s.key ≠ none ∧ 1 ≤ s.nlink

/-- A backup is made after the last one, of a directory in which nothing is changed meanwhile, and a file which looks the same as at the last backup has the
same contents: type, attributes, size and, if there are several links, the inode. -/
structure ValidSess (o : Ops C D) (V : Version I K A C) (times : List Nat) (s : Sess I K A C) : Prop where
  source : IsSource s.src s.order
  nodup : s.order.Nodup
  all : ∀ i, (s.src i).isSome = true ∨ (V i).isSome = true → i ∈ s.order
  time : ∀ t ∈ times, t < s.now
  honest : ∀ i x v, s.src i = some x → V i = some v → x.file.reg = true → v.file.reg = true → x.file.attr = v.file.attr →
    o.size x.file.data = o.size v.file.data → (2 ≤ x.nlink → 2 ≤ v.nlink ∧ x.key = v.key) → x.file.data = v.file.data

/-- What the last backup has got of a path: as it is in the source; or, if an error is logged, as it was, or nothing if there are no longer metadata. -/
def versionOf (V S : Version I K A C) (errs : List I) (recs : I → Option (Rec K A C D)) : Version I K A C := fun i =>
  if i ∈ errs then (if (recs i).isSome then V i else none) else S i

/-- what was backed up last -/
def last (hist : List (Nat × Version I K A C)) : Version I K A C := (hist.head?.map (·.2)).getD fun _ => none

/-- A repository after any number of backups, in which errors may occur with files which have no hard links, in the source or at the last backup. -/
inductive Reach (o : Ops C D) : State I K A C D → List (Nat × Version I K A C) → Prop
  | empty (f : File A C) : Reach o ⟨⟨fun _ => none, fun _ => f, 0⟩, [], fun _ => []⟩ []
  | backup {st st' : State I K A C D} {hist : List (Nat × Version I K A C)} {s : Sess I K A C} {errs : List I} : Reach o st hist →
      ValidSess o (last hist) (hist.map (·.1)) s → Session o st s st' errs → (∀ i ∈ errs, Alone (s.src i) ∧ Alone (last hist i)) →
      Reach o st' ((s.now, versionOf (last hist) s.src errs st'.recs) :: hist)

/-- A repository after any number of backups, each made later than those before, of anything, with any errors. -/
inductive Made (o : Ops C D) : State I K A C D → Prop
  | empty (f : File A C) : Made o ⟨⟨fun _ => none, fun _ => f, 0⟩, [], fun _ => []⟩
  | backup {st st' : State I K A C D} {s : Sess I K A C} {errs : List I} : Made o st → (∀ m ∈ st.metas, m.1 < s.now) → Session o st s st' errs → Made o st'

/-- `j` comes first among the links of `i` -/
def FirstLink (s : Sess I K A C) (i j : I) : Prop := ∃ x y a b, s.src i = some x ∧ s.src j = some y ∧ Links x y ∧ s.order = a ++ j :: b ∧ i ∈ b ∧
  ∀ k ∈ a, ∀ z, s.src k = some z → ¬ Links x z

end Verif.Linked
