import Verif.Model.FStats
/-
What file statistics mean (C68).
-/
namespace Verif.FStats
open Verif Verif.Quoting Verif.MetaRecord

section
variable {α : Type}

/-- The files of a session in the order of a backup: the root first, each directory listed, with names in increasing order, and without negative values. -/
structure Listing [LT α] (es : List (FS α)) : Prop where
  root : ∃ v rest, es = ([], v) :: rest
  sorted : es.Pairwise fun x y => x.1 < y.1
  parents : ∀ x ∈ es, x.1 ≠ [] → ∃ y ∈ es, y.1 = x.1.dropLast
  nonneg : ∀ x ∈ es, 0 ≤ x.2.changed ∧ 0 ≤ x.2.source ∧ 0 ≤ x.2.inc

/-- The total of a directory: its own values and those of everything in it, at any depth. -/
def total [DecidableEq α] (es : List (FS α)) (d : List α) : Vals :=
  let l := es.filter fun x => decide (d <+: x.1)
  ⟨(l.map fun x => x.2.changed).sum, (l.map fun x => x.2.source).sum, (l.map fun x => x.2.inc).sum⟩

/-- The directory is in the listing and its total reaches one of the cut-offs. -/
def Important [DecidableEq α] (cutoff : Vals) (es : List (FS α)) (d : List α) : Prop :=
  (∃ x ∈ es, x.1 = d) ∧ (cutoff.changed ≤ (total es d).changed ∨ cutoff.source ≤ (total es d).source ∨ cutoff.inc ≤ (total es d).inc)

instance [DecidableEq α] (cutoff : Vals) (es : List (FS α)) (d : List α) : Decidable (Important cutoff es d) := by
  unfold Important
  infer_instance

/-- sums of values -/
def sumVals (l : List Vals) : Vals := ⟨(l.map Vals.changed).sum, (l.map Vals.source).sum, (l.map Vals.inc).sum⟩

/-- What is known of a directory from a session, given its cut-offs and files: nothing, if it isn't important there. -/
def contribution [DecidableEq α] (d : List α) (s : Vals × List (FS α)) : Vals := if Important s.1 s.2 d then total s.2 d else ⟨0, 0, 0⟩

/-- all files of a tree, with the values in the tree -/
def Forest.files : Forest α → List (FS α)
  | .nil => []
  | .cons a v c r => (a, v) :: (c.files ++ r.files)
def Node.files (n : Node α) : List (FS α) := (n.name, n.v) :: n.children.files

/-- the sum of what is listed below a directory -/
def listedBelow [DecidableEq α] (l : List (List α × Int)) (d : List α) : Int := ((l.filter fun y => decide (d <+: y.1 ∧ y.1 ≠ d)).map Prod.snd).sum

/-- one of the three values -/
inductive Value : (Vals → Int) → Prop
  | changed : Value Vals.changed
  | source : Value Vals.source
  | inc : Value Vals.inc
end

/-! ### the file of statistics -/

/-- bytes of a file: only regular files have any -/
def sizeVal (f : Option SStats.File) : Nat := match f with
  | none => 0
  | some f => if f.reg then f.size else 0

/-- The values of an entry, in `1 / unit`: whether it has changed, its size in the source, the size of the increment. -/
def entryVals (unit : Nat) (e : Entry) : Vals := ⟨unit * (if e.changed then 1 else 0), unit * sizeVal e.src, unit * sizeVal e.inc⟩

/-- The name is that of a file: no empty parts, no slashes, no zero bytes, and not `.`. -/
def NameOk (l : List Bytes) : Prop := (∀ c ∈ l, c ≠ [] ∧ (47 : UInt8) ∉ c ∧ (0 : UInt8) ∉ c) ∧ l ≠ [[46]]

/-- The path begins with `#`. -/
def hashed (l : List Bytes) : Bool := match l with
  | [] => false
  | a :: _ => a.head? = some 35

/-- all entries of a session -/
def listing (unit : Nat) (es : List Entry) : List (FS Bytes) := es.map fun e => (e.index, entryVals unit e)

/-- The entries which don't look like comments. -/
def readable (unit : Nat) (es : List Entry) : List (FS Bytes) := listing unit (es.filter fun e => !hashed e.index)

/-- A session: its statistics, the entries of its files, how many lines were written at once, and the blocks as they are read. -/
structure Session where
  totals : SStats.Totals
  entries : List Entry
  max : Nat
  blocks : List Bytes

/-- The names are names of files, the entries a listing, and the blocks are those of the file which was written. -/
structure Session.Ok (unit : Nat) (sep : UInt8) (s : Session) : Prop where
  names : ∀ e ∈ s.entries, NameOk e.index
  listing : Listing (listing unit s.entries)
  text : s.blocks.flatten = fileText s.max sep s.entries
end Verif.FStats
