import Verif.Model.RemoveFile
import Verif.Spec.Join
/-
What a repository may have gone through (C01-C06): any number of backups, interrupted backups, regresses and
interrupted regresses, removals, and which backups it is then supposed to contain.
Independent of how backups are stored.
-/
namespace Verif.Repo
open Verif.JoinSpec

variable {α A C S H Δ L : Type} [LinearOrder α] [DecidableEq A] [DecidableEq S] [DecidableEq H] [DecidableEq L]

/-- A directory tree, as a list of its files: each path once, in order; the root is a directory, and so is
the parent of every file.  `rsv`: names reserved for temporary files. -/
structure IsTree (rsv : α → Prop) (T : Files α (Node A C S)) : Prop where
  ordered : T.Pairwise (fun x y => x.1 < y.1)
  root : ∃ a, ([], .dir a) ∈ T
  parent : ∀ x ∈ T, x.1 ≠ [] → ∃ a, (x.1.dropLast, .dir a) ∈ T
  names : ∀ x ∈ T, ∀ n ∈ x.1, ¬ rsv n

/-- What is recorded for one path: `old` from the previous backup, `src` in the source, `fail`: the transfer
fails.  Nothing if the file is gone, the old version if a file could not be transferred, else the new one. -/
def recordedAt (old src : Option (Node A C S)) (fail : Bool) : Option (Node A C S) :=
  match src with
  | none => none
  | some n => if fail ∧ isDirNode old = false ∧ n.isDir = false then old else some n

/-- `T` is what a session should record, given the tree of the previous backup. -/
structure Recorded (old : Files α (Node A C S)) (s : Sess α A C S H Δ) (T : Files α (Node A C S)) : Prop where
  ordered : T.Pairwise (fun x y => x.1 < y.1)
  files : ∀ i, get T i = recordedAt (get old i) (get s.src i) (s.fails i)

/-- A file that changes content changes size, or its time stamps etc. and its SHA1. -/
def Honest (o : Ops A C H Δ L) (old src : Files α (Node A C S)) : Prop :=
  ∀ i a x a' x', get old i = some (.reg a x) → get src i = some (.reg a' x') →
    (o.size x' = o.size x ∧ o.loose a' = o.loose a) ∨ o.sha x' = o.sha x → x' = x

abbrev Hist (α A C S : Type) := List (Nat × Files α (Node A C S))

/-- the tree of the last backup -/
def lastTree : Hist α A C S → Files α (Node A C S)
  | [] => []
  | x :: _ => x.2

/-- The backup to restore for a given time: the newest which is not younger, else the oldest (`hist` is newest first). -/
def chosen (hist : Hist α A C S) (t : Nat) : Option (Nat × Files α (Node A C S)) :=
  match hist.find? (fun x => x.1 ≤ t) with
  | some x => some x
  | none => hist.getLast?

/-- a tree without what is at or below a path -/
def without (p : List α) (T : Files α (Node A C S)) : Files α (Node A C S) := T.filter fun x => !(p.isPrefixOf x.1)

/-- A backup session which may be attempted. -/
structure ValidSess (o : Ops A C H Δ L) (rsv : α → Prop) (hist : Hist α A C S) (s : Sess α A C S H Δ) : Prop where
  tree : IsTree rsv s.src
  time : ∀ x ∈ hist, x.1 < s.now
  tmp : rsv s.tmp
  honest : Honest o (lastTree hist) s.src

/-- Any directory, as it may be found on disk: each path once, the root is a directory, and so is the parent of every file. -/
structure IsDirectory (m : Files α (Node A C S)) : Prop where
  nodup : (m.map Prod.fst).Nodup
  root : ∃ a, ([], .dir a) ∈ m
  parent : ∀ x ∈ m, x.1 ≠ [] → ∃ a, (x.1.dropLast, .dir a) ∈ m

/-- A first backup which may be attempted, into a directory containing `m`. -/
structure ValidFirst (o : Ops A C H Δ L) (rsv : α → Prop) (m : Files α (Node A C S)) (s : Sess α A C S H Δ) : Prop where
  tree : IsTree rsv s.src
  tmp : rsv s.tmp
  unused : ∀ x ∈ m, s.tmp ∉ x.1
  honest : Honest o m s.src

/-- A regress which may be attempted: the name for temporary files is unused; files just written by it look
different from the files they replace until they are complete. -/
structure ValidRegress (o : Ops A C H Δ L) (rsv : α → Prop) (hist : Hist α A C S) (st : State α A C S H Δ)
    (r : RSess α A C) : Prop where
  tmp : rsv r.tmp
  unused : ∀ x ∈ st.mirror, r.tmp ∉ x.1
  stamp : ∀ i a x, get (lastTree hist) i = some (.reg a x) → o.loose r.stamp ≠ o.loose a
  junk : ∀ i a x, get (lastTree hist) i = some (.reg a x) → o.sha (r.junk i) = o.sha x → r.junk i = x

/-- `Reach o rsv interrupted st hist`: the repository `st` contains the backups `hist` (newest first), and the
last operation was interrupted or not. -/
inductive Reach (o : Ops A C H Δ L) (rsv : α → Prop) : Bool → State α A C S H Δ → Hist α A C S → Prop
  /-- an empty directory -/
  | init (a : A) : Reach o rsv false ⟨[([], .dir a)], [], [[]], [], []⟩ []
  /-- a complete first backup into a directory with any contents `m` -/
  | fresh {m s st' T} : IsDirectory m → ValidFirst o rsv m s → backup o ⟨m, [], [[]], [], []⟩ s = some st' →
      Recorded m s T → Reach o rsv false st' [(s.now, T)]
  /-- a complete backup -/
  | backup {st hist s st' T} : Reach o rsv false st hist → ValidSess o rsv hist s →
      backup o st s = some st' → Recorded (lastTree hist) s T → Reach o rsv false st' ((s.now, T) :: hist)
  /-- a backup (not the first) which stops after `n` operations -/
  | crash {st hist s steps n st'} : Reach o rsv false st hist → hist ≠ [] → ValidSess o rsv hist s →
      sessionSteps o st s = some steps → 0 < n → n < steps.length →
      exec s.stamp (steps.take n) st = some st' → Reach o rsv true st' hist
  /-- a complete regress -/
  | regress {st hist r st'} : Reach o rsv true st hist → ValidRegress o rsv hist st r →
      regress o st r = some st' → Reach o rsv false st' hist
  /-- a regress which stops after `n` operations -/
  | recrash {st hist r steps n st'} : Reach o rsv true st hist → ValidRegress o rsv hist st r →
      regressSteps o st r = some steps → n < steps.length →
      exec r.stamp (steps.take n) st = some st' → Reach o rsv true st' hist
  /-- removal of old backups: everything before `t` -/
  | remove {st hist older force t} : Reach o rsv false st hist → removalTime st older force = .before t →
      Reach o rsv false (removeBefore st t) (hist.filter (fun x => t ≤ x.1))
  /-- removal of a file or directory from all backups -/
  | removeFile {st hist p} (stamp : A) : Reach o rsv false st hist → p ≠ [] →
      Reach o rsv false (removeFile stamp st p) (hist.map fun x => (x.1, without p x.2))
  /-- the beginning of a forced regress: from now on the newest backup counts as failed -/
  | force {st x hist st'} : Reach o rsv false st (x :: hist) → hist ≠ [] → forceRegress st = some st' →
      Reach o rsv true st' hist

/-- Any number of regresses which are interrupted, each after any number of operations. -/
inductive Retried (o : Ops A C H Δ L) (rsv : α → Prop) (hist : Hist α A C S) :
    State α A C S H Δ → State α A C S H Δ → Prop
  | none {st} : Retried o rsv hist st st
  | once {st st₁ st₂ r steps n} : Retried o rsv hist st st₁ → ValidRegress o rsv hist st₁ r →
      regressSteps o st₁ r = some steps → n < steps.length →
      exec r.stamp (steps.take n) st₁ = some st₂ → Retried o rsv hist st st₂

/-- the same file in two mirrors: equal type and content, attributes equal for `equal_loose`
(attributes of directories do not matter, they are not used) -/
def SameFile (o : Ops A C H Δ L) : Option (Node A C S) → Option (Node A C S) → Prop
  | none, none => True
  | some (.dir _), some (.dir _) => True
  | some (.reg a x), some (.reg a' x') => o.loose a = o.loose a' ∧ x = x'
  | some (.other a s), some (.other a' s') => o.loose a = o.loose a' ∧ s = s'
  | _, _ => False

/-- Two repositories with the same contents: the same marker, mirror and increments, and everything is
restored in the same way. -/
structure SameRepo (o : Ops A C H Δ L) (st st' : State α A C S H Δ) : Prop where
  marks : st.marks = st'.marks
  mirror : ∀ i, SameFile o (get st.mirror i) (get st'.mirror i)
  incs : ∀ i, st.incs.filter (fun f => f.idx = i) = st'.incs.filter (fun f => f.idx = i)
  restores : ∀ t sub, restore o st t sub = restore o st' t sub

end Verif.Repo
