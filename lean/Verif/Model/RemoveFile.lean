import Verif.Model.Remove
/-
Model of `rdiff-backup remove file`: `_repo_shadow.py` (RS) 1290-1331 `remove_file`, with the effect of 1333-1397
`_remove_from_metadata` on the records of a metadata file (what it does with the lines of the file is `RemoveLines`).
Checks of the action: actions/remove.py 88-132.

Simplifications: statistics, ACL and EA files are not part of the repository model; long names are not either.
-/
namespace Verif.Repo
open Verif.MetaChain

variable {α A C S H Δ L : Type} [LinearOrder α]

/-- actions/remove.py 115-131: the repository itself and what is inside its data directory can't be removed.
`data`: the name `rdiff-backup-data` -/
def mayRemove (data : α) (p : List α) : Bool := !p.isEmpty && !(p.contains data)

/-- RS 1333-1397: the records which are not at or below the path are written to a new file, which replaces the old one -/
def dropRecs (p : List α) (f : MFile (List α) (MRec A S H)) : MFile (List α) (MRec A S H) :=
  { f with recs := f.recs.filter fun r => !(p.isPrefixOf r.idx) }

/-- RS 1333, 1390-1397: whether something was removed from the file -/
def dropsRecs (p : List α) (f : MFile (List α) (MRec A S H)) : Bool := f.recs.any fun r => p.isPrefixOf r.idx

/-- RS 1297-1300: all metadata files -/
def removeRecs (st : State α A C S H Δ) (p : List α) : State α A C S H Δ :=
  { st with metas := st.metas.map fun f => if dropsRecs p f then dropRecs p f else f }

/-- RS 1302-1315: the increments of the path, then the directory `increments/<path>` with everything in it, if there is one -/
def removeIncs (st : State α A C S H Δ) (p : List α) : State α A C S H Δ :=
  let st := { st with incs := st.incs.filter fun f => f.idx ≠ p }
  if p ∈ st.incdirs then
    { st with
      incs := st.incs.filter fun f => !(p.isPrefixOf f.idx)
      incdirs := st.incdirs.filter fun d => !(p.isPrefixOf d) }
  else st

/-- RS 1317-1322: the file in the mirror, with everything below; the directory it was in gets a new modification time -/
def removeMirror (stamp : A) (st : State α A C S H Δ) (p : List α) : State α A C S H Δ :=
  if (get st.mirror p).isSome then { st with mirror := delTree (touch stamp st.mirror p.dropLast) p } else st

/-- RS 1290-1331 without `--dry-run` -/
def removeFile (stamp : A) (st : State α A C S H Δ) (p : List α) : State α A C S H Δ :=
  removeMirror stamp (removeIncs (removeRecs st p) p) p

/-- RS 1296-1330 `file_removed`: whether there was anything to remove (the same with `--dry-run`) -/
def somethingRemoved (st : State α A C S H Δ) (p : List α) : Bool :=
  st.metas.any (dropsRecs p) || st.incs.any (fun f => f.idx = p) || decide (p ∈ st.incdirs) || (get st.mirror p).isSome

/-- RS 1290-1331 and actions/remove.py 115-131: the repository afterwards and whether the command says that it removed
something; `none`: refused -/
def removeFileAction (data : α) (dry : Bool) (stamp : A) (st : State α A C S H Δ) (p : List α) : Option (State α A C S H Δ × Bool) :=
  if mayRemove data p then some (if dry then st else removeFile stamp st p, somethingRemoved st p) else none

end Verif.Repo
