import Verif.Model.Linked
/-
Restoring files with hard links into a directory: `src/rdiffbackup/locations/_repo_shadow.py` (RS) 908-993, `_dir_shadow.py` (DS) 393-527,
`map/hardlinks.py` 182-208. The decisions are those of `Verif.Hardlinks`.

Simplifications: those of `Verif.Linked`. The listing of the target is read in blocks before the files are changed, or file by file (depending on whether it comes through a
connection): it is any listing here. A wrong digest only gives a warning (DS 485-508).
-/
namespace Verif.Linked
open Verif.Hardlinks (Decision Rorp Run)
variable {I K A C D : Type} [DecidableEq I] [DecidableEq K] [DecidableEq A] [DecidableEq C] [DecidableEq D]

/-- the metadata of the backup at a time -/
def State.recsAt (st : State I K A C D) (t : Nat) (i : I) : Option (Rec K A C D) := (st.metas.find? fun m => decide (m.1 = t)).bind (·.2 i)

/-- rpath.py 132-171 `RORPath.__eq__` of the metadata and a file of the target: the digest is compared too, and files of the target have none -/
def sameFile (o : Ops C D) (r : Rec K A C D) (d : Src K A C) : Bool :=
  r.sha1.isNone && r.reg = d.file.reg && r.attr = d.file.attr &&
    if r.reg then decide (r.size = o.size d.file.data) && (decide (r.nlink = 1) || decide (r.key = d.key)) else decide (r.target = some d.file.data)

/-- RS 959-969: a pair of the collated iterator -/
def restorePair (o : Ops C D) (recs : I → Option (Rec K A C D)) (dst : I → Option (Src K A C)) (i : I) : Hardlinks.Pair I K D :=
  ⟨(recs i).map (rorpRec i), (dst i).map (rorpSrc i), match recs i, dst i with
    | some r, some d => sameFile o r d
    | _, _ => false⟩

/-- DS 423-428 `fast_process_file`, 461-478 `_patch_to_temp`: a file of the target is replaced by the backup's, made a link, or deleted -/
def restoreStep (o : Ops C D) (stamp : A) (want : I → Option (File A C)) (fs : FS I A C) (i : I) (x : Decision I) : FS I A C :=
  match x, want i with
  | .keep, _ => fs
  | _, none => fs.setEntry i none
  | .replace, some f => fs.create i f
  | .link j, some _ => match fs.ino j with
    | some n => fs.setEntry i (some n)
    | none => fs.create i ⟨true, stamp, o.empty⟩

/-- all paths -/
def restoreSteps (o : Ops C D) (stamp : A) (want : I → Option (File A C)) : FS I A C → List (I × Decision I) → FS I A C
  | fs, [] => fs
  | fs, (i, x) :: l => restoreSteps o stamp want (restoreStep o stamp want fs i x) l

/-- Restoring the paths `order` of the backup made at `t` into a directory which is listed as `dst`; `kept`: those left as they are. -/
def Restored (o : Ops C D) (st : State I K A C D) (t : Nat) (stamp : A) (fs : FS I A C) (dst : I → Option (Src K A C)) (order : List I)
    (fs' : FS I A C) (kept : List I) : Prop :=
  ∃ ps a d tab out, Run (order.map (restorePair o (st.recsAt t) dst)) ps a order.length d tab out ∧
    fs' = restoreSteps o stamp (fun i => st.restore i t) fs (order.zip out) ∧
    kept = ((order.zip out).filter fun x => decide (x.2 = .keep)).map (·.1)

end Verif.Linked
