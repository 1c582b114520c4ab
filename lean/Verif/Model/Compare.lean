import Verif.Model.Collate
import Verif.Model.Hardlinks
/-
Model of comparisons: `src/rdiffbackup/locations/_dir_shadow.py` 171-277 (`compare_meta`, `compare_hash`, `compare_full`, `_get_basic_report`),
`src/rdiffbackup/locations/_repo_shadow.py` 998-1021 (`list_files_changed_since`), 1486-1518 (`_attach_files`), 1520-1589 (`verify`).

Files of the directory are of type `S`, files of the repository (at the chosen time) of type `R`, with whatever attributes; the iterators are lists (in the
order of their indices: C16, C27 and C28 for the directory, C04 and C24 for the repository). `__eq__` is a parameter, see C47 and C48 for it.
-/
namespace Verif.Compare
open Verif.Collate

/-- what is asked of files -/
structure Ops (K S R : Type) where
  idxS : S → K
  idxR : R → K
  /-- `lstat()`: exists -/
  existS : S → Bool
  existR : R → Bool
  regS : S → Bool
  regR : R → Bool
  sizeS : S → Nat
  sizeR : R → Nat
  /-- `src_rp == repo_rorp` -/
  eq : S → R → Bool

/-- `_CompareReport.reason` -/
inductive Report where
  | new
  | deleted
  | changed
  /-- for regular files when data are compared: (metadata changed, data changed) -/
  | detail (metaChanged dataChanged : Bool)
  deriving DecidableEq, Repr

variable {K S R σ : Type} [LinearOrder K]

/-- _dir_shadow.py 241-277 `_get_basic_report`. `comp`: `comp_data_func`, which has a state and may raise an exception (`none`).
Called with neither of both files, the code raises AttributeError (257). -/
def basicReport (o : Ops K S R) (comp : Option (σ → S → R → Option (Bool × σ))) (t : σ) (src : Option S) (repo : Option R) :
    Option (Option (K × Report) × σ) :=
  match src, repo with
  | none, none => none
  | some s, none => some (some (o.idxS s, .new), t)
  | none, some r => if !o.existR r then some (some (o.idxR r, .new), t) else some (some (o.idxR r, .deleted), t)
  | some s, some r =>
    if !o.existR r then some (some (o.idxS s, .new), t)
    else if !o.existS s then some (some (o.idxS s, .deleted), t)
    else
      match comp with
      | some c =>
        if o.regS s && o.regR r then
          match c t s r with
          | none => none
          | some (dataChanged, t') =>
            if o.eq s r && !dataChanged then some (none, t') else some (some (o.idxS s, .detail (!o.eq s r) dataChanged), t')
        else if o.eq s r then some (none, t) else some (some (o.idxS s, .changed), t)
      | none => if o.eq s r then some (none, t) else some (some (o.idxS s, .changed), t)

/-- the loops 175-179, 204-209: the reports in their order; `none` if an exception is raised -/
def reports (o : Ops K S R) (comp : Option (σ → S → R → Option (Bool × σ))) : σ → List (Option S × Option R) → Option (List (K × Report))
  | _, [] => some []
  | t, p :: ps =>
    match basicReport o comp t p.1 p.2 with
    | none => none
    | some (rep, t') => (reports o comp t' ps).map (rep.toList ++ ·)

/-- 173-179 `compare_meta` -/
def compareMeta (o : Ops K S R) (src : List S) (repo : List R) : Option (List (K × Report)) :=
  reports (σ := Unit) o none () (collate2 o.idxS o.idxR src repo)

section hash
variable {N D : Type} [DecidableEq N] [DecidableEq D]

/-- 186-201 `hashes_changed`. `link`: what hardlinks.py looks at (with the same index), `sha`: `hash.compute_sha1` -/
def hashesChanged (o : Ops K S R) (link : R → Hardlinks.Rorp K N D) (sha : S → D) (t : Hardlinks.Tab K N D) (s : S) (r : R) :
    Option (Bool × Hardlinks.Tab K N D) :=
  match Hardlinks.getHash t (link r) with
  | none => none
  | some (none, t') => some (false, t')
  | some (some d, t') => some (!(o.sizeS s == o.sizeR r && sha s == d), t')

/-- 183-209 `compare_hash` -/
def compareHash (o : Ops K S R) (link : R → Hardlinks.Rorp K N D) (sha : S → D) (src : List S) (repo : List R) : Option (List (K × Report)) :=
  reports o (some (hashesChanged o link sha)) Hardlinks.empty (collate2 o.idxS o.idxR src repo)

/-- _repo_shadow.py 1538-1571 `verify`: the numbers of bad files and of files without digest. `restored`: the digest of what `rf_cache.get_fp` returns. -/
def verifyLoop (reg : R → Bool) (link : R → Hardlinks.Rorp K N D) (restored : R → D) : Hardlinks.Tab K N D → List R → Option (Nat × Nat)
  | _, [] => some (0, 0)
  | t, r :: rs =>
    if !reg r then verifyLoop reg link restored t rs
    else
      match Hardlinks.getHash t (link r) with
      | none => none
      | some (none, t') => (verifyLoop reg link restored t' rs).map fun x => (x.1, x.2 + 1)
      | some (some d, t') => (verifyLoop reg link restored t' rs).map fun x => (if restored r = d then x.1 else x.1 + 1, x.2)

/-- 1536, 1554, 1571, 1589: the return code, as the pair of flags (RET_CODE_FILE_ERR, RET_CODE_FILE_WARN) -/
def verify (reg : R → Bool) (link : R → Hardlinks.Rorp K N D) (restored : R → D) (rs : List R) : Option (Bool × Bool) :=
  (verifyLoop reg link restored Hardlinks.empty rs).map fun x => (decide (0 < x.1), decide (0 < x.2))

end hash

section full
variable {C : Type} [DecidableEq C]

/-- what goes through the connection: the file of the repository, or that there is none (`RORPath(index)`), and its contents if attached -/
structure Sent (K R C : Type) where
  index : K
  repo : Option R
  data : Option C

/-- _repo_shadow.py 1497-1518 `_attach_files`; `none`: exception. `index = src_rorp and src_rorp.index or mir_rorp.index` fails for the base directory
(whose index is `()`, false) if there is no `mir_rorp`. -/
def attachFiles (o : Ops K S R) (root : K) (dataR : R → C) : List (Option S × Option R) → Option (List (Sent K R C))
  | [] => some []
  | (none, none) :: _ => none
  | (none, some r) :: ps => (attachFiles o root dataR ps).map (⟨o.idxR r, some r, none⟩ :: ·)
  | (some s, none) :: ps => if o.idxS s = root then none else (attachFiles o root dataR ps).map (⟨o.idxS s, none, none⟩ :: ·)
  | (some s, some r) :: ps =>
    if !o.regS s && o.eq s r then attachFiles o root dataR ps
    else if o.regS s && o.regR r && o.sizeS s == o.sizeR r then (attachFiles o root dataR ps).map (⟨o.idxR r, some r, some (dataR r)⟩ :: ·)
    else (attachFiles o root dataR ps).map (⟨o.idxR r, some r, none⟩ :: ·)

/-- 220-226 `data_changed`, with `rpath.cmp` (C50): `dataS s = none` if the file can't be read; if no data are attached, `fp2` is None and
AttributeError is raised. -/
def dataChanged (o : Ops K S R) (dataS : S → Option C) (data : Option C) (s : S) (r : R) : Option Bool :=
  if o.sizeS s ≠ o.sizeR r then some true
  else
    match dataS s with
    | none => some true
    | some c =>
      match data with
      | none => none
      | some c' => some (c ≠ c')

/-- 229-234 `compare_full`; `fs`: the file at `base_dir.new_index(index)`, which may not exist -/
def compareFullLoop (o : Ops K S R) (fs : K → S) (dataS : S → Option C) : List (Sent K R C) → Option (List (K × Report))
  | [] => some []
  | x :: xs =>
    match basicReport (σ := Unit) o (some fun t s r => (dataChanged o dataS x.data s r).map (·, t)) () (some (fs x.index)) x.repo with
    | none => none
    | some (rep, _) => (compareFullLoop o fs dataS xs).map (rep.toList ++ ·)

/-- _dir_shadow.py 211-230 `compare_full` on the result of `_repo_shadow.py` `attach_files` -/
def compareFull (o : Ops K S R) (root : K) (fs : K → S) (dataS : S → Option C) (dataR : R → C) (src : List S) (repo : List R) :
    Option (List (K × Report)) :=
  match attachFiles o root dataR (collate2 o.idxS o.idxR src repo) with
  | none => none
  | some xs => compareFullLoop o fs dataS xs

end full

/-- _repo_shadow.py 1009-1021 `list_files_changed_since`; both lists are of the repository -/
def changedSince (idx : R → K) (eq : R → R → Bool) (old cur : List R) : List (K × Report) :=
  (collate2 idx idx old cur).filterMap fun p =>
    match p with
    | (none, none) => none
    | (none, some c) => some (idx c, .new)
    | (some a, none) => some (idx a, .deleted)
    | (some a, some c) => if eq a c then none else some (idx a, .changed)

end Verif.Compare
