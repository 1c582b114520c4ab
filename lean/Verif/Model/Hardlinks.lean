/-
Model of `src/rdiffbackup/locations/map/hardlinks.py`, and of the order in which its functions are called by a backup
(`_repo_shadow.py` 569-610, 2205-2223, 2319-2339, 2349-2372, 2421-2433) and by a restore (956-991).

`I`: indices, `K`: pairs (inode, devloc), `D`: digests.
-/
namespace Verif.Hardlinks
variable {I K D : Type} [DecidableEq I] [DecidableEq K] [DecidableEq D]

/-- what is looked at of a RORPath; `nlink`: `getnumlinks()`; `key = none`: `_get_inode_key` (223-227) raises KeyError -/
structure Rorp (I K D : Type) where
  index : I
  reg : Bool
  nlink : Nat
  key : Option K
  sha1 : Option D
  deriving DecidableEq

/-- `dest_key`: None, "NA" or a pair (39-41) -/
inductive DestKey (K : Type) where
  | missing
  | na
  | key (k : K)
  deriving DecidableEq

/-- a value of `_inode_index` -/
structure Entry (I K D : Type) where
  index : I
  remaining : Nat
  dest : DestKey K
  digest : Option D
  deriving DecidableEq

/-- `_inode_index` and `_inode_old_index` -/
structure Tab (I K D : Type) where
  tab : K → Option (Entry I K D)
  old : K → Option D

/-- hardlinks.py 30-45: both dictionaries are empty -/
def empty : Tab I K D := ⟨fun _ => none, fun _ => none⟩

/-- assignment to (or deletion from) a Python dictionary: `d[k] = v`, `del d[k]` -/
def set {V : Type} (f : K → Option V) (k : K) (v : Option V) : K → Option V := fun k' => if k' = k then v else f k'

/-- 48-69 `add_rorp`: the dictionaries afterwards and `dest_rorp` (which may have got a digest); `none` if KeyError is raised -/
def add (t : Tab I K D) (r : Rorp I K D) (dest : Option (Rorp I K D)) : Option (Tab I K D × Option (Rorp I K D)) :=
  if !r.reg || r.nlink < 2 then some (t, dest)
  else
    match r.key with
    | none => none
    | some k =>
      match t.tab k with
      | some _ => some (t, dest)
      | none =>
        match dest with
        | none => some ({ t with tab := set t.tab k (some ⟨r.index, r.nlink, .missing, r.sha1⟩) }, none)
        | some d =>
          if d.nlink = 1 then some ({ t with tab := set t.tab k (some ⟨r.index, r.nlink, .na, r.sha1⟩) }, some d)
          else
            match d.key with
            | none => none
            | some dk =>
              match d.sha1, t.old dk with
              | none, some h =>
                some (⟨set t.tab k (some ⟨r.index, r.nlink, .key dk, r.sha1⟩), set t.old dk none⟩, some { d with sha1 := some h })
              | _, _ => some ({ t with tab := set t.tab k (some ⟨r.index, r.nlink, .key dk, r.sha1⟩) }, some d)

/-- 72-81 `add_old_rorp` -/
def addOld (t : Tab I K D) (r : Rorp I K D) : Option (Tab I K D) :=
  match r.sha1 with
  | none => some t
  | some h =>
    if !r.reg || r.nlink < 2 then some t
    else
      match r.key with
      | none => none
      | some k => match t.old k with
        | some _ => some t
        | none => some { t with old := set t.old k (some h) }

/-- 84-100 `del_rorp` -/
def del (t : Tab I K D) (r : Rorp I K D) : Option (Tab I K D) :=
  if !r.reg || r.nlink < 2 then some t
  else
    match r.key with
    | none => none
    | some k =>
      match t.tab k with
      | none => some t
      | some e =>
        if e.remaining = 1 then some { t with tab := set t.tab k none }
        else some { t with tab := set t.tab k (some { e with remaining := e.remaining - 1 }) }

/-- 140-149 `is_linked` -/
def isLinked (t : Tab I K D) (r : Rorp I K D) : Option Bool :=
  if !(r.nlink > 1) then some false
  else
    match r.key with
    | none => none
    | some k =>
      match t.tab k with
      | none => some false
      | some e => some (e.index ≠ r.index)

/-- 152-156 `get_link_index` -/
def linkIndex (t : Tab I K D) (r : Rorp I K D) : Option I := r.key.bind fun k => (t.tab k).map (·.index)

/-- 159-163 `get_sha1` -/
def getSha1 (t : Tab I K D) (r : Rorp I K D) : Option (Option D) := r.key.bind fun k => (t.tab k).map (·.digest)

/-- 102-137 `rorp_eq`: the result and the dictionaries afterwards; `none` if KeyError is raised -/
def rorpEq (t : Tab I K D) (src dest : Rorp I K D) : Option (Bool × Tab I K D) :=
  if !src.reg || !dest.reg || (src.nlink = dest.nlink ∧ dest.nlink = 1) then some (true, t)
  else
    match isLinked t src with
    | none => none
    | some linked =>
      if !linked && dest.sha1.isNone then some (false, t)
      else if src.nlink ≠ dest.nlink then some (false, t)
      else
        match src.key with
        | none => none
        | some k =>
          match t.tab k with
          | none => none
          | some e =>
            if e.dest = .na then some (true, { t with tab := set t.tab k (some { e with dest := .missing, digest := none }) })
            else
              match dest.key with
              | none => some (false, t)
              | some dk => some (e.dest = .key dk, t)

/-- 166-179 `get_hash` -/
def getHash (t : Tab I K D) (r : Rorp I K D) : Option (Option D × Tab I K D) :=
  match add t r none with
  | none => none
  | some (t, _) =>
    match isLinked t r with
    | none => none
    | some linked =>
      match (if linked then getSha1 t r else some r.sha1) with
      | none => none
      | some h => (del t r).map fun t => (h, t)

/-! ### the calls of a backup or restore -/

/-- an element of the collated stream: source (or backup, at a restore) and destination file, and whether `RORPath.__eq__` holds -/
structure Pair (I K D : Type) where
  src : Option (Rorp I K D)
  dest : Option (Rorp I K D)
  same : Bool

/-- what is done with a file: nothing; made a link to the file with the index; replaced by a new one (or deleted) -/
inductive Decision (I : Type) where
  | keep
  | link (i : I)
  | replace
  deriving DecidableEq

/-- `_repo_shadow.py` 596-616 `_get_one_sig` (backup), 979-993 `_get_diff` (restore): the decision about a file which is not left as it is -/
def onChanged (t : Tab I K D) (src : Option (Rorp I K D)) : Option (Decision I) :=
  match src with
  | none => some .replace
  | some s =>
    match isLinked t s with
    | none => none
    | some true => (linkIndex t s).map .link
    | some false => some .replace

/-- `_repo_shadow.py` 582-595 (backup), 963-976 (restore): the decision and the dictionaries afterwards; that no signature may be available
(593: an error reading the repository) is not modelled -/
def decideOn (t : Tab I K D) (p : Pair I K D) : Option (Decision I × Tab I K D) :=
  match p.src, p.dest with
  | some s, some d =>
    if p.same then
      match rorpEq t s d with
      | none => none
      | some (true, t') => some (.keep, t')
      | some (false, t') => (onChanged t' p.src).map (·, t')
    else (onChanged t p.src).map (·, t)
  | _, _ => (onChanged t p.src).map (·, t)

/-- A stage of a backup: the first `a` pairs have been through `_pre_process` (2319-2339), the first `q` of them have been decided about by
`_sigs_iterator`, and the first `d` of them through `_post_process` (2421-2433): elements are post-processed when they leave the cache
(`__next__` 2211-2223), at any time after they have entered it. `ps`: the pairs, of which those already seen may have got a digest for
their destination. A restore (956-976) goes through stages with `a = q = d` after each file,
and does not call `add_old_rorp` (`pass`).
`out`: the decisions so far. -/
inductive Run (ps0 : List (Pair I K D)) : List (Pair I K D) → Nat → Nat → Nat → Tab I K D → List (Decision I) → Prop
  | init : Run ps0 ps0 0 0 0 empty []
  | add {ps a q d t out s dest' t'} {p : Pair I K D} : Run ps0 ps a q d t out → ps[a]? = some p → p.src = some s → add t s p.dest = some (t', dest') →
      Run ps0 (ps.set a { p with dest := dest' }) (a + 1) q d t' out
  | addOld {ps a q d t out r t'} {p : Pair I K D} : Run ps0 ps a q d t out → ps[a]? = some p → p.src = none → p.dest = some r → addOld t r = some t' →
      Run ps0 ps (a + 1) q d t' out
  | pass {ps a q d t out} {p : Pair I K D} : Run ps0 ps a q d t out → ps[a]? = some p → p.src = none → Run ps0 ps (a + 1) q d t out
  | decide {ps a q d t out x t'} {p : Pair I K D} : Run ps0 ps a q d t out → ps[q]? = some p → q < a → decideOn t p = some (x, t') →
      Run ps0 ps a (q + 1) d t' (out ++ [x])
  | del {ps a q d t out s t'} {p : Pair I K D} : Run ps0 ps a q d t out → ps[d]? = some p → d < q → p.src = some s → del t s = some t' →
      Run ps0 ps a q (d + 1) t' out
  | skip {ps a q d t out} {p : Pair I K D} : Run ps0 ps a q d t out → ps[d]? = some p → d < q → p.src = none → Run ps0 ps a q (d + 1) t out

end Verif.Hardlinks
