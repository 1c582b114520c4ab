import Verif.Model.MetaChain
/- What a repository's metadata directory may have gone through (C07, C08, C09). -/
namespace Verif.MetaChain
variable {K D : Type} [LinearOrder K] [DecidableEq D]

/-- A listing as written by a backup: indices strictly increase, every record describes an
existing file. -/
def IsListing (l : List (Rec K D)) : Prop :=
  l.Pairwise (fun x y => x.idx < y.idx) ∧ ∀ r ∈ l, r.data.isSome = true

/-- `History dir hist`: the data directory `dir` may result from a history of sessions, where
`hist` lists the (time, listing) of the backups still kept, newest first.  Besides sessions at
increasing times, the directory may be listed in a different order at any moment, and old backups
may have been removed (`_repo_shadow.py:1208-1250` deletes exactly the files older than a time), or files may have been
removed from all backups (`_repo_shadow.py:1290-1397` deletes their records from all metadata files; here any set of indices). -/
inductive History : Dir K D → List (Nat × List (Rec K D)) → Prop
  | empty : History [] []
  | session {dir hist dir' t L} : History dir hist → (∀ h ∈ hist, h.1 < t) → IsListing L →
      session dir t L = some dir' → History dir' ((t, L) :: hist)
  | relist {dir hist dir'} : History dir hist → dir.Perm dir' → History dir' hist
  | remove {dir hist} (t : Nat) : History dir hist →
      History (dir.filter (fun f => t ≤ f.time)) (hist.filter (fun h => t ≤ h.1))
  | keep {dir hist} (p : K → Bool) : History dir hist →
      History (dir.map (fun f => { f with recs := f.recs.filter (fun r => p r.idx) }))
        (hist.map (fun h => (h.1, h.2.filter (fun r => p r.idx))))

end Verif.MetaChain
