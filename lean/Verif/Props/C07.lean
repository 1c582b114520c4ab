import Verif.Proof.MetaChain
/-
C07  Metadata history is exact.
C08  Metadata diff chains stay short.
-/
namespace Verif.C07
open Verif.MetaChain
variable {K D : Type} [LinearOrder K] [DecidableEq D]

/-- Reading the metadata of any backup kept in the repository gives exactly the listing written at
that backup, restricted as asked for. -/
theorem meta_read_exact {dir : Dir K D} {hist} (h : History dir hist) {t : Nat} {L : List (Rec K D)}
    (hm : (t, L) ∈ hist) (restrict : K → Bool) :
    metaAtTime dir t restrict = some (L.filter (fun r => restrict r.idx)) :=
  h.inv.read hm restrict

/-- The next session never fails on the metadata: with a time newer than all kept backups, the
listing is stored, and the resulting directory again has a history (so the theorem above applies
to it, for the new listing and all the older ones). -/
theorem meta_session_succeeds {dir : Dir K D} {hist} (h : History dir hist) {t : Nat}
    {L : List (Rec K D)} (ht : ∀ x ∈ hist, x.1 < t) (hL : IsListing L) :
    ∃ dir', session dir t L = some dir' ∧ History dir' ((t, L) :: hist) := by
  obtain ⟨dir', h1, -⟩ := h.inv.session ht hL
  exact ⟨dir', h1, .session h ht hL h1⟩

/-- All sessions of a whole history of listings (oldest first), from an empty directory. -/
def runSessions (dir : Dir K D) : List (Nat × List (Rec K D)) → Option (Dir K D)
  | [] => some dir
  | (t, L) :: rest => (session dir t L).bind (fun d => runSessions d rest)

/-- C07 in closed form: for every history of listings at strictly increasing times, all sessions
succeed and afterwards every listing can be read back. -/
theorem meta_history_exact (hist : List (Nat × List (Rec K D)))
    (hinc : (hist.map Prod.fst).Pairwise (· < ·)) (hl : ∀ x ∈ hist, IsListing x.2) :
    ∃ dir, runSessions [] hist = some dir ∧
      ∀ t L, (t, L) ∈ hist → metaAtTime dir t (fun _ => true) = some L := by
  have gen : ∀ (hist past : List (Nat × List (Rec K D))) (dir : Dir K D), History dir past →
      (hist.map Prod.fst).Pairwise (· < ·) → (∀ x ∈ hist, IsListing x.2) →
      (∀ p ∈ past, ∀ x ∈ hist, p.1 < x.1) →
      ∃ dir', runSessions dir hist = some dir' ∧ History dir' (hist.reverse ++ past) := by
    intro hist
    induction hist with
    | nil => intro past dir hd _ _ _; exact ⟨dir, rfl, hd⟩
    | cons x hist ih =>
      intro past dir hd hinc hl hp
      obtain ⟨t, L⟩ := x
      obtain ⟨h1, h2⟩ := List.pairwise_cons.mp hinc
      obtain ⟨d, hs, hd'⟩ := meta_session_succeeds hd (t := t) (L := L)
        (fun p hpp => hp p hpp (t, L) (by simp)) (hl (t, L) (by simp))
      obtain ⟨dir', h3, h4⟩ := ih ((t, L) :: past) d hd' h2 (fun x hx => hl x (by simp [hx])) (by
        intro p hpp y hy
        rcases List.mem_cons.mp hpp with rfl | hpp
        · exact h1 _ (List.mem_map.mpr ⟨y, hy, rfl⟩)
        · exact hp p hpp y (by simp [hy]))
      refine ⟨dir', by simp [runSessions, hs, h3], ?_⟩
      simpa using h4
  obtain ⟨dir, h1, h2⟩ := gen hist [] [] .empty hinc hl (by simp)
  refine ⟨dir, h1, ?_⟩
  intro t L hm
  have := meta_read_exact h2 (t := t) (L := L) (by simpa using hm) (fun _ => true)
  rw [this]
  simp

-- a history of three listings with a change, a deletion and an addition
example : let hist : List (Nat × List (Rec Nat Nat)) :=
    [(10, [⟨1, some 5⟩, ⟨2, some 6⟩]), (20, [⟨1, some 7⟩]), (30, [⟨1, some 7⟩, ⟨3, some 1⟩])]
    (hist.map Prod.fst).Pairwise (· < ·) ∧ ∀ x ∈ hist, IsListing x.2 := by
  unfold IsListing; decide

end Verif.C07

namespace Verif.C08
open Verif.MetaChain
variable {K D : Type} [LinearOrder K] [DecidableEq D]

/-- However long the history, reading the metadata of any kept backup needs one snapshot and at most
eight diffs (so fewer than the constant nine). -/
theorem chain_bounded {dir : Dir K D} {hist} (h : History dir hist) {t : Nat} {L : List (Rec K D)}
    (hm : (t, L) ∈ hist) :
    ∃ snap diffs, relevantIncs dir t = some (snap :: diffs) ∧ snap.snap = true ∧
      (∀ d ∈ diffs, d.snap = false) ∧ diffs.length ≤ 8 := by
  obtain ⟨ss, h1, h2, -, -, -, h6⟩ := h.inv.relevant hm
  have h1' := h1
  unfold relevantIncs at h1'
  split at h1'
  · cases h1'
  · split at h1'
    · cases h1'
    · split at h1'
      · obtain ⟨-, f, ds, rfl, hf, hds⟩ := backToSnapshot_short h1'
        exact ⟨f, ds, h1, hf, hds, by simp at h6; omega⟩
      · cases h1'

-- a non-empty history exists
example : ∃ dir : Dir Nat Nat, History dir [(10, [⟨1, some 5⟩])] :=
  let ⟨dir, _, h⟩ := C07.meta_session_succeeds (K := Nat) (D := Nat) (t := 10) (L := [⟨1, some 5⟩])
    History.empty (by simp) (by unfold IsListing; decide)
  ⟨dir, h⟩

end Verif.C08
