import Verif.Proof.RegressAll
import Verif.Proof.RepoRestore
import Verif.Proof.RemoveFile
import Verif.Proof.ForceRegress
import Verif.Proof.FirstBackup
/- Every reachable repository represents its history. -/
namespace Verif.Repo
open Verif.Collate Verif.FillIn Verif.TreeReducer Verif.MetaChain Verif.JoinSpec
set_option linter.unusedSectionVars false
variable {α A C S H Δ L : Type} [LinearOrder α] [DecidableEq A] [DecidableEq S] [DecidableEq H] [DecidableEq L]
variable {o : Ops A C H Δ L} {rsv : α → Prop} {st : State α A C S H Δ} {hist : Hist α A C S}

/-- a session in a repository without interrupted backup completes -/
theorem backup_rep (h : Rep o rsv st hist) {s : Sess α A C S H Δ} (hv : ValidSess o rsv hist s) :
    ∃ st', backup o st s = some st' ∧ ∀ T, Recorded (lastTree hist) s T → Rep o rsv st' ((s.now, T) :: hist) := by
  rcases h with ⟨rfl, a, rfl⟩ | ⟨P, T0, rest, L0, mrest, rfl, hs, hc⟩
  · exact session_first a hv
  · obtain ⟨work, st', h1, h2, h3, -⟩ := session_next hs hc hv
    refine ⟨st', ?_, h3⟩
    unfold backup
    rw [h1]; exact h2

theorem crash_rep (h : Rep o rsv st hist) (hne : hist ≠ []) {s : Sess α A C S H Δ} (hv : ValidSess o rsv hist s)
    {steps n st'} (h1 : sessionSteps o st s = some steps) (h2 : 0 < n) (h3 : n < steps.length)
    (h4 : exec s.stamp (steps.take n) st = some st') : CI o rsv st' hist := by
  rcases h with ⟨rfl, -⟩ | ⟨P, T0, rest, L0, mrest, rfl, hs, hc⟩
  · exact absurd rfl hne
  · obtain ⟨work, st₂, e1, -, -, e4, -⟩ := session_next hs hc hv
    rw [e1] at h1; cases h1
    obtain ⟨k, rfl⟩ : ∃ k, n = k + 1 := ⟨n - 1, by omega⟩
    simp only [List.length_cons, List.length_append, List.length_nil] at h3
    refine ⟨P, T0, rest, L0, mrest, s.now, rfl, hs, hv.time (P.t0, T0) (by simp), e4 k st' (by omega) ?_⟩
    rw [List.take_succ_cons, List.take_append_of_le_length (by omega)] at h4
    exact h4

theorem remove_rep (h : Rep o rsv st hist) {older force t} (hr : removalTime st older force = .before t) :
    Rep o rsv (removeBefore st t) (hist.filter (fun x => t ≤ x.1)) := by
  obtain ⟨-, f, hf, hf0, rfl⟩ := removal_bound hr
  rcases h with ⟨rfl, a, rfl⟩ | ⟨P, T0, rest, L0, mrest, rfl, hs, hc⟩
  · simp at hf
  · have hm : f ∈ incsAt st [] := by simp [incsAt, hf, hf0]
    rw [hc.incs] at hm
    have hlt := (hs.incs _ f hm).2.1
    obtain ⟨P', e, s', c'⟩ := remove_clean hs hc (t := f.time + 1) hlt
    refine .inr ⟨P', T0, _, L0, _, ?_, s', c'⟩
    rw [List.filter_cons, if_pos (by simp; omega), e]

theorem removeFile_rep (stamp : A) (h : Rep o rsv st hist) {p : List α} (hp : p ≠ []) :
    Rep o rsv (removeFile stamp st p) (hist.map fun x => (x.1, without p x.2)) := by
  rcases h with ⟨rfl, a, rfl⟩ | ⟨P, T0, rest, L0, mrest, rfl, hs, hc⟩
  · refine .inl ⟨rfl, a, ?_⟩
    have hp' : ([] : List α) ≠ p := fun h => hp h.symm
    simp [removeFile, removeRecs, removeIncs, removeMirror, get, hp, hp']
  · obtain ⟨P', e, s', c'⟩ := removeFile_clean stamp hs hc hp
    exact .inr ⟨P', _, _, _, _, by simp [e], s', c'⟩

/-- every reachable repository represents its history, or is in the state of an interrupted backup -/
theorem reach_inv {b : Bool} (h : Reach o rsv b st hist) :
    (b = false → Rep o rsv st hist) ∧ (b = true → CI o rsv st hist) := by
  induction h with
  | init a => exact ⟨fun _ => .inl ⟨rfl, a, rfl⟩, by simp⟩
  | fresh hm hv hb hT =>
    refine ⟨fun _ => ?_, by simp⟩
    obtain ⟨work, st', h1, h2, h3, -⟩ := session_any hm hv
    unfold anyState at h1 h2
    unfold Repo.backup at hb
    rw [h1, Option.bind_some, h2] at hb; cases hb
    exact h3 _ hT
  | backup hr hv hb hT ih =>
    refine ⟨fun _ => ?_, by simp⟩
    obtain ⟨st', h1, h2⟩ := backup_rep (ih.1 rfl) hv
    rw [h1] at hb; cases hb
    exact h2 _ hT
  | crash hr hne hv h1 h2 h3 h4 ih => exact ⟨by simp, fun _ => crash_rep (ih.1 rfl) hne hv h1 h2 h3 h4⟩
  | regress hr hv hb ih =>
    refine ⟨fun _ => ?_, by simp⟩
    obtain ⟨steps, st', h1, h2, h3, -⟩ := regress_ci (ih.2 rfl) hv
    unfold regress at hb
    rw [h1, Option.bind_some, h2] at hb; cases hb
    exact h3
  | recrash hr hv h1 h2 h3 ih =>
    refine ⟨by simp, fun _ => ?_⟩
    obtain ⟨steps, st', e1, -, -, e4⟩ := regress_ci (ih.2 rfl) hv
    rw [e1] at h1; cases h1
    obtain ⟨st'', e5, e6⟩ := e4 _ h2
    rw [e5] at h3; cases h3
    exact e6
  | remove hr hrm ih => exact ⟨fun _ => remove_rep (ih.1 rfl) hrm, by simp⟩
  | removeFile stamp hr hp ih => exact ⟨fun _ => removeFile_rep stamp (ih.1 rfl) hp, by simp⟩
  | @force st x hist st' hr hne hf ih =>
    refine ⟨by simp, fun _ => ?_⟩
    cases hist with
    | nil => exact absurd rfl hne
    | cons y rest =>
      obtain ⟨st1, h1, h2, -⟩ := force_rep (ih.1 rfl)
      rw [hf] at h1; cases h1
      exact h2

theorem Rep.times (h : Rep o rsv st hist) : (hist.map Prod.fst).Pairwise (· > ·) := by
  rcases h with ⟨rfl, -⟩ | ⟨P, T0, rest, L0, mrest, rfl, hs, hc⟩
  · simp
  · exact hs.times

theorem Rep.trees (h : Rep o rsv st hist) : ∀ x ∈ hist, IsTree rsv x.2 := by
  rcases h with ⟨rfl, -⟩ | ⟨P, T0, rest, L0, mrest, rfl, hs, hc⟩
  · simp
  · exact hs.trees

theorem CI.times (h : CI o rsv st hist) : (hist.map Prod.fst).Pairwise (· > ·) := by
  obtain ⟨P, T0, rest, L0, mrest, bad, rfl, hs, -⟩ := h
  exact hs.times

theorem Rep.restore (h : Rep o rsv st hist) (hne : hist ≠ []) (t : Nat) (sub : List α) :
    ∃ x, chosen hist t = some x ∧ restore o st t sub = some (x.2.filter (fun y => sub.isPrefixOf y.1)) := by
  rcases h with ⟨rfl, -⟩ | ⟨P, T0, rest, L0, mrest, rfl, hs, hc⟩
  · exact absurd rfl hne
  · exact restore_clean hs hc t sub

/-- what is recorded exists -/
theorem recorded_exists (old : Files α (Node A C S)) (s : Sess α A C S H Δ)
    (ho : s.src.Pairwise (fun x y => x.1 < y.1)) : ∃ T, Recorded old s T := by
  refine ⟨s.src.filterMap (fun x => (recordedAt (get old x.1) (some x.2) (s.fails x.1)).map (fun n => (x.1, n))), ?_, ?_⟩
  · rw [List.pairwise_filterMap]
    refine ho.imp ?_
    intro x y hxy a ha b hb
    obtain ⟨n, -, rfl⟩ := Option.map_eq_some_iff.mp ha
    obtain ⟨n', -, rfl⟩ := Option.map_eq_some_iff.mp hb
    exact hxy
  · intro i
    have key : ∀ l : Files α (Node A C S), l.Pairwise (fun x y => x.1 < y.1) →
        get (l.filterMap (fun x => (recordedAt (get old x.1) (some x.2) (s.fails x.1)).map (fun n => (x.1, n)))) i =
          recordedAt (get old i) (get l i) (s.fails i) := by
      intro l hl
      induction l with
      | nil => rfl
      | cons x l ih =>
        obtain ⟨k, v⟩ := x
        obtain ⟨h1, h2⟩ := List.pairwise_cons.mp hl
        rw [List.filterMap_cons]
        by_cases hk : k = i
        · subst hk
          have hnone : get l k = none := by
            by_contra hcon
            obtain ⟨x, hx, he⟩ := (get_isSome_iff _ _).mp (Option.isSome_iff_ne_none.mpr hcon)
            have := h1 x hx
            rw [he] at this; exact lt_irrefl _ this
          cases hr : recordedAt (get old k) (some v) (s.fails k) with
          | none => simp only [Option.map_none]; rw [ih h2, hnone, get, if_pos rfl, hr]; rfl
          | some n => simp only [Option.map_some]; rw [get, if_pos rfl, get, if_pos rfl, hr]
        · rw [show get ((k, v) :: l) i = get l i by rw [get, if_neg hk]]
          cases hr : recordedAt (get old k) (some v) (s.fails k) with
          | none => simp only [Option.map_none]; exact ih h2
          | some n => simp only [Option.map_some]; rw [get, if_neg hk]; exact ih h2
    exact key _ ho

/-- without failures the source is recorded -/
theorem recorded_src (old : Files α (Node A C S)) (s : Sess α A C S H Δ)
    (ho : s.src.Pairwise (fun x y => x.1 < y.1)) (hf : ∀ i, s.fails i = false) : Recorded old s s.src := by
  refine ⟨ho, fun i => ?_⟩
  cases h : get s.src i <;> simp [recordedAt, hf]

end Verif.Repo
