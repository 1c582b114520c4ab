import Verif.Spec.RepoVerify
import Verif.Proof.RFReach
import Verif.Props.C39
/- Verification and comparison of whole repositories. -/
namespace Verif.Repo
open Verif.Collate Verif.JoinSpec Verif.MetaChain
set_option linter.unusedSectionVars false
variable {α A C S H Δ L : Type} [LinearOrder α] [DecidableEq A] [DecidableEq S] [DecidableEq H] [DecidableEq L]
variable {o : Ops A C H Δ L} {rsv : α → Prop} {st : State α A C S H Δ} {hist : Hist α A C S}

/-- the data on disk have another digest -/
def badRec (o : Ops A C H Δ L) (F : Reading C S) (st : State α A C S H Δ) (mt t : Nat) (r : Rec (List α) (MRec A S H)) : Bool :=
  match digest r, directData o F st mt t r.idx with
  | some d, some c => !decide (o.sha c = d)
  | _, _ => false

theorem reg_of_digest {r : Rec (List α) (MRec A S H)} {d : H} (h : digest r = some d) : ∃ a s, r.data = some (.reg a s (some d)) := by
  unfold digest at h
  cases hd : r.data with
  | none => simp [hd] at h
  | some m => cases m <;> simp_all

theorem verifyFiles_some (hw : FsWF st) (F : Reading C S) (mt t n : Nat) (recs : List (Rec (List α) (MRec A S H)))
    (hr : GoodRecs recs) (l : List (RestoreFile α A C S Δ)) (hl : ∀ r ∈ recs, RFInv st r.idx l) {x : Nat × Nat}
    (h : verifyFiles o F st n mt t recs l = some x) :
    x = (recs.countP (badRec o F st mt t), recs.countP noDigest) ∧
    ∀ r ∈ recs, (digest r).isSome = true → (directData o F st mt t r.idx).isSome = true ∧ ¬ LostLast st r.idx := by
  induction recs generalizing l x with
  | nil => cases h; exact ⟨rfl, by simp⟩
  | cons r recs ih =>
    have ih' := fun l hl x h => @ih hr.tail l hl x h
    have hskip := fun x h => ih' l (fun y hy => hl y (List.mem_cons_of_mem _ hy)) x h
    rw [verifyFiles] at h
    have hother : (∀ a s d, r.data ≠ some (.reg a s d)) → verifyFiles o F st n mt t recs l = some x →
        x = ((r :: recs).countP (badRec o F st mt t), (r :: recs).countP noDigest) ∧
        ∀ r' ∈ r :: recs, (digest r').isSome = true → (directData o F st mt t r'.idx).isSome = true ∧ ¬ LostLast st r'.idx := by
      intro hne h1
      obtain ⟨h2, h3⟩ := hskip _ h1
      have e1 : digest r = none := by
        unfold digest
        cases hd : r.data with
        | none => rfl
        | some m => cases m <;> first | rfl | exact absurd hd (hne _ _ _)
      have e2 : noDigest r = false := by
        unfold noDigest
        cases hd : r.data with
        | none => rfl
        | some m => cases m <;> first | rfl | exact absurd hd (hne _ _ _)
      refine ⟨by rw [h2]; simp [badRec, e1, e2], ?_⟩
      intro r' hr' hd
      rcases List.mem_cons.mp hr' with rfl | hr'
      · rw [e1] at hd; cases hd
      · exact h3 r' hr' hd
    cases hd : r.data with
    | none => rw [hd] at h; exact hother (by simp [hd]) h
    | some m =>
      rw [hd] at h
      cases m with
      | dir a => exact hother (by simp [hd]) h
      | other a s => exact hother (by simp [hd]) h
      | reg a s d =>
        cases d with
        | none =>
          simp only [Option.map_eq_some_iff] at h
          obtain ⟨y, h1, rfl⟩ := h
          obtain ⟨h2, h3⟩ := hskip _ h1
          refine ⟨by rw [h2]; simp [badRec, digest, noDigest, hd], ?_⟩
          intro r' hr' hd'
          rcases List.mem_cons.mp hr' with rfl | hr'
          · simp [digest, hd] at hd'
          · exact h3 r' hr' hd'
        | some d =>
          have hi : r.idx ≠ [] := hr.below r (by simp) ⟨a, s, _, hd⟩
          simp only at h
          cases hg : getRf st r.idx n l with
          | none => rw [hg] at h; cases h
          | some p =>
            obtain ⟨rf, l'⟩ := p
            obtain ⟨rfl, hinv, hlost⟩ := request_some hw (hl r (by simp)) hi hg
            rw [hg] at h
            simp only at h
            rw [getFp_lookup o F mt t hi] at h
            cases hx : directData o F st mt t r.idx with
            | none => rw [hx] at h; cases h
            | some c =>
              rw [hx] at h
              simp only [Option.map_eq_some_iff] at h
              obtain ⟨y, h1, rfl⟩ := h
              obtain ⟨h2, h3⟩ := ih' l' (fun y hy => hinv.mono (le_of_lt ((List.pairwise_cons.mp hr.ordered).1 y hy))) _ h1
              constructor
              · rw [h2]
                by_cases he : o.sha c = d <;> simp [badRec, digest, noDigest, hd, hx, he]
              · intro r' hr' hd'
                rcases List.mem_cons.mp hr' with rfl | hr'
                · exact ⟨by rw [hx]; rfl, hlost⟩
                · exact h3 r' hr' hd'

theorem verifyFiles_ends (hw : FsWF st) (F : Reading C S) (mt t : Nat) (recs : List (Rec (List α) (MRec A S H)))
    (hr : GoodRecs recs)
    (hn : ∀ r ∈ recs, (digest r).isSome = true → (directData o F st mt t r.idx).isSome = true ∧ ¬ LostLast st r.idx)
    (l : List (RestoreFile α A C S Δ)) (hl : ∀ r ∈ recs, RFInv st r.idx l) :
    ∃ N, ∀ n, N ≤ n → (verifyFiles o F st n mt t recs l).isSome = true := by
  induction recs generalizing l with
  | nil => exact ⟨0, fun n _ => rfl⟩
  | cons r recs ih =>
    have ih' := fun l => ih hr.tail (fun x hx => hn x (List.mem_cons_of_mem _ hx)) l
    obtain ⟨N, hN⟩ := ih' l (fun x hx => hl x (List.mem_cons_of_mem _ hx))
    cases hd : r.data with
    | none => exact ⟨N, fun n h => by simp [verifyFiles, hd, hN n h]⟩
    | some m =>
      cases m with
      | dir a => exact ⟨N, fun n h => by simp [verifyFiles, hd, hN n h]⟩
      | other a s => exact ⟨N, fun n h => by simp [verifyFiles, hd, hN n h]⟩
      | reg a s d =>
        cases d with
        | none => exact ⟨N, fun n h => by simp [verifyFiles, hd, hN n h]⟩
        | some d =>
          have hi : r.idx ≠ [] := hr.below r (by simp) ⟨a, s, _, hd⟩
          obtain ⟨h3, h4⟩ := hn r (by simp) (by simp [digest, hd])
          obtain ⟨c, hc⟩ := Option.isSome_iff_exists.mp h3
          obtain ⟨l', N1, h1, h2⟩ := request hw (hl r (by simp)) hi h4
          obtain ⟨N, hN⟩ := ih' l' (fun x hx => h1.mono (le_of_lt ((List.pairwise_cons.mp hr.ordered).1 x hx)))
          refine ⟨max N N1, fun n h => ?_⟩
          rw [verifyFiles, hd]
          simp only
          rw [h2 n (le_trans (le_max_right _ _) h)]
          simp only
          rw [getFp_lookup o F mt t hi, hc]
          simp only [Option.isSome_map]
          exact hN n (le_trans (le_max_left _ _) h)

/-- in a repository with complete backups -/
theorem ReadsAs.directData {mt t : Nat} {sub : List α} {T : Files α (Node A C S)} {recs} (h : ReadsAs o st mt t sub T recs) (F : Reading C S)
    {r : Rec (List α) (MRec A S H)} (hr : r ∈ recs) {a : A} {c : C} (hg : get T r.idx = some (.reg a c)) : directData o F st mt t r.idx = some c := by
  have := h.data r hr a c hg
  unfold restoreContent at this
  exact getRestoreFp_eq F this

theorem ReadsAs.reg {mt t : Nat} {sub : List α} {T : Files α (Node A C S)} {recs} (h : ReadsAs o st mt t sub T recs)
    {r : Rec (List α) (MRec A S H)} (hr : r ∈ recs) {a : A} {s : Nat} {d : Option H} (hd : r.data = some (.reg a s d)) :
    ∃ c, get T r.idx = some (.reg a c) ∧ s = o.size c ∧ ∀ d', d = some d' → d' = o.sha c := by
  obtain ⟨-, m, n, e1, e2, e3⟩ := h.files r hr
  rw [hd] at e1; cases e1
  cases n with
  | reg a' c => obtain ⟨rfl, h2, h3⟩ := e3; exact ⟨c, e2, h2, h3⟩
  | _ => exact e3.elim

theorem ReadsAs.noBad {mt t : Nat} {sub : List α} {T : Files α (Node A C S)} {recs} (h : ReadsAs o st mt t sub T recs) (F : Reading C S) :
    recs.countP (badRec o F st mt t) = 0 := by
  rw [List.countP_eq_zero]
  intro r hr hb
  unfold badRec at hb
  cases hd : digest r with
  | none => simp [hd] at hb
  | some d =>
    obtain ⟨a, s, e⟩ := reg_of_digest hd
    obtain ⟨c, h1, -, h3⟩ := h.reg hr e
    rw [hd, h.directData F hr h1] at hb
    simp [h3 d rfl] at hb

end Verif.Repo
