import Verif.Proof.RFCache
import Verif.Proof.RepoReach
/- What is read through the cache in a repository with complete backups. -/
namespace Verif.Repo
open Verif.Collate Verif.JoinSpec Verif.MetaChain
set_option linter.unusedSectionVars false
variable {α A C S H Δ L : Type} [LinearOrder α] [DecidableEq A] [DecidableEq S] [DecidableEq H] [DecidableEq L]
variable {o : Ops A C H Δ L} {rsv : α → Prop} {st : State α A C S H Δ} {hist : Hist α A C S}

/-- data which can be restored are on disk -/
theorem onDisk_of_content {mt t : Nat} {i : List α} (hi : i ≠ []) {x : C} (h : restoreContent o st mt t i = some x) : OnDisk st i := by
  refine ⟨hi, ?_⟩
  by_contra hc
  push Not at hc
  obtain ⟨h1, h2, -⟩ := hc
  have h1' : get st.mirror i = none := by
    cases hg : get st.mirror i with
    | none => rfl
    | some n => rw [hg] at h1; exact absurd rfl h1
  have h2' : st.incs.filter (fun f => f.idx = i) = [] := by
    rw [List.filter_eq_nil_iff]
    intro f hf he
    exact h2 f hf (by simpa using he)
  unfold restoreContent at h
  rw [h1', h2'] at h
  simp [setRelevantIncs, restoreFp, firstContent] at h

/-- the records of the chosen backup, and their data -/
structure ReadsAs (o : Ops A C H Δ L) (st : State α A C S H Δ) (mt t : Nat) (sub : List α) (T : Files α (Node A C S))
    (recs : List (Rec (List α) (MRec A S H))) : Prop where
  good : GoodRecs recs
  files : ∀ r ∈ recs, sub.isPrefixOf r.idx = true ∧ ∃ m n, r.data = some m ∧ get T r.idx = some n ∧ Desc o (some n) (some m)
  all : ∀ x ∈ T, sub.isPrefixOf x.1 = true → ∃ r ∈ recs, r.idx = x.1
  data : ∀ r ∈ recs, ∀ a c, get T r.idx = some (.reg a c) → restoreContent o st mt t r.idx = some c
  restored : allSome (recs.map (restoreOne o st mt t)) = some (T.filter (fun x => sub.isPrefixOf x.1))

theorem allSome_mem {β : Type} {l : List (Option β)} {r : List β} (h : allSome l = some r) : l = r.map some := by
  induction l generalizing r with
  | nil => cases h; rfl
  | cons x l ih =>
    cases x with
    | none => cases h
    | some x =>
      simp only [allSome, Option.map_eq_some_iff] at h
      obtain ⟨r', h1, rfl⟩ := h
      rw [List.map_cons, ← ih h1]

theorem chosen_some (hr : Rep o rsv st hist) (hne : hist ≠ []) (t : Nat) (sub : List α) :
    ∃ mt x recs, st.marks = [mt] ∧ chosen hist t = some x ∧ IsTree rsv x.2 ∧ FsWF st ∧ recordsAt st mt t sub = some (x.1, recs) ∧
      ReadsAs o st mt x.1 sub x.2 recs := by
  rcases hr with ⟨rfl, -⟩ | ⟨P, T0, rest, L0, mrest, rfl, hs, hc⟩
  · exact absurd rfl hne
  obtain ⟨x, hx⟩ := chosen_isSome (hist := (P.t0, T0) :: rest) (by simp) t
  obtain ⟨t', T⟩ := x
  have hm := chosen_mem hx
  obtain ⟨recs, h1, h2⟩ := restore_at hs hc (t := t') (T := T) hm sub
  refine ⟨P.t0, (t', T), recs, hc.marks, hx, hs.trees _ hm, hc.wf, ?_, ?_⟩
  · unfold recordsAt
    rw [setRestoreTime_eq (incrementTimes_mem hs hc) hs.times, hx]
    simp only [Option.map_some]
    rw [h1]; rfl
  · obtain ⟨⟨t2, l⟩, hl, he, hdes⟩ := forall₂_mem_left hs.desc _ hm
    simp only at he hdes; subst he
    have hT := hs.trees _ hm
    have h3 := hc.metas.read hl (fun i => sub.isPrefixOf i)
    rw [h1] at h3
    obtain rfl := Option.some.inj h3
    clear h3
    have hrec : ∀ r ∈ l, ∃ m, r.data = some m ∧ recAt l r.idx = some m := by
      intro r hr
      obtain ⟨m, hm'⟩ := Option.isSome_iff_exists.mp (hdes.listing.2 r hr)
      exact ⟨m, hm', (find_mem hdes.listing r.idx m).mpr (by rw [← hm']; exact hr)⟩
    have hfiles : ∀ r ∈ l, ∃ m n, r.data = some m ∧ get T r.idx = some n ∧ Desc o (some n) (some m) := by
      intro r hr
      obtain ⟨m, hm1, hm2⟩ := hrec r hr
      have hd := hdes.desc r.idx
      rw [hm2] at hd
      cases hg : get T r.idx with
      | none => rw [hg] at hd; cases m <;> exact hd.elim
      | some n => rw [hg] at hd; exact ⟨m, n, hm1, rfl, hd⟩
    refine ⟨⟨List.Pairwise.filter _ hdes.listing.1, ?_⟩, ?_, ?_, ?_, h2⟩
    · rintro r hr ⟨a, s, h, hd⟩ he
      obtain ⟨m, n, e1, e2, e3⟩ := hfiles r (List.mem_of_mem_filter hr)
      obtain ⟨a', ha⟩ := hT.root
      have := (hT.get_iff _ _).mpr ha
      rw [he, this] at e2
      rw [hd] at e1
      cases e1; cases e2
      exact e3
    · intro r hr
      exact ⟨(List.mem_filter.mp hr).2, hfiles r (List.mem_of_mem_filter hr)⟩
    · intro x hx hp
      have hx' := (hT.get_iff x.1 x.2).mpr hx
      have hd := hdes.desc x.1
      rw [hx'] at hd
      cases hr : recAt l x.1 with
      | none => rw [hr] at hd; revert hd; cases x.2 <;> exact False.elim
      | some m => exact ⟨_, List.mem_filter.mpr ⟨(find_mem hdes.listing x.1 m).mp hr, hp⟩, rfl⟩
    · intro r hr a c hg
      obtain ⟨m, n, e1, e2, e3⟩ := hfiles r (List.mem_of_mem_filter hr)
      rw [hg] at e2; cases e2
      have : restoreOne o st P.t0 t' r ∈ (l.filter (fun r => sub.isPrefixOf r.idx)).map (restoreOne o st P.t0 t') :=
        List.mem_map_of_mem hr
      rw [allSome_mem h2, List.mem_map] at this
      obtain ⟨y, hy, hye⟩ := this
      cases m with
      | reg a' sz h =>
        simp only [restoreOne, e1] at hye
        cases hx : restoreContent o st P.t0 t' r.idx with
        | none => rw [hx] at hye; cases hye
        | some z =>
          rw [hx] at hye
          simp only [Option.map_some, Option.some.injEq] at hye
          subst hye
          have := (hT.get_iff _ _).mpr (List.mem_of_mem_filter hy)
          simp only at this
          rw [hg] at this
          cases this; rfl
      | _ => exact e3.elim

theorem ReadsAs.kept {mt t : Nat} {sub : List α} {T : Files α (Node A C S)} {recs} (h : ReadsAs o st mt t sub T recs) :
    ∀ r ∈ recs, (∃ a s hh, r.data = some (.reg a s hh)) → OnDisk st r.idx := by
  rintro r hr ⟨a, s, hh, hd⟩
  obtain ⟨-, m, n, e1, e2, e3⟩ := h.files r hr
  rw [hd] at e1; cases e1
  cases n with
  | reg a' c => exact onDisk_of_content (h.good.below r hr ⟨a, s, hh, hd⟩) (h.data r hr a' c e2)
  | _ => exact e3.elim

theorem ReadsAs.direct {mt t : Nat} {sub : List α} {T : Files α (Node A C S)} {recs} (h : ReadsAs o st mt t sub T recs)
    (F : Reading C S) : allSome (recs.map (directOne o F st mt t)) = some (T.filter (fun x => sub.isPrefixOf x.1)) := by
  rw [← h.restored]
  congr 1
  apply List.map_congr_left
  intro r hr
  obtain ⟨-, m, n, e1, e2, e3⟩ := h.files r hr
  cases m with
  | reg a s hh =>
    cases n with
    | reg a' c =>
      have := h.data r hr a' c e2
      simp only [directOne, restoreOne, e1, this]
      unfold restoreContent at this
      unfold directData
      rw [getRestoreFp_eq F this]
    | _ => exact e3.elim
  | _ => simp [directOne, restoreOne, e1]

end Verif.Repo
