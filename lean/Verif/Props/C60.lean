import Verif.Spec.RepoList
import Verif.Proof.RepoCompare
import Verif.Props.C39
import Verif.Props.C01
/-
C60  `list files`: `--at` lists exactly the files of the chosen backup, `--changed-since` exactly what is different in the last backup.
-/
namespace Verif.C60
open Verif.Repo Verif.MetaChain Verif.JoinSpec Verif.Collate
set_option linter.unusedSectionVars false
variable {α A C S H Δ L : Type} [LinearOrder α] [DecidableEq A] [DecidableEq S] [DecidableEq H] [DecidableEq L]
variable {o : Ops A C H Δ L} {rsv : α → Prop} {st : State α A C S H Δ} {hist : Hist α A C S}

theorem restoreOne_idx {mt t : Nat} {r : Rec (List α) (MRec A S H)} {y : List α × Node A C S} (h : restoreOne o st mt t r = some y) : y.1 = r.idx := by
  unfold restoreOne at h
  cases hd : r.data with
  | none => rw [hd] at h; cases h
  | some m =>
    rw [hd] at h
    cases m with
    | dir a => cases h; rfl
    | other a s => cases h; rfl
    | reg a s d =>
      simp only [Option.map_eq_some_iff] at h
      obtain ⟨x, -, rfl⟩ := h; rfl

theorem reads_paths {mt t : Nat} {sub : List α} {T : Files α (Node A C S)} {recs : List (Rec (List α) (MRec A S H))}
    (h : ReadsAs o st mt t sub T recs) : recs.map (·.idx) = (T.filter fun y => sub.isPrefixOf y.1).map Prod.fst := by
  have e := allSome_mem h.restored
  revert e
  generalize T.filter (fun y => sub.isPrefixOf y.1) = l
  clear h
  induction recs generalizing l with
  | nil => intro e; cases l with
    | nil => rfl
    | cons _ _ => cases e
  | cons r recs ih =>
    intro e
    cases l with
    | nil => cases e
    | cons y l =>
      rw [List.map_cons, List.map_cons] at e
      rw [List.map_cons, List.map_cons, ih l (List.cons.inj e).2, restoreOne_idx (List.cons.inj e).1]

/-- `list files --at t sub` lists exactly the paths of the backup chosen for `t` at and below `sub`, in order. -/
theorem files_at (h : Reach o rsv false st hist) (hne : hist ≠ []) (t : Nat) (sub : List α) :
    ∃ mt x, st.marks = [mt] ∧ chosen hist t = some x ∧
      listFilesAt st mt t sub = some ((x.2.filter fun y => sub.isPrefixOf y.1).map Prod.fst) := by
  obtain ⟨mt, x, recs, hm, hx, -, -, hrec, hra⟩ := chosen_some ((reach_inv h).1 rfl) hne t sub
  refine ⟨mt, x, hm, hx, ?_⟩
  unfold listFilesAt
  rw [hrec, ← reads_paths hra]; rfl

theorem recordsAt_last (hr : Rep o rsv st hist) (hne : hist ≠ []) (sub : List α) :
    ∃ mt T rest recs, st.marks = [mt] ∧ hist = (mt, T) :: rest ∧ recordsAt st mt mt sub = some (mt, recs) ∧
      metaAtTime st.metas mt (fun i => sub.isPrefixOf i) = some recs ∧ ReadsAs o st mt mt sub T recs ∧ IsTree rsv T := by
  obtain ⟨mt, x, recs, hm, hx, hT, -, hrec, hra⟩ := chosen_some hr hne
    (match hist with | y :: _ => y.1 | [] => 0) sub
  rcases hr with ⟨rfl, -⟩ | ⟨P, T0, rest, L0, mrest, rfl, hs, hc⟩
  · exact absurd rfl hne
  have hmt : mt = P.t0 := by
    have := hm.symm.trans hc.marks
    simpa using this
  subst hmt
  have hx' : x = (P.t0, T0) := by
    have := chosen_exact hs.times (List.mem_cons_self (a := (P.t0, T0)) (l := rest))
    simp only at hx this
    rw [hx] at this; exact Option.some.inj this
  subst hx'
  refine ⟨P.t0, T0, rest, recs, hm, rfl, hrec, ?_, hra, hT⟩
  unfold recordsAt at hrec
  rw [setRestoreTime_eq (incrementTimes_mem hs hc) hs.times] at hrec
  simp only at hx
  rw [hx] at hrec
  simp only [Option.map_some] at hrec
  cases hmeta : metaAtTime st.metas P.t0 (fun i => sub.isPrefixOf i) with
  | none => rw [hmeta] at hrec; simp at hrec
  | some l => rw [hmeta] at hrec; simpa using hrec

theorem recordsAt_meta {mt t rt : Nat} {sub : List α} {recs : List (Rec (List α) (MRec A S H))} (h : recordsAt st mt t sub = some (rt, recs)) :
    metaAtTime st.metas rt (fun i => sub.isPrefixOf i) = some recs := by
  unfold recordsAt at h
  cases hs : setRestoreTime (incrementTimes st mt) t with
  | none => rw [hs] at h; cases h
  | some rt' =>
    rw [hs] at h
    simp only [Option.map_eq_some_iff, Prod.mk.injEq] at h
    obtain ⟨l, h1, rfl, rfl⟩ := h
    exact h1

theorem find_rec {recs : List (Rec (List α) (MRec A S H))} (hord : recs.Pairwise (fun x y => x.idx < y.idx))
    {r : Rec (List α) (MRec A S H)} (hr : r ∈ recs) : digestOf recs r.idx = digest r := by
  unfold digestOf
  induction recs with
  | nil => cases hr
  | cons x recs ih =>
    obtain ⟨h1, h2⟩ := List.pairwise_cons.mp hord
    rcases List.mem_cons.mp hr with rfl | hr
    · simp
    · have : x.idx ≠ r.idx := ne_of_lt (h1 r hr)
      simp only [List.find?_cons, this, decide_false]
      exact ih h2 hr

theorem eqRec_iff {m n : Node A C S} {x y : MRec A S H} (hx : Desc o (some m) (some x)) (hy : Desc o (some n) (some y))
    {d d' : Option H} (hd : hashOf (some x) = d) (hd' : hashOf (some y) = d') :
    eqRec (some x) (some y) = false ↔ (¬ SameMeta o m n ∨ (m.isReg = true ∧ n.isReg = true ∧ ∃ e, d = some e ∧ d' ≠ some e)) := by
  subst hd hd'
  cases m <;> cases x <;> (first | exact hx.elim | skip) <;> cases n <;> cases y <;> (first | exact hy.elim | skip) <;>
    simp only [Desc] at hx hy <;> simp only [eqRec, SameMeta, hashOf, Node.isReg]
  all_goals try simp
  · rw [hx, hy]
  · obtain ⟨rfl, rfl, -⟩ := hx
    obtain ⟨rfl, rfl, -⟩ := hy
    rename_i a1 c1 d a2 c2 d'
    cases d with
    | none => simp
    | some e =>
      by_cases h1 : a1 = a2 <;> by_cases h2 : o.size c1 = o.size c2 <;> simp [h1, h2, eq_comm]
  · obtain ⟨rfl, rfl⟩ := hx
    obtain ⟨rfl, rfl⟩ := hy
    exact Iff.rfl

/-- `list files --changed-since t sub`: the reports are in order, one for each path at or below `sub` which is different in the last backup. A
regular file counts as changed if type, attributes or size differ, or a digest was recorded for the old one which isn't that recorded for the
new one. -/
theorem changed_since (h : Reach o rsv false st hist) (hne : hist ≠ []) (t : Nat) (sub : List α) :
    ∃ mt T rest x rOld rCur reps, st.marks = [mt] ∧ hist = (mt, T) :: rest ∧ chosen hist t = some x ∧
      recordsAt st mt t sub = some (x.1, rOld) ∧ recordsAt st mt mt sub = some (mt, rCur) ∧
      listChangedSince st mt t sub = some reps ∧ reps.Pairwise (fun a b => a.1 < b.1) ∧
      ∀ k rep, (k, rep) ∈ reps ↔ sub <+: k ∧ Changed o (digestOf rOld k) (digestOf rCur k) (get x.2 k) (get T k) rep := by
  obtain ⟨mt, x, rOld, hm, hx, hT, -, hrec, hra⟩ := chosen_some ((reach_inv h).1 rfl) hne t sub
  obtain ⟨mt', T, rest, rCur, hm', hh, hrec', hmeta, hra', hT'⟩ := recordsAt_last ((reach_inv h).1 rfl) hne sub
  have : mt' = mt := by
    have := hm'.symm.trans hm
    simpa using this
  subst this
  obtain ⟨h1, h2⟩ := C40.changed_since (idx := Rec.idx) (eq := fun a c => eqRec a.data c.data) hra.good.ordered hra'.good.ordered
  refine ⟨mt', T, rest, x, rOld, rCur, _, hm, hh, hx, hrec, hrec', ?_, h1, fun k rep => ?_⟩
  · unfold listChangedSince
    rw [hrec]
    simp only
    rw [hmeta]
  · rw [h2]
    have hpre : ∀ {x : Nat × Files α (Node A C S)} {recs}, ReadsAs o st mt' x.1 sub x.2 recs → ∀ r ∈ recs, sub <+: r.idx :=
      fun hra r hr => List.isPrefixOf_iff_prefix.mp (hra.files r hr).1
    have habs : ∀ {x : Nat × Files α (Node A C S)} {recs}, IsTree rsv x.2 → ReadsAs o st mt' x.1 sub x.2 recs → ∀ {k}, sub <+: k →
        (get x.2 k = none ↔ ∀ r ∈ recs, r.idx ≠ k) := by
      intro x recs hT hra k hk
      constructor
      · rintro hg r hr rfl
        obtain ⟨-, m, n, -, e2, -⟩ := hra.files r hr
        rw [hg] at e2; cases e2
      · intro hall
        cases hg : get x.2 k with
        | none => rfl
        | some n =>
          obtain ⟨r, hr, he⟩ := hra.all _ ((hT.get_iff _ _).mp hg) (List.isPrefixOf_iff_prefix.mpr hk)
          exact absurd he (hall r hr)
    have hdig : ∀ r : Rec (List α) (MRec A S H), ∀ m, r.data = some m → hashOf (some m) = digest r := by
      intro r m hd
      unfold digest
      rw [hd]
      cases m <;> rfl
    constructor
    · intro hl
      cases hl with
      | new hc hn =>
        rename_i c
        have hk := hpre (x := (mt', T)) hra' c hc
        obtain ⟨-, m, n, -, e2, -⟩ := hra'.files c hc
        refine ⟨hk, ?_⟩
        rw [(habs hT hra hk).mpr hn, e2]
        exact .new n
      | deleted ha hn =>
        rename_i a
        have hk := hpre hra a ha
        obtain ⟨-, m, n, -, e2, -⟩ := hra.files a ha
        refine ⟨hk, ?_⟩
        rw [(habs (x := (mt', T)) hT' hra' hk).mpr hn, e2]
        exact .deleted n
      | changed ha hc hi hf =>
        rename_i a c
        have hk := hpre hra a ha
        obtain ⟨-, m, n, e1, e2, e3⟩ := hra.files a ha
        obtain ⟨-, m', n', e1', e2', e3'⟩ := hra'.files c hc
        refine ⟨hk, ?_⟩
        rw [e2, hi, e2', find_rec hra'.good.ordered hc, ← hi, find_rec hra.good.ordered ha]
        simp only [e1, e1'] at hf
        exact .changed ((eqRec_iff e3 e3' (hdig _ _ e1) (hdig _ _ e1')).mp hf)
    · rintro ⟨hk, hch⟩
      revert hch
      cases hg : get x.2 k with
      | none =>
        cases hg' : get T k with
        | none => intro hch; cases hch
        | some n =>
          intro hch
          cases hch
          obtain ⟨r, hr, he⟩ := hra'.all _ ((hT'.get_iff _ _).mp hg') (List.isPrefixOf_iff_prefix.mpr hk)
          simp only at he
          subst he
          exact .new hr ((habs hT hra hk).mp hg)
      | some m =>
        obtain ⟨r, hr, he⟩ := hra.all _ ((hT.get_iff _ _).mp hg) (List.isPrefixOf_iff_prefix.mpr hk)
        simp only at he
        subst he
        cases hg' : get T r.idx with
        | none =>
          intro hch
          cases hch
          exact .deleted hr ((habs (x := (mt', T)) hT' hra' hk).mp hg')
        | some n =>
          obtain ⟨r', hr', he'⟩ := hra'.all _ ((hT'.get_iff _ _).mp hg') (List.isPrefixOf_iff_prefix.mpr hk)
          simp only at he'
          intro hch
          cases hch with
          | changed hc =>
            obtain ⟨-, y, n1, e1, e2, e3⟩ := hra.files r hr
            obtain ⟨-, y', n1', e1', e2', e3'⟩ := hra'.files r' hr'
            rw [hg] at e2; cases e2
            rw [he', hg'] at e2'; cases e2'
            refine .changed hr hr' he'.symm ?_
            simp only [e1, e1']
            rw [eqRec_iff e3 e3' (hdig _ _ e1) (hdig _ _ e1'), ← find_rec hra.good.ordered hr, ← find_rec hra'.good.ordered hr', he']
            exact hc

/-- If digests are recorded for all regular files of the two backups, and equal digests mean equal data, then a path is reported exactly if the
files are different: another type, other attributes, or other data. -/
theorem changed_since_exact (h : Reach o rsv false st hist) {mt t : Nat} {sub : List α} {T : Files α (Node A C S)} {rest : Hist α A C S}
    (hh : hist = (mt, T) :: rest) {x : Nat × Files α (Node A C S)} (hx : chosen hist t = some x)
    (hinj : ∀ c c', o.sha c = o.sha c' → c = c')
    (hdig : ∀ t', t' = t ∨ t' = mt → ∀ rt recs, recordsAt st mt t' sub = some (rt, recs) → ∀ r ∈ recs, noDigest r = false) :
    ∃ reps, listChangedSince st mt t sub = some reps ∧ reps.Pairwise (fun a b => a.1 < b.1) ∧
      (∀ k, (k, .new) ∈ reps ↔ sub <+: k ∧ get x.2 k = none ∧ get T k ≠ none) ∧
      (∀ k, (k, .deleted) ∈ reps ↔ sub <+: k ∧ get x.2 k ≠ none ∧ get T k = none) ∧
      ∀ k, (k, .changed) ∈ reps ↔ sub <+: k ∧ get x.2 k ≠ none ∧ get T k ≠ none ∧ get x.2 k ≠ get T k := by
  obtain ⟨mt', T', rest', x', rOld, rCur, reps, hm, hh', hx', hrec, hrec', hl, hp, hiff⟩ := changed_since h (by rw [hh]; simp) t sub
  have hmt := hh'.symm.trans hh
  simp only [List.cons.injEq, Prod.mk.injEq] at hmt
  obtain ⟨⟨rfl, rfl⟩, rfl⟩ := hmt
  rw [hx] at hx'; cases hx'
  have hdigest : ∀ {t' : Nat} (_ : t' = t ∨ t' = mt') {rt : Nat} {recs : List (Rec (List α) (MRec A S H))} {U : Files α (Node A C S)},
      recordsAt st mt' t' sub = some (rt, recs) → ReadsAs o st mt' rt sub U recs → IsTree rsv U →
      ∀ {k a c}, sub <+: k → get U k = some (.reg a c) → digestOf recs k = some (o.sha c) := by
    intro t' ht rt recs U hrec hra hU k a c hk hg
    obtain ⟨r, hr, he⟩ := hra.all _ ((hU.get_iff _ _).mp hg) (List.isPrefixOf_iff_prefix.mpr hk)
    simp only at he
    subst he
    have hn := hdig _ ht _ _ hrec r hr
    obtain ⟨-, m, n, e1, e2, e3⟩ := hra.files r hr
    rw [hg] at e2; cases e2
    rw [find_rec hra.good.ordered hr]
    cases m with
    | reg a' s d =>
      cases d with
      | none => simp [noDigest, e1] at hn
      | some d => simp only [digest, e1]; rw [e3.2.2 d rfl]
    | _ => exact e3.elim
  obtain ⟨mt2, x2, recs2, hm2, hx2, hT2, -, hrec2, hra2⟩ := chosen_some ((reach_inv h).1 rfl) (by rw [hh]; simp) t sub
  obtain ⟨mt3, T3, rest3, recs3, hm3, hh3, hrec3, -, hra3, hT3⟩ := recordsAt_last ((reach_inv h).1 rfl) (by rw [hh]; simp) sub
  rw [hm] at hm2 hm3
  simp only [List.cons.injEq, and_true] at hm2 hm3
  subst hm2 hm3
  rw [hx] at hx2; cases hx2
  rw [hrec] at hrec2; cases hrec2
  rw [hrec'] at hrec3; cases hrec3
  have := hh.symm.trans hh3
  simp only [List.cons.injEq, Prod.mk.injEq, true_and] at this
  obtain ⟨rfl, rfl⟩ := this
  refine ⟨reps, hl, hp, ?_, ?_, ?_⟩
  · intro k
    rw [hiff]
    refine and_congr_right fun _ => ?_
    cases get x.2 k <;> cases get T' k <;> simp only [ne_eq, reduceCtorEq, not_true_eq_false, not_false_eq_true, and_true, and_false, iff_false, iff_true] <;> first | exact .new _ | (intro hc; cases hc)
  · intro k
    rw [hiff]
    refine and_congr_right fun _ => ?_
    cases get x.2 k <;> cases get T' k <;> simp only [ne_eq, reduceCtorEq, not_true_eq_false, not_false_eq_true, and_true, and_false, iff_false, iff_true] <;> first | exact .deleted _ | (intro hc; cases hc)
  · intro k
    rw [hiff]
    refine and_congr_right fun hk => ?_
    constructor
    · intro hc
      revert hc
      cases hg : get x.2 k <;> cases hg' : get T' k <;> intro hc <;> cases hc
      rename_i m n hc
      refine ⟨by simp, by simp, ?_⟩
      rintro e
      cases e
      rcases hc with hc | ⟨h1, -, d, hd, hd'⟩
      · apply hc; cases m <;> simp [SameMeta]
      · cases m with
        | reg a c =>
          rw [hdigest (.inl rfl) hrec hra2 hT2 hk hg] at hd
          rw [hdigest (.inr rfl) hrec' hra3 hT3 hk hg'] at hd'
          exact hd' hd
        | _ => cases h1
    · rintro ⟨h1, h2, h3⟩
      revert h1 h2 h3
      cases hg : get x.2 k <;> cases hg' : get T' k <;> intro h1 h2 h3
      · exact absurd rfl h1
      · exact absurd rfl h1
      · exact absurd rfl h2
      rename_i m n
      refine .changed ?_
      by_cases hs : SameMeta o m n
      · right
        cases m <;> cases n <;> (try exact hs.elim)
        · exact absurd (by rw [show _ = _ from hs]) h3
        · rename_i a c a' c'
          refine ⟨rfl, rfl, _, hdigest (.inl rfl) hrec hra2 hT2 hk hg, ?_⟩
          rw [hdigest (.inr rfl) hrec' hra3 hT3 hk hg']
          intro e
          exact h3 (by rw [hs.1, hinj _ _ (Option.some.inj e)])
        · exact absurd (by rw [hs.1, hs.2]) h3
      · exact .inl hs

/-- Nothing is reported if the chosen backup is the last one. -/
theorem changed_since_last (h : Reach o rsv false st hist) {mt t : Nat} {sub : List α} {T : Files α (Node A C S)} {rest : Hist α A C S}
    (hh : hist = (mt, T) :: rest) (ht : mt ≤ t) : listChangedSince st mt t sub = some [] := by
  obtain ⟨mt', T', rest', x, rOld, rCur, reps, hm, hh', hx, hrec, hrec', hl, hp, hiff⟩ := changed_since h (by rw [hh]; simp) t sub
  have hmt := hh'.symm.trans hh
  simp only [List.cons.injEq, Prod.mk.injEq] at hmt
  obtain ⟨⟨rfl, rfl⟩, rfl⟩ := hmt
  have hx' : x = (mt', T') := by
    rw [hh'] at hx
    simpa [chosen, ht] using hx.symm
  subst hx'
  have : rOld = rCur := by
    have e1 := recordsAt_meta hrec
    rw [recordsAt_meta hrec'] at e1
    exact (Option.some.inj e1).symm
  subst this
  rw [hl]
  congr 1
  apply List.eq_nil_iff_forall_not_mem.mpr
  rintro ⟨k, rep⟩ hin
  have := ((hiff k rep).mp hin).2
  revert this
  cases get T' k with
  | none => intro hc; cases hc
  | some n =>
    intro hc
    cases hc with
    | changed hc =>
      rcases hc with hc | ⟨-, -, d, h1, h2⟩
      · apply hc; cases n <;> simp [SameMeta]
      · exact h2 h1

end Verif.C60

namespace Verif.C60.Demo
open Verif.Repo Verif.Repo.Demo Verif.C60

example : listFilesAt st3 30 25 [] = some [[], [1], [2], [3], [3, 1]] := by decide +kernel
example : listFilesAt st3 30 10 [2] = some [[2], [2, 5]] := by decide +kernel
example : listChangedSince st3 30 10 [] =
    some [([], .changed), ([1], .changed), ([2], .deleted), ([2, 5], .deleted), ([3], .new), ([3, 1], .new)] := by decide +kernel
example : listChangedSince st3 30 20 [3] = some [([3], .changed), ([3, 1], .changed)] := by decide +kernel
example : listChangedSince st3 30 35 [] = some [] := changed_since_last reach3 rfl (by decide)

/-- the hypotheses of `changed_since_exact` -/
example : ∃ reps, listChangedSince st3 30 10 [] = some reps ∧ reps.Pairwise (fun a b => a.1 < b.1) ∧
    (∀ k, (k, .new) ∈ reps ↔ [] <+: k ∧ get src1 k = none ∧ get src3 k ≠ none) ∧
    (∀ k, (k, .deleted) ∈ reps ↔ [] <+: k ∧ get src1 k ≠ none ∧ get src3 k = none) ∧
    ∀ k, (k, .changed) ∈ reps ↔ [] <+: k ∧ get src1 k ≠ none ∧ get src3 k ≠ none ∧ get src1 k ≠ get src3 k := by
  refine changed_since_exact reach3 rfl (x := (10, src1)) rfl (fun _ _ h => h) ?_
  have key : ∀ t' ∈ [10, 30], ∀ x ∈ recordsAt st3 30 t' [], ∀ r ∈ x.2, noDigest r = false := by decide +kernel
  rintro t' ht rt recs hrec
  exact key t' (by simpa using ht) (rt, recs) hrec

/-- data are the last two numbers: size and what else is in it -/
def ops2 : Ops Nat (Nat × Nat) Nat (Nat × Nat) Nat := ⟨fun x => x.1, fun x => x.1 + 100 * x.2, fun _ n => n, fun _ d => d, fun _ _ => rfl, id⟩
def st0 : State Nat Nat (Nat × Nat) Nat Nat (Nat × Nat) := ⟨[([], .dir 5)], [], [[]], [], []⟩
def sessF (now : Nat) (no : List Nat → Bool) (src : Files Nat (Node Nat (Nat × Nat) Nat)) : Sess Nat Nat (Nat × Nat) Nat Nat (Nat × Nat) :=
  ⟨now, src, fun _ => false, no, 99, fun _ => (0, 77), fun _ => (7, 7), [], 1000⟩
def srcA : Files Nat (Node Nat (Nat × Nat) Nat) := [([], .dir 6), ([1], .reg 2 (3, 0)), ([2], .reg 2 (3, 0))]
def srcB : Files Nat (Node Nat (Nat × Nat) Nat) := [([], .dir 6), ([1], .reg 3 (3, 0)), ([2], .reg 3 (3, 0))]
def srcC : Files Nat (Node Nat (Nat × Nat) Nat) := [([], .dir 6), ([1], .reg 2 (3, 0)), ([2], .reg 2 (3, 1))]
def stA := (backup ops2 st0 (sessF 10 (fun i => i == [2]) srcA)).get (by decide +kernel)
def stB := (backup ops2 stA (sessF 20 (fun _ => false) srcB)).get (by decide +kernel)
def stC := (backup ops2 stB (sessF 30 (fun i => i == [1]) srcC)).get (by decide +kernel)

/-- Without digests the report isn't exact: `[1]` is the same in both backups but reported (the digest was recorded only for the first one),
`[2]` has other data but isn't reported (recorded only for the last one). -/
example : listChangedSince stC 30 10 [] = some [([1], .changed)] := by decide +kernel

end Verif.C60.Demo
