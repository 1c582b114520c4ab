import Verif.Proof.LongRestore
import Mathlib.Data.List.Forall2
/-
Lemmas for C80: all files of a backup, all backups, and restoring.
-/
namespace Verif.LongRestore
open Verif.LongNames Verif.Quoting Verif.MetaRecord Verif.C42

set_option linter.unusedSectionVars false
variable {I C A : Type} [DecidableEq I] [DecidableEq C] [DecidableEq A]

theorem find_cons {V : Type} (l : List (I × V)) (j : I) (v : V) (i : I) : find ((j, v) :: l) i = if j = i then some v else find l i := by
  by_cases h : j = i <;> simp [find, h]

theorem find_none {V : Type} {l : List (I × V)} {i : I} (h : i ∉ l.map Prod.fst) : find l i = none := by
  induction l with
  | nil => rfl
  | cons x l ih =>
    obtain ⟨j, v⟩ := x
    simp only [List.map_cons, List.mem_cons, not_or] at h
    rw [find_cons, if_neg (fun e => h.1 e.symm)]
    exact ih h.2

theorem find_mem {V : Type} {l : List (I × V)} (hn : (l.map Prod.fst).Nodup) {x : I × V} (hx : x ∈ l) : find l x.1 = some x.2 := by
  induction l with
  | nil => cases hx
  | cons y l ih =>
    obtain ⟨j, v⟩ := y
    simp only [List.map_cons, List.nodup_cons] at hn
    rw [find_cons]
    rcases List.mem_cons.mp hx with rfl | hx
    · simp
    · have : j ≠ x.1 := fun e => hn.1 (e ▸ List.mem_map_of_mem hx)
      rw [if_neg this]
      exact ih hn.2 hx

theorem mem_of_find {V : Type} {l : List (I × V)} {i : I} {v : V} (h : find l i = some v) : (i, v) ∈ l := by
  induction l with
  | nil => cases h
  | cons y l ih =>
    obtain ⟨j, w⟩ := y
    rw [find_cons] at h
    split at h
    · next e => cases h; subst e; exact List.mem_cons_self
    · exact List.mem_cons_of_mem _ (ih h)

/-- All files of a backup. -/
theorem processAll_spec {f : Fits I} {now : Nat} {prev : Option Nat} {old : List (I × Rec C A)} {src : List (I × Node C A)} {H : I → List (Nat × Option (Rec C A))}
    (hfi : ∀ i, (f.inc i || f.root i) = true → f.mirror i = true) (hcur : ∀ i, cur (H i) = find old i) (hprev : ∀ i, (H i).head?.map Prod.fst = prev)
    (hnow : ∀ t, prev = some t → t < now) (is : List I) (hn : is.Nodup) {R : Repo I C A} {own : Bytes → Option I} (hg : Names.Good R own)
    (hk : ∀ j ∈ is, Ok (f.mirror j) (f.inc j || f.root j) (H j) j R own) :
    ∃ rs R' own', processAll f prev old src is R = some (rs, R') ∧ Names.Good R' own' ∧ R'.metas = R.metas ∧
      (∀ j ∈ is, (find rs j).map (·.node) = find src j ∧ Ok (f.mirror j) (f.inc j || f.root j) ((now, find rs j) :: H j) j R' own') ∧
      (∀ j, j ∉ is → ∀ fm fi h', Ok fm fi h' j R own → Ok fm fi h' j R' own') ∧
      (rs.map Prod.fst).Nodup ∧ ∀ j ∈ rs.map Prod.fst, j ∈ is := by
  induction is generalizing R own with
  | nil => exact ⟨[], R, own, rfl, hg, rfl, by simp, fun _ _ _ _ _ h => h, by simp, by simp⟩
  | cons i is ih =>
    obtain ⟨hni, hn⟩ := List.nodup_cons.mp hn
    obtain ⟨r, R1, own1, e1, e2, e3, e4, e5, e6⟩ := process_spec (now := now) (hfi i) hg (hk i (by simp))
      (fun t ht => hnow t (by rw [← hprev i]; exact ht)) (find src i)
    rw [hprev, hcur] at e1
    obtain ⟨rs, R2, own2, f1, f2, f3, f4, f5, f6, f7⟩ := ih hn e3
      (fun j hj => e6 j (fun e => hni (e ▸ hj)) _ _ _ (hk j (List.mem_cons_of_mem _ hj)))
    have hnot : i ∉ rs.map Prod.fst := fun h => hni (f7 i h)
    have hself : find ((r.map fun r => (i, r)).toList ++ rs) i = r := by
      cases r with
      | none => simpa using find_none hnot
      | some r => simp [find_cons]
    have hother : ∀ j, j ≠ i → find ((r.map fun r => (i, r)).toList ++ rs) j = find rs j := by
      intro j hj
      cases r with
      | none => simp
      | some r => simp [find_cons, Ne.symm hj]
    refine ⟨(r.map fun r => (i, r)).toList ++ rs, R2, own2, by simp only [processAll, e1, f1], f2, f3.trans e4, ?_, ?_, ?_, ?_⟩
    · intro j hj
      by_cases hji : j = i
      · subst hji
        rw [hself]
        exact ⟨e2, f5 _ hni _ _ _ e5⟩
      · rw [hother j hji]
        exact f4 j ((List.mem_cons.mp hj).resolve_left hji)
    · intro j hj fm fi h' hok
      simp only [List.mem_cons, not_or] at hj
      exact f5 j hj.2 _ _ _ (e6 j hj.1 _ _ _ hok)
    · cases r with
      | none => simpa using f6
      | some r => simpa [f6] using hnot
    · intro j hj
      cases r with
      | none => exact List.mem_cons_of_mem _ (f7 j (by simpa using hj))
      | some r =>
        simp only [Option.map_some, Option.toList_some, List.cons_append, List.nil_append, List.map_cons, List.mem_cons] at hj
        rcases hj with rfl | hj
        · exact List.mem_cons_self
        · exact List.mem_cons_of_mem _ (f7 j hj)

/-- the records of one file -/
def proj (metas : List (Nat × List (I × Rec C A))) (i : I) : List (Nat × Option (Rec C A)) := metas.map fun x => (x.1, find x.2 i)

/-- the metadata of a backup are those of its files -/
def Same (m : Nat × List (I × Rec C A)) (h : Nat × List (I × Node C A)) : Prop :=
  m.1 = h.1 ∧ (m.2.map Prod.fst).Nodup ∧ ∀ i, (find m.2 i).map (·.node) = find h.2 i

/-- What holds after every backup. -/
structure State (fm fi : I → Bool) (R : Repo I C A) (hist : List (Nat × List (I × Node C A))) : Prop where
  good : ∃ own, Names.Good R own ∧ ∀ i, Ok (fm i) (fi i) (proj R.metas i) i R own
  same : List.Forall₂ Same R.metas hist
  times : R.metas.Pairwise (fun a b => b.1 < a.1)

theorem init_state (fm fi : I → Bool) : State fm fi ({} : Repo I C A) [] where
  good := ⟨fun _ => none, ⟨⟨1, inv_init⟩, by simp, fun _ _ => ⟨rfl, rfl⟩⟩, fun i =>
    { here := by simp [proj, cur], gone := fun _ => rfl, unfit := fun _ => ⟨rfl, rfl⟩, recs := by simp [proj], chain := by simp [proj],
      sorted := fun p _ => by simp, times := by simp [proj] }⟩
  same := .nil
  times := .nil

theorem between_state {fm fi : I → Bool} {R : Repo I C A} {hist : List (Nat × List (I × Node C A))} (h : State fm fi R hist) {ops : List Op}
    (hs : ops.all safe = true) {names : St} (e : LongNames.run R.names ops = some names) : State fm fi { R with names } hist := by
  obtain ⟨⟨own, hg, hk⟩, hsame, htimes⟩ := h
  obtain ⟨b, hb⟩ := hg.inv
  have hgiven := run_given e
  exact ⟨⟨own, ⟨hb.run hs e, fun n hn => hgiven n (hg.owned n hn), fun n hn => hg.fresh n (fun hx => hn (hgiven n hx))⟩, fun i => { hk i with }⟩, hsame, htimes⟩

theorem backup_state {fm fi : I → Bool} {R : Repo I C A} {hist : List (Nat × List (I × Node C A))} (h : State fm fi R hist) {s : Session I C A}
    (hn : s.order.Nodup) (hcov : ∀ i, (find s.src i ≠ none ∨ ∃ x, hist.head? = some x ∧ find x.2 i ≠ none) → i ∈ s.order)
    (hnow : ∀ x, hist.head? = some x → x.1 < s.now) (hfm : s.fits.mirror = fm)
    (hmono : ∀ i, fi i = true → (s.fits.inc i || s.fits.root i) = true) (hfi : ∀ i, (s.fits.inc i || s.fits.root i) = true → s.fits.mirror i = true) :
    ∃ R', backup R s = some R' ∧ State fm (fun i => s.fits.inc i || s.fits.root i) R' ((s.now, s.src) :: hist) := by
  obtain ⟨⟨own, hg, hk⟩, hs, htimes⟩ := h
  subst hfm
  -- the last backup
  have hprev : ∀ i, (proj R.metas i).head?.map Prod.fst = R.metas.head?.map Prod.fst := by
    intro i; cases hm : R.metas <;> simp [proj]
  have hcur : ∀ i, cur (proj R.metas i) = find ((R.metas.head?.map Prod.snd).getD []) i := by
    intro i; cases hm : R.metas <;> simp [proj, cur, find]
  have hnow' : ∀ t, R.metas.head?.map Prod.fst = some t → t < s.now := by
    intro t ht
    cases hm : R.metas with
    | nil => rw [hm] at ht; cases ht
    | cons x l =>
      rw [hm] at ht hs
      cases hs with
      | cons h1 h2 => simp only [List.head?_cons, Option.map_some, Option.some.injEq] at ht; rw [← ht, h1.1]; exact hnow _ rfl
  have hold : ∀ i, i ∉ s.order → find ((R.metas.head?.map Prod.snd).getD []) i = none := by
    intro i hi
    cases hm : R.metas with
    | nil => rfl
    | cons x l =>
      rw [hm] at hs
      cases hs with
      | @cons _ y _ l' h1 h2 =>
        by_contra hc
        apply hi (hcov i (Or.inr ⟨y, rfl, ?_⟩))
        intro hy
        rw [← h1.2.2 i] at hy
        simp only [List.head?_cons, Option.map_some, Option.getD_some] at hc
        exact hc (by simpa using hy)
  obtain ⟨rs, R', own', e1, e2, e3, e4, e5, e6, e7⟩ := processAll_spec (f := s.fits) (now := s.now) (prev := R.metas.head?.map Prod.fst)
    (old := (R.metas.head?.map Prod.snd).getD []) (src := s.src) (H := fun i => proj R.metas i) hfi hcur hprev hnow' s.order hn hg
    (fun j _ => (hk j).mono (hmono j))
  refine ⟨{ R' with metas := (s.now, rs) :: R'.metas }, by simp only [backup, e1], ⟨own', ⟨e2.inv, e2.owned, e2.fresh⟩, ?_⟩, ?_, ?_⟩
  · intro i
    have hok : Ok (s.fits.mirror i) (s.fits.inc i || s.fits.root i) ((s.now, find rs i) :: proj R.metas i) i R' own' := by
      by_cases hi : i ∈ s.order
      · exact (e4 i hi).2
      · have h0 : find rs i = none := find_none (fun h => hi (e7 i h))
        have h1 := e5 i hi _ _ _ ((hk i).mono (hmono i))
        have h2 := h1.keep (now := s.now) (fun t ht => hnow' t (by rw [← hprev i]; exact ht))
        rw [hcur i, hold i hi] at h2
        rw [h0]; exact h2
    rw [e3]
    exact { hok with }
  · rw [e3]
    refine .cons ⟨rfl, e6, fun i => ?_⟩ hs
    by_cases hi : i ∈ s.order
    · exact (e4 i hi).1
    · have h0 : find rs i = none := find_none (fun h => hi (e7 i h))
      have h1 : find s.src i = none := by
        by_contra hc
        exact hi (hcov i (Or.inl hc))
      rw [h0, h1]; rfl
  · rw [e3]
    refine List.pairwise_cons.mpr ⟨fun x hx => ?_, htimes⟩
    cases hm : R.metas with
    | nil => rw [hm] at hx; cases hx
    | cons y l =>
      have h0 := hnow' y.1 (by rw [hm]; rfl)
      rw [hm] at hx htimes
      rcases List.mem_cons.mp hx with rfl | hx
      · exact h0
      · have := (List.pairwise_cons.mp htimes).1 x hx
        simp only at this ⊢
        omega

/-! ### Restoring -/

theorem getFp_spec {fm fi : Bool} {R : Repo I C A} {i : I} {own : Bytes → Option I} (hk : Ok fm fi (proj R.metas i) i R own) {t : Nat} {r : Rec C A} {c : C} {a : A}
    (hr : (t, some r) ∈ proj R.metas i) (hc : r.node = .reg c a) (empty : C) : getFp empty R t i r.names = some c := by
  obtain ⟨hsh, hown⟩ := hk.recs t r hr
  obtain ⟨e, hl, hopen⟩ := hk.chain t r c a hr hc
  obtain ⟨s1, s2⟩ := hk.sorted _ (ip_reg hown)
  have hmir : ∀ d, e = some d → R.mirror (mp i r.names) = some (some d) := by
    intro d hd
    obtain ⟨r0, h1, h2, h3⟩ := hopen d hd
    rw [← h2, hk.here r0 h1, h3]
  obtain ⟨m, recs, hm⟩ : ∃ m recs, R.metas.head? = some (m, recs) := by
    cases hq : R.metas with
    | nil => rw [hq] at hr; cases hr
    | cons x l => exact ⟨x.1, x.2, rfl⟩
  have hhead : (proj R.metas i).head?.map Prod.fst = some m := by
    cases hq : R.metas with
    | nil => rw [hq] at hm; cases hm
    | cons x l => rw [hq] at hm; cases hm; rfl
  -- where the file is looked for
  have hrf : updateRf R i (getRf R i) r.names = some ⟨mp i r.names, ip i r.names, R.incs (ip i r.names)⟩ := by
    obtain ⟨n1, n2, n3⟩ := hsh
    obtain ⟨node, nm, ni⟩ := r
    cases nm with
    | some n =>
      have hf : fm = false := by simpa using n1
      have hni : ni = none := n2 rfl
      subst hni
      obtain ⟨u1, u2⟩ := hk.unfit hf
      simp [updateRf, getRf, u1, u2, mp, ip, getInclist]
    | none =>
      cases ni with
      | some k =>
        cases hg : getRf R i with
        | none => simp [updateRf, mp, ip, getInclist]
        | some rf =>
          simp only [getRf] at hg
          split at hg
          · cases hg; simp [updateRf, mp, ip, getInclist]
          · cases hg
      | none =>
        cases hg : getRf R i with
        | none =>
          simp only [getRf] at hg
          split at hg
          · cases hg
          · next hx =>
            simp only [Bool.or_eq_true, not_or, Bool.not_eq_true, Bool.not_eq_false', List.isEmpty_iff] at hx
            simp [updateRf, mp, ip, hx.2]
        | some rf =>
          simp only [getRf] at hg
          split at hg
          · cases hg; simp [updateRf, mp, ip]
          · cases hg
  simp only [getFp, hm, hrf, relevantIncs]
  have hle : t ≤ m := by
    cases hq : proj R.metas i with
    | nil => rw [hq] at hr; cases hr
    | cons x l =>
      have htm := hk.times
      rw [hq] at hr hhead htm
      simp only [List.head?_cons, Option.map_some, Option.some.injEq] at hhead
      rcases List.mem_cons.mp hr with e | e
      · rw [← hhead, ← e]
      · have := (List.pairwise_cons.mp htm).1 _ e
        simp only at this; omega
  split
  · next hx =>
    have hnil : newer t (R.incs (ip i r.names)) = [] := by
      simp only [Bool.or_eq_true, List.isEmpty_iff, decide_eq_true_eq] at hx
      rcases hx with hx | hx
      · rw [hx]; rfl
      · refine newer_nil (fun x hx' => ?_)
        obtain ⟨u, hu, hlt⟩ := s2 x hx'
        rw [hhead] at hu; cases hu; omega
    rw [hnil] at hl
    simpa [upTo] using restoreFp_leads hl _ empty hmir
  · rw [newerIncs_eq s1]
    exact restoreFp_leads hl _ empty hmir

theorem mapM_some {α β : Type} {l : List α} {g : α → Option β} (h' : α → β) (h : ∀ x ∈ l, g x = some (h' x)) : l.mapM g = some (l.map h') := by
  induction l with
  | nil => rfl
  | cons x l ih => simp [h x (by simp), ih (fun y hy => h y (List.mem_cons_of_mem _ hy))]

theorem find_map {V W : Type} (l : List (I × V)) (g : V → W) (i : I) : find (l.map fun x => (x.1, g x.2)) i = (find l i).map g := by
  induction l with
  | nil => rfl
  | cons x l ih =>
    obtain ⟨j, v⟩ := x
    rw [List.map_cons, find_cons, find_cons]
    split
    · rfl
    · exact ih

theorem restore_state {fm fi : I → Bool} {R : Repo I C A} {hist : List (Nat × List (I × Node C A))} (h : State fm fi R hist) (empty : C)
    {t : Nat} {src : List (I × Node C A)} (hm : (t, src) ∈ hist) : ∃ l, restore empty R t = some l ∧ ∀ i, find l i = find src i := by
  obtain ⟨⟨own, hg, hk⟩, hs, htimes⟩ := h
  obtain ⟨recs, hmem, hsame⟩ : ∃ recs, (t, recs) ∈ R.metas ∧ Same (t, recs) (t, src) := by
    clear hk hg
    generalize R.metas = metas at hs
    induction hs with
    | nil => cases hm
    | @cons x y xs ys h1 h2 ih =>
      rcases List.mem_cons.mp hm with e | e
      · subst e
        obtain ⟨x1, x2⟩ := x
        have : x1 = t := h1.1
        subst this
        exact ⟨x2, by simp, h1⟩
      · obtain ⟨recs, a, b⟩ := ih e
        exact ⟨recs, List.mem_cons_of_mem _ a, b⟩
  have hfind : ∀ l : List (Nat × List (I × Rec C A)), l.Pairwise (fun a b => b.1 < a.1) → (t, recs) ∈ l → l.find? (·.1 = t) = some (t, recs) := by
    intro l hl hin
    induction l with
    | nil => cases hin
    | cons y l ih =>
      obtain ⟨hy, hl⟩ := List.pairwise_cons.mp hl
      rcases List.mem_cons.mp hin with e | e
      · subst e; simp
      · have hlt := hy _ e
        rw [List.find?_cons_of_neg (by simp only [decide_eq_true_eq]; simp only at hlt; omega)]
        exact ih hl e
  have hg1 : ∀ x ∈ recs, (match x.2.node with
      | .reg _ a => (getFp empty R t x.1 x.2.names).map fun c => (x.1, Node.reg c a)
      | .other a => some (x.1, .other a)) = some (x.1, x.2.node) := by
    intro x hx
    cases hn : x.2.node with
    | other a => rfl
    | reg c a =>
      have : (t, some x.2) ∈ proj R.metas x.1 := List.mem_map.mpr ⟨(t, recs), hmem, by rw [find_mem hsame.2.1 hx]⟩
      simp only [getFp_spec (hk x.1) this hn empty, Option.map_some]
  refine ⟨recs.map fun x => (x.1, x.2.node), ?_, ?_⟩
  · simp only [restore, hfind _ htimes hmem]
    exact mapM_some _ hg1
  · intro i
    rw [find_map recs (fun r => r.node) i]
    exact hsame.2.2 i

end Verif.LongRestore
