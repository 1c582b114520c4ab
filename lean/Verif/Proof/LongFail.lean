import Verif.Proof.LongRun
/-
Lemmas for C80: failed backups which are undone.
-/
namespace Verif.LongRestore
open Verif.LongNames Verif.Quoting Verif.MetaRecord Verif.C42

set_option linter.unusedSectionVars false
variable {I C A : Type} [DecidableEq I] [DecidableEq C] [DecidableEq A]

/-- the places of `i` are as they were -/
def Agree (R0 R : Repo I C A) (own : Bytes → Option I) (i : I) : Prop := ∀ p, Reg own i p → R.mirror p = R0.mirror p ∧ R.incs p = R0.incs p

/-- What a failed backup may have done to the places of `i` (the last record is `c`, of the time `t`). -/
structure Touched (c : Option (Rec C A)) (t : Nat) (R0 R : Repo I C A) (own : Bytes → Option I) (i : I) : Prop where
  mirror : ∀ p, Reg own i p → p ≠ mp i ((c.map (·.names)).getD {}) → R.mirror p = R0.mirror p
  incs : ∀ p, Reg own i p → p ≠ ip i ((c.map (·.names)).getD {}) → R.incs p = R0.incs p
  inc : R.incs (ip i ((c.map (·.names)).getD {})) = R0.incs (ip i ((c.map (·.names)).getD {})) ∨
    ∃ x, R.incs (ip i ((c.map (·.names)).getD {})) = R0.incs (ip i ((c.map (·.names)).getD {})) ++ [(t, x)]
  here : ∀ r d a, c = some r → r.node = .reg d a → R.mirror (mp i r.names) = some (some d) ∨
    ∃ x, R.incs (ip i r.names) = R0.incs (ip i r.names) ++ [(t, x)] ∧
      ((∃ c', x = .diff c' d ∧ R.mirror (mp i r.names) = some (some c')) ∨ x = .snapshot (some d))

theorem Agree.touched {R0 R : Repo I C A} {own : Bytes → Option I} {i : I} (h : Agree R0 R own i) {c : Option (Rec C A)} {t : Nat}
    (hc : ∀ r, c = some r → (∀ n ∈ Names.list r.names, own n = some i) ∧ R0.mirror (mp i r.names) = some r.node.data) : Touched c t R0 R own i where
  mirror p hp _ := (h p hp).1
  incs p hp _ := (h p hp).2
  inc := by
    cases c with
    | none => exact Or.inl (h _ (Or.inl rfl)).2
    | some r => exact Or.inl (h _ (ip_reg (hc r rfl).1)).2
  here r d a hr hd := by
    refine Or.inl ?_
    rw [(h _ (mp_reg (hc r hr).1)).1, (hc r hr).2, hd]; rfl

theorem Touched.congr {c : Option (Rec C A)} {t : Nat} {R0 R R' : Repo I C A} {own : Bytes → Option I} {i : I} (h : Touched c t R0 R own i)
    (hown : ∀ r, c = some r → ∀ n ∈ Names.list r.names, own n = some i)
    (he : ∀ p, Reg own i p → R'.mirror p = R.mirror p ∧ R'.incs p = R.incs p) : Touched c t R0 R' own i where
  mirror p hp hn := by rw [(he p hp).1]; exact h.mirror p hp hn
  incs p hp hn := by rw [(he p hp).2]; exact h.incs p hp hn
  inc := by
    have hp : Reg own i (ip i ((c.map (·.names)).getD {})) := by
      cases c with
      | none => exact Or.inl rfl
      | some r => exact ip_reg (hown r rfl)
    rw [(he _ hp).2]; exact h.inc
  here r d a hr hd := by
    rw [(he _ (mp_reg (hown r hr))).1, (he _ (ip_reg (hown r hr))).2]
    exact h.here r d a hr hd

/-- During a failed backup which started with `R0`. -/
structure Mid (R0 R : Repo I C A) (own : Bytes → Option I) : Prop where
  inv : ∃ b, Inv R.names b
  owned : ∀ n, own n ≠ none → n ∈ R.names.given
  fresh : ∀ n, n ∉ R.names.given → R.mirror (.long n) = none ∧ R.incs (.long n) = []
  metas : R.metas = R0.metas

/-- One file of a backup that fails, then or later. -/
theorem process_touched {f : Fits I} {i : I} {h : List (Nat × Option (Rec C A))} {R0 R : Repo I C A} {own : Bytes → Option I} {t : Nat}
    (hfi : (f.inc i || f.root i) = true → f.mirror i = true) (hg : Mid R0 R own)
    (hk : Ok (f.mirror i) (f.inc i || f.root i) h i R0 own) (hag : Agree R0 R own i) (new : Option (Node C A)) :
    ∃ r R', process f (some t) i (cur h) new R = some (r, R') ∧ Mid R0 R' own ∧ Touched (cur h) t R0 R' own i ∧
      (∀ j, j ≠ i → ∀ p, Reg own j p → R'.mirror p = R.mirror p ∧ R'.incs p = R.incs p) ∧
      ∀ x, ∃ R', processHalf x f (some t) i (cur h) new R = some R' ∧ Mid R0 R' own ∧ Touched (cur h) t R0 R' own i ∧
        ∀ j, j ≠ i → ∀ p, Reg own j p → R'.mirror p = R.mirror p ∧ R'.incs p = R.incs p := by
  have hcur : ∀ r, cur h = some r → (∀ n ∈ Names.list r.names, own n = some i) ∧ R0.mirror (mp i r.names) = some r.node.data := by
    intro r hr
    obtain ⟨u, -, hu⟩ := cur_mem hr
    exact ⟨(hk.recs u r hu).2, hk.here r hr⟩
  by_cases heq : (cur h).map (·.node) = new
  · have hp : process f (some t) i (cur h) new R = some (cur h, R) := by simp [process, heq]
    refine ⟨cur h, R, hp, hg, hag.touched hcur, fun _ _ _ _ => ⟨rfl, rfl⟩, fun x => ⟨R, ?_, hg, hag.touched hcur, fun _ _ _ _ => ⟨rfl, rfl⟩⟩⟩
    cases x <;> simp [processHalf, hp]
  obtain ⟨b, hb⟩ := hg.inv
  obtain ⟨p, ns, st', h1, h2, h3, h4, h5, h6, h7⟩ := place_cases (fm := f.mirror i) (fi := f.inc i) (root := f.root i) (old := (cur h).map (·.names)) hb
    (by
      intro r hr
      obtain ⟨r0, hr0, rfl⟩ := Option.map_eq_some_iff.mp hr
      obtain ⟨t, -, ht⟩ := cur_mem hr0
      exact (hk.recs t r0 ht).1) hfi new.isSome
    (by
      cases hc : cur h with
      | some r => left; simp
      | none => right; cases new with
        | none => simp [hc] at heq
        | some n => rfl) i
  -- names that are used are given, and are of no other file
  have hgiv : ∀ n, n ∈ R.names.given ∨ n ∈ Names.list ns → n ∈ st'.given := by
    intro n hn
    rcases h7 with ⟨hc, rfl⟩ | ⟨-, -, -, hgv, -⟩
    · rcases hn with hn | hn
      · exact hn
      · obtain ⟨r0, hr0, rfl⟩ := Option.map_eq_some_iff.mp hc
        exact hg.owned n (by rw [(hcur r0 hr0).1 n hn]; simp)
    · rw [hgv]; simp [or_comm] at hn ⊢; exact hn
  have hmine : ∀ n ∈ Names.list ns, ∀ j, own n = some j → (cur h).map (·.names) = some ns ∧ j = i := by
    intro n hn j hj
    rcases h7 with ⟨hc, -⟩ | ⟨-, hf, -⟩
    · obtain ⟨r0, hr0, rfl⟩ := Option.map_eq_some_iff.mp hc
      rw [(hcur r0 hr0).1 n hn] at hj
      exact ⟨hc, (Option.some.inj hj).symm⟩
    · exact absurd (hg.owned n (by rw [hj]; simp)) (hf n hn)
  let dir' := locNames p.mirror ++ locNames p.inc ++ st'.dir
  let mir' := upd R.mirror (mp i ns) (new.map Node.data)
  let x := makeIncrement new (R.mirror (mp i ns))
  let incs' := if sameData ((cur h).map (·.node)) new then R.incs else upd R.incs (ip i ns) (R.incs (ip i ns) ++ [(t, x)])
  have hp : ∃ r, process f (some t) i (cur h) new R = some (r, { R with names := { st' with dir := dir' }, incs := incs', mirror := mir' }) := by
    refine ⟨match new, p.recorded with
        | some n, some ns => some ⟨n, ns⟩
        | _, _ => none, ?_⟩
    simp only [process, if_neg heq, h1, h2, h3, mir', incs', dir', x]
    rfl
  obtain ⟨r, hp⟩ := hp
  -- what is true with or without the increment, with or without the new file
  have hmid : ∀ m ∈ [R.mirror, mir'], ∀ k ∈ [R.incs, incs'], Mid R0 { R with names := { st' with dir := dir' }, incs := k, mirror := m } own := by
    intro m hm k hk'
    refine ⟨?_, fun n hn => hgiv n (Or.inl (hg.owned n hn)), ?_, hg.metas⟩
    · have hst : ∃ b', Inv st' b' := by
        rcases h7 with ⟨-, rfl⟩ | ⟨-, -, hi, -⟩
        · exact ⟨b, hb⟩
        · exact hi
      obtain ⟨b', hi⟩ := hst
      refine ⟨b', hi.pos, hi.given, hi.nodup, ?_, hi.counter, hi.file⟩
      intro x hx
      rcases List.mem_append.mp hx with hx | hx
      · have hgx : x ∈ st'.given := hgiv x (Or.inr (h6 x hx))
        obtain ⟨k, rfl, -⟩ := hi.given x hgx
        have := base_name (n := k) (s := []) (Or.inl rfl)
        rw [List.append_nil] at this
        rw [this]; exact hgx
      · exact hi.dir x hx
    · intro n hn
      have hx : n ∉ Names.list ns := fun hx => hn (hgiv n (Or.inr hx))
      have hgv : n ∉ R.names.given := fun hx => hn (hgiv n (Or.inl hx))
      have e1 : (Place.long n : Place I) ≠ mp i ns := fun e => hx (mp_mem e.symm)
      have e2 : (Place.long n : Place I) ≠ ip i ns := fun e => hx (ip_mem e.symm)
      simp only [List.mem_cons, List.not_mem_nil, or_false] at hm hk'
      constructor
      · rcases hm with rfl | rfl
        · exact (hg.fresh n hgv).1
        · simp only [mir', upd, if_neg e1]; exact (hg.fresh n hgv).1
      · rcases hk' with rfl | rfl
        · exact (hg.fresh n hgv).2
        · simp only [incs']
          split
          · exact (hg.fresh n hgv).2
          · simp only [upd, if_neg e2]; exact (hg.fresh n hgv).2
  have hfr : ∀ m ∈ [R.mirror, mir'], ∀ k ∈ [R.incs, incs'], ∀ j, j ≠ i → ∀ q, Reg own j q → m q = R.mirror q ∧ k q = R.incs q := by
    intro m hm k hk' j hj q hq
    have e : ∀ z : Place I, (∀ n, z = .long n → n ∈ Names.list ns) → (z = .usual i ∨ ∃ n, z = .long n) → q ≠ z := by
      rintro z hz (rfl | ⟨n, rfl⟩) rfl
      · rcases hq with hq | ⟨n, hq, -⟩
        · cases hq; exact hj rfl
        · cases hq
      · rcases hq with hq | ⟨n', hq, ho⟩
        · cases hq
        · cases hq; exact hj (hmine n (hz n rfl) j ho).2
    have em : q ≠ mp i ns := e _ (fun n hn => mp_mem hn) (by unfold mp; cases ns.mirror <;> simp)
    have ei : q ≠ ip i ns := e _ (fun n hn => ip_mem hn) (by unfold ip; cases ns.mirror <;> cases ns.inc <;> simp)
    simp only [List.mem_cons, List.not_mem_nil, or_false] at hm hk'
    constructor
    · rcases hm with rfl | rfl
      · rfl
      · simp only [mir', upd, if_neg em]
    · rcases hk' with rfl | rfl
      · rfl
      · simp only [incs']
        split
        · rfl
        · simp only [upd, if_neg ei]
  -- the file itself
  have htouch : ∀ m k, (m = mir' ∧ k = incs') ∨ (m = R.mirror ∧ k ∈ [R.incs, incs']) →
      Touched (cur h) t R0 { R with names := { st' with dir := dir' }, incs := k, mirror := m } own i := by
    intro m k hmk
    have hmm : m ∈ [R.mirror, mir'] := by rcases hmk with ⟨h, -⟩ | ⟨h, -⟩ <;> simp [h]
    have hkk : k ∈ [R.incs, incs'] := by rcases hmk with ⟨-, h⟩ | ⟨-, h⟩; simp [h]; exact h
    -- places
    have hpl : ∀ q, Reg own i q → (q = mp i ns → q = mp i (((cur h).map (·.names)).getD {})) ∧ (q = ip i ns → q = ip i (((cur h).map (·.names)).getD {})) := by
      intro q hq
      cases hc : (cur h).map (·.names) with
      | some ns' =>
        rcases h7 with ⟨hc', -⟩ | ⟨hc', -⟩
        · rw [hc] at hc'; cases hc'; simp
        · rw [hc] at hc'; cases hc'
      | none =>
        have hno : ∀ n ∈ Names.list ns, own n ≠ some i := fun n hn ho => by
          have := (hmine n hn i ho).1; rw [hc] at this; cases this
        rcases hq with rfl | ⟨n, rfl, ho⟩
        · exact ⟨fun _ => rfl, fun _ => rfl⟩
        · exact ⟨fun e => absurd ho (hno n (mp_mem e.symm)), fun e => absurd ho (hno n (ip_mem e.symm))⟩
    have hip : Reg own i (ip i (((cur h).map (·.names)).getD {})) := by
      cases hc : cur h with
      | none => exact Or.inl rfl
      | some r => exact ip_reg (hcur r hc).1
    refine ⟨?_, ?_, ?_, ?_⟩
    · intro q hq hn
      have : q ≠ mp i ns := fun e => hn ((hpl q hq).1 e)
      simp only [List.mem_cons, List.not_mem_nil, or_false] at hmm
      rcases hmm with rfl | rfl
      · exact (hag q hq).1
      · simp only [mir', upd, if_neg this]; exact (hag q hq).1
    · intro q hq hn
      have : q ≠ ip i ns := fun e => hn ((hpl q hq).2 e)
      simp only [List.mem_cons, List.not_mem_nil, or_false] at hkk
      rcases hkk with rfl | rfl
      · exact (hag q hq).2
      · simp only [incs']
        split
        · exact (hag q hq).2
        · simp only [upd, if_neg this]; exact (hag q hq).2
    · simp only [List.mem_cons, List.not_mem_nil, or_false] at hkk
      rcases hkk with rfl | rfl
      · exact Or.inl (hag _ hip).2
      · simp only [incs']
        split
        · exact Or.inl (hag _ hip).2
        · by_cases e : ip i (((cur h).map (·.names)).getD {}) = ip i ns
          · right; exact ⟨x, by simp only [upd, if_pos e]; rw [← e, (hag _ hip).2]⟩
          · left; simp only [upd, if_neg e]; exact (hag _ hip).2
    · intro r d a hr hd
      have hns : ns = r.names := by
        rcases h7 with ⟨hc, -⟩ | ⟨hc, -⟩
        · rw [hr] at hc; simpa using hc.symm
        · rw [hr] at hc; simp at hc
      have hold : R.mirror (mp i r.names) = some (some d) := by
        rw [(hag _ (mp_reg (hcur r hr).1)).1, (hcur r hr).2, hd]; rfl
      rcases hmk with ⟨rfl, rfl⟩ | ⟨rfl, -⟩
      · by_cases hs : sameData ((cur h).map (·.node)) new = true
        · left
          rw [hr, Option.map_some, hd] at hs
          simp only [mir', upd, hns, if_true]
          match new, hs with
          | some (.reg c' _), hs => simp only [sameData, decide_eq_true_eq] at hs; subst hs; rfl
        · right
          refine ⟨x, ?_, ?_⟩
          · simp only [incs', if_neg hs, hns, upd, if_true]
            rw [(hag _ (ip_reg (hcur r hr).1)).2]
          · simp only [x, hns, hold, mir', upd, if_true]
            match new with
            | none => right; rfl
            | some (.other _) => right; rfl
            | some (.reg c' _) => left; exact ⟨c', rfl, rfl⟩
      · exact Or.inl hold
  refine ⟨r, _, hp, hmid _ (by simp) _ (by simp), htouch _ _ (Or.inl ⟨rfl, rfl⟩), hfr _ (by simp) _ (by simp), fun y => ?_⟩
  cases y with
  | named =>
    exact ⟨_, by simp only [processHalf, hp], hmid R.mirror (by simp) R.incs (by simp), htouch _ _ (Or.inr ⟨rfl, by simp⟩), hfr R.mirror (by simp) R.incs (by simp)⟩
  | incremented =>
    exact ⟨_, by simp only [processHalf, hp], hmid R.mirror (by simp) incs' (by simp), htouch _ _ (Or.inr ⟨rfl, by simp⟩), hfr R.mirror (by simp) incs' (by simp)⟩

/-- A failed backup: all places are as they were, but for what `Touched` says. -/
theorem interrupted_spec {R0 R : Repo I C A} {own : Bytes → Option I} {a : Attempt I C A} {t : Nat} {recs : List (I × Rec C A)} {fi : I → Bool}
    (hfi : ∀ i, (a.fits.inc i || a.fits.root i) = true → a.fits.mirror i = true) (hhead : R0.metas.head? = some (t, recs)) (hg : Mid R0 R own)
    (hk : ∀ i, Ok (a.fits.mirror i) (fi i) (proj R0.metas i) i R0 own) (hmono : ∀ i, fi i = true → (a.fits.inc i || a.fits.root i) = true)
    (hn : a.order.Nodup) (hag : ∀ i, Agree R0 R own i) :
    ∃ R', interrupted R a = some R' ∧ Mid R0 R' own ∧ ∀ i, Touched (find recs i) t R0 R' own i ∧ (i ∉ a.order → Agree R0 R' own i) := by
  have hcur : ∀ i, cur (proj R0.metas i) = find recs i := by
    intro i; cases hm : R0.metas with
    | nil => rw [hm] at hhead; cases hhead
    | cons x l => rw [hm] at hhead; cases hhead; rfl
  have hown : ∀ i r, find recs i = some r → (∀ n ∈ Names.list r.names, own n = some i) ∧ R0.mirror (mp i r.names) = some r.node.data := by
    intro i r hr
    rw [← hcur] at hr
    obtain ⟨u, -, hu⟩ := cur_mem hr
    exact ⟨((hk i).recs u r hu).2, (hk i).here r hr⟩
  -- the files that are processed
  have hall : ∀ (is : List I) (R : Repo I C A), is.Nodup → Mid R0 R own → (∀ j ∈ is, Agree R0 R own j) → (∀ j, Touched (find recs j) t R0 R own j) →
      ∃ rs R', processAll a.fits (some t) recs a.src is R = some (rs, R') ∧ Mid R0 R' own ∧ (∀ j, Touched (find recs j) t R0 R' own j) ∧
        ∀ j, j ∉ is → Agree R0 R own j → Agree R0 R' own j := by
    intro is
    induction is with
    | nil => intro R _ hm _ ht; exact ⟨[], R, rfl, hm, ht, fun _ _ h => h⟩
    | cons i is ih =>
      intro R hnd hm ha ht
      obtain ⟨hni, hnd⟩ := List.nodup_cons.mp hnd
      obtain ⟨r, R1, e1, e2, e3, e4, -⟩ := process_touched (t := t) (hfi i) hm ((hk i).mono (hmono i)) (ha i (by simp)) (find a.src i)
      rw [hcur] at e1 e3
      have hstep : ∀ j, j ≠ i → Agree R0 R own j → Agree R0 R1 own j := fun j hj h p hp =>
        ⟨(e4 j hj p hp).1.trans (h p hp).1, (e4 j hj p hp).2.trans (h p hp).2⟩
      obtain ⟨rs, R2, f1, f2, f3, f4⟩ := ih R1 hnd e2 (fun j hj => hstep j (fun e => hni (e ▸ hj)) (ha j (List.mem_cons_of_mem _ hj)))
        (fun j => by
          by_cases hj : j = i
          · subst hj; exact e3
          · exact (ht j).congr (fun r hr => (hown j r hr).1) (e4 j hj))
      refine ⟨(r.map fun r => (i, r)).toList ++ rs, R2, by simp only [processAll, e1, f1], f2, f3, ?_⟩
      intro j hj h
      simp only [List.mem_cons, not_or] at hj
      exact f4 j hj.2 (hstep j hj.1 h)
  have hsplit : (a.order.take a.upTo ++ a.order.drop a.upTo).Nodup := by rw [List.take_append_drop]; exact hn
  obtain ⟨n1, n2, n3⟩ := List.nodup_append.mp hsplit
  have hmem : ∀ j, j ∈ a.order ↔ j ∈ a.order.take a.upTo ∨ j ∈ a.order.drop a.upTo := by
    intro j; rw [← List.mem_append, List.take_append_drop]
  obtain ⟨rs, R1, e1, e2, e3, e4⟩ := hall _ R n1 hg (fun j _ => hag j) (fun j => (hag j).touched (hown j))
  have hmetas : R.metas.head? = some (t, recs) := by rw [hg.metas]; exact hhead
  cases hd : a.order.drop a.upTo with
  | nil =>
    refine ⟨R1, by simp [interrupted, hmetas, e1, hd], e2, fun i => ⟨e3 i, fun hi => e4 i (fun h => hi ((hmem i).mpr (Or.inl h))) (hag i)⟩⟩
  | cons i l =>
    have hi : i ∉ a.order.take a.upTo := fun h => n3 i h i (by rw [hd]; simp) rfl
    obtain ⟨-, -, -, -, -, -, hh⟩ := process_touched (t := t) (hfi i) e2 ((hk i).mono (hmono i)) (e4 i hi (hag i)) (find a.src i)
    obtain ⟨R2, f1, f2, f3, f4⟩ := hh a.half
    rw [hcur] at f1 f3
    refine ⟨R2, by simp [interrupted, hmetas, e1, hd, f1], f2, fun j => ⟨?_, ?_⟩⟩
    · by_cases hj : j = i
      · subst hj; exact f3
      · exact (e3 j).congr (fun r hr => (hown j r hr).1) (f4 j hj)
    · intro hj p hp
      have hji : j ≠ i := fun e => hj ((hmem j).mpr (Or.inr (by rw [hd, e]; simp)))
      have h := e4 j (fun h => hj ((hmem j).mpr (Or.inl h))) (hag j)
      exact ⟨(f4 j hji p hp).1.trans (h p hp).1, (f4 j hji p hp).2.trans (h p hp).2⟩

/-- where a file is looked for -/
theorem updateRf_spec {fm fi : Bool} {R : Repo I C A} {i : I} {ns : Names} (hsh : Shape fm fi ns)
    (hu : fm = false → R.mirror (.usual i) = none ∧ R.incs (.usual i) = []) :
    updateRf R i (getRf R i) ns = some ⟨mp i ns, ip i ns, R.incs (ip i ns)⟩ := by
  obtain ⟨n1, n2, n3⟩ := hsh
  obtain ⟨nm, ni⟩ := ns
  cases nm with
  | some n =>
    have hf : fm = false := by simpa using n1
    have hni : ni = none := n2 rfl
    subst hni
    obtain ⟨u1, u2⟩ := hu hf
    simp [updateRf, getRf, u1, u2, mp, ip, getInclist]
  | none =>
    cases ni with
    | some k =>
      cases hg : getRf R i with
      | none => simp [updateRf, mp, ip, getInclist]
      | some rf =>
        simp only [getRf] at hg
        split at hg
        · cases hg; simp [updateRf, mp, ip, getInclist]
        · cases hg
    | none =>
      cases hg : getRf R i with
      | none =>
        simp only [getRf] at hg
        split at hg
        · cases hg
        · next hx =>
          simp only [Bool.or_eq_true, not_or, Bool.not_eq_true, Bool.not_eq_false', List.isEmpty_iff] at hx
          simp [updateRf, mp, ip, hx.2]
      | some rf =>
        simp only [getRf] at hg
        split at hg
        · cases hg; simp [updateRf, mp, ip]
        · cases hg

theorem filter_old {t : Nat} {l : List (Nat × Inc C)} (h : ∀ x ∈ l, x.1 < t) : l.filter (fun x => !(t ≤ x.1 : Bool)) = l := by
  rw [List.filter_eq_self]
  intro x hx
  have := h x hx
  simp only [Bool.not_eq_true', decide_eq_false_iff_not]
  omega

/-- Regressing a file puts all its places back. -/
theorem regressFile_spec {fm fi : Bool} {R0 R : Repo I C A} {own : Bytes → Option I} {i : I} {t : Nat} {recs : List (I × Rec C A)}
    (hhead : R0.metas.head? = some (t, recs)) (hk : Ok fm fi (proj R0.metas i) i R0 own) (hg : Mid R0 R own) (ht : Touched (find recs i) t R0 R own i) (empty : C) :
    ∃ R', regressFile empty t i (find recs i) R = some R' ∧ Mid R0 R' own ∧ Agree R0 R' own i ∧ ∀ j, j ≠ i → ∀ p, Reg own j p → R'.mirror p = R.mirror p ∧ R'.incs p = R.incs p := by
  have hcur : cur (proj R0.metas i) = find recs i := by
    cases hm : R0.metas with
    | nil => rw [hm] at hhead; cases hhead
    | cons x l => rw [hm] at hhead; cases hhead; rfl
  have hh : (proj R0.metas i).head?.map Prod.fst = some t := by
    cases hm : R0.metas with
    | nil => rw [hm] at hhead; cases hhead
    | cons x l => rw [hm] at hhead; cases hhead; rfl
  have hbound : ∀ p, Reg own i p → ∀ x ∈ R0.incs p, x.1 < t := by
    intro p hp x hx
    obtain ⟨u, hu, hlt⟩ := (hk.sorted p hp).2 x hx
    rw [hh] at hu; cases hu; exact hlt
  -- the places
  let ns := ((find recs i).map (·.names)).getD {}
  have hM : Reg own i (mp i ns) := by
    simp only [ns]
    cases hc : find recs i with
    | none => exact Or.inl rfl
    | some r =>
      obtain ⟨u, -, hu⟩ := cur_mem (hcur.trans hc)
      exact mp_reg (hk.recs u r hu).2
  have hK : Reg own i (ip i ns) := by
    simp only [ns]
    cases hc : find recs i with
    | none => exact Or.inl rfl
    | some r =>
      obtain ⟨u, -, hu⟩ := cur_mem (hcur.trans hc)
      exact ip_reg (hk.recs u r hu).2
  have hgoal : R0.mirror (mp i ns) = (find recs i).map (·.node.data) := by
    simp only [ns]
    cases hc : find recs i with
    | none => exact hk.gone (hcur.trans hc)
    | some r => exact hk.here r (hcur.trans hc)
  have hnewer : newerIncs t (R.incs (ip i ns)) = [] ∧ R.incs (ip i ns) = R0.incs (ip i ns) ∨
      ∃ x, newerIncs t (R.incs (ip i ns)) = [x] ∧ R.incs (ip i ns) = R0.incs (ip i ns) ++ [(t, x)] := by
    have h0 := newer_nil (hbound _ hK)
    rcases ht.inc with e | ⟨x, e⟩
    · left
      refine ⟨?_, e⟩
      rw [show R.incs (ip i ns) = _ from e, newerIncs_eq (hk.sorted _ hK).1, h0]
    · right
      refine ⟨x, ?_, e⟩
      rw [show R.incs (ip i ns) = _ from e, newerIncs_eq, newer_snoc _ (Nat.le_refl t), h0]
      · rfl
      · refine List.pairwise_append.mpr ⟨(hk.sorted _ hK).1, by simp, ?_⟩
        intro a ha b hb
        simp only [List.mem_singleton] at hb
        subst hb; exact hbound _ hK a ha
  have hfilter : (R.incs (ip i ns)).filter (fun x => !(t ≤ x.1 : Bool)) = R0.incs (ip i ns) := by
    rcases hnewer with ⟨-, e⟩ | ⟨x, -, e⟩
    · rw [e]; exact filter_old (hbound _ hK)
    · rw [e, List.filter_append, filter_old (hbound _ hK)]; simp
  -- if it is found, all is well
  have hmain : ∀ found, found = some (some (⟨mp i ns, ip i ns, R.incs (ip i ns)⟩ : RF I C)) →
      regressRf R i (find recs i) = found →
      ∃ R', regressFile empty t i (find recs i) R = some R' ∧ Mid R0 R' own ∧ Agree R0 R' own i ∧
        ∀ j, j ≠ i → ∀ p, Reg own j p → R'.mirror p = R.mirror p ∧ R'.incs p = R.incs p := by
    intro found hf hfound
    subst hf
    have hlen : ¬ (newerIncs t (R.incs (ip i ns))).length > 1 := by
      rcases hnewer with ⟨e, -⟩ | ⟨x, e, -⟩ <;> simp [e]
    let goal := (find recs i).map (·.node.data)
    let R2 : Repo I C A := { R with mirror := upd R.mirror (mp i ns) goal, incs := upd R.incs (ip i ns) (R0.incs (ip i ns)) }
    have hmirror : (if R.mirror (mp i ns) = goal then some R
        else match goal with
          | some (some _) => (restoreFp empty (relevantIncs t (t + 1) R ⟨mp i ns, ip i ns, R.incs (ip i ns)⟩)).map fun c => { R with mirror := upd R.mirror (mp i ns) (some (some c)) }
          | _ => some { R with mirror := upd R.mirror (mp i ns) goal }) = some { R with mirror := upd R.mirror (mp i ns) goal } := by
      split
      · next e =>
        congr 1
        have : upd R.mirror (mp i ns) goal = R.mirror := by
          funext q; simp only [upd]; split
          · next hq => rw [hq, e]
          · rfl
        rw [this]
      · next hne =>
        cases hg1 : goal with
        | none => rfl
        | some g =>
          cases g with
          | none => rfl
          | some d =>
            simp only []
            obtain ⟨r, hr, hrd⟩ : ∃ r, find recs i = some r ∧ r.node.data = some d := by
              obtain ⟨r, hr, he⟩ := Option.map_eq_some_iff.mp hg1
              exact ⟨r, hr, he⟩
            obtain ⟨a0, hrn⟩ : ∃ a0, r.node = .reg d a0 := by
              cases hq : r.node with
              | reg x y => rw [hq] at hrd; simp only [Node.data, Option.some.injEq] at hrd; subst hrd; exact ⟨y, rfl⟩
              | other y => rw [hq] at hrd; cases hrd
            have hns : ns = r.names := by simp [ns, hr]
            rcases ht.here r d a0 hr hrn with e | ⟨x, e1, e2⟩
            · rw [hns] at hne; exact absurd (e.trans hg1.symm) hne
            · have hx : newerIncs t (R.incs (ip i ns)) = [x] := by
                rcases hnewer with ⟨-, e⟩ | ⟨y, e, e'⟩
                · rw [← hns, e] at e1; simp at e1
                · rw [← hns, e'] at e1; simp at e1; rw [e, e1]
              have hne' : R.incs (ip i ns) ≠ [] := by rw [hns, e1]; simp
              have hrel : relevantIncs t (t + 1) R ⟨mp i ns, ip i ns, R.incs (ip i ns)⟩ = (upTo (R.mirror (mp i ns)) [x]).reverse := by
                simp only [relevantIncs]
                rw [if_neg (by simp [hne']), hx]
              have hval : restoreFp empty (relevantIncs t (t + 1) R ⟨mp i ns, ip i ns, R.incs (ip i ns)⟩) = some d := by
                rw [hrel]
                rcases e2 with ⟨c', rfl, hm⟩ | rfl
                · exact restoreFp_leads (Leads.diff Leads.nil) _ empty (fun z hz => by cases hz; rw [hns]; exact hm)
                · exact restoreFp_leads Leads.snap _ empty (fun z hz => by cases hz)
              rw [hval]; rfl
    have hR : regressFile empty t i (find recs i) R = some R2 := by
      simp only [regressFile, hfound, if_neg hlen]
      refine (congrArg (fun o : Option (Repo I C A) => o.map fun R => { R with incs := upd R.incs (ip i ns) ((R.incs (ip i ns)).filter fun x => !(t ≤ x.1 : Bool)) }) hmirror).trans ?_
      simp only [Option.map_some, hfilter, R2]
    refine ⟨R2, hR, ⟨hg.inv, hg.owned, ?_, hg.metas⟩, ?_, ?_⟩
    · intro n hn
      have hne : ∀ q, Reg own i q → (Place.long n : Place I) ≠ q := by
        rintro q hq rfl
        rcases hq with hq | ⟨k, hq, ho⟩
        · cases hq
        · cases hq; exact hn (hg.owned n (by rw [ho]; simp))
      simp only [R2, upd, if_neg (hne _ hM), if_neg (hne _ hK)]
      exact hg.fresh n hn
    · intro p hp
      constructor
      · by_cases e : p = mp i ns
        · simp only [R2, upd, if_pos e]; rw [e, hgoal]
        · simp only [R2, upd, if_neg e]; exact ht.mirror p hp e
      · by_cases e : p = ip i ns
        · simp only [R2, upd, if_pos e]; rw [e]
        · simp only [R2, upd, if_neg e]; exact ht.incs p hp e
    · intro j hj p hp
      have e1 : p ≠ mp i ns := fun e => hj (hp.disjoint (e ▸ hM))
      have e2 : p ≠ ip i ns := fun e => hj (hp.disjoint (e ▸ hK))
      simp only [R2, upd, if_neg e1, if_neg e2, and_self]
  cases hc : find recs i with
  | some r =>
    obtain ⟨u, -, hu⟩ := cur_mem (hcur.trans hc)
    have hns : ns = r.names := by simp [ns, hc]
    have hf := updateRf_spec (R := R) (hk.recs u r hu).1 (fun hf => by
      have hlong : ∃ n, r.names.mirror = some n := by
        have := (hk.recs u r hu).1.mirror
        rw [hf] at this
        exact Option.isSome_iff_exists.mp this
      obtain ⟨n, hn⟩ := hlong
      have h1 := ht.mirror (.usual i) (Or.inl rfl) (by simp [mp, hn, hc])
      have h2 := ht.incs (.usual i) (Or.inl rfl) (by simp [ip, hn, hc])
      rw [h1, h2]; exact hk.unfit hf)
    rw [hc] at hmain
    exact hmain _ rfl (by rw [hns]; simp only [regressRf, hf, Option.map_some])
  | none =>
    have hns : ns = {} := by simp [ns, hc]
    cases hg1 : getRf R i with
    | none =>
      have hx : R.mirror (.usual i) = none ∧ R.incs (.usual i) = [] := by
        simp only [getRf] at hg1
        split at hg1
        · cases hg1
        · next hx => simpa using hx
      have hR : regressFile empty t i none R = some R := by simp [regressFile, regressRf, hg1]
      refine ⟨R, hR, hg, ?_, fun _ _ _ _ => ⟨rfl, rfl⟩⟩
      intro p hp
      constructor
      · by_cases e : p = mp i ns
        · rw [e, hgoal, hc, hns]; simpa [mp] using hx.1
        · exact ht.mirror p hp e
      · by_cases e : p = ip i ns
        · have h1 := ht.inc
          rw [hc] at h1
          have h2 : R.incs (ip i {}) = [] := by simpa [ip] using hx.2
          simp only [Option.map_none, Option.getD_none, h2] at h1
          rw [e, hns, h2]
          rcases h1 with h1 | ⟨x, h1⟩
          · exact h1
          · simp at h1
        · exact ht.incs p hp e
    | some rf =>
      have hrf : rf = ⟨mp i ns, ip i ns, R.incs (ip i ns)⟩ := by
        rw [hns]
        simp only [getRf] at hg1
        split at hg1
        · cases hg1; rfl
        · cases hg1
      subst hrf
      rw [hc] at hmain
      exact hmain _ rfl (by simp only [regressRf, hg1])

/-- all files -/
theorem regressAll_spec {fm fi : I → Bool} {R0 : Repo I C A} {own : Bytes → Option I} {t : Nat} {recs : List (I × Rec C A)}
    (hhead : R0.metas.head? = some (t, recs)) (hk : ∀ i, Ok (fm i) (fi i) (proj R0.metas i) i R0 own) (empty : C) (is : List I) {R : Repo I C A}
    (hg : Mid R0 R own) (ht : ∀ i, Touched (find recs i) t R0 R own i) :
    ∃ R', regressAll empty t recs is R = some R' ∧ Mid R0 R' own ∧ ∀ i, (i ∈ is ∨ Agree R0 R own i) → Agree R0 R' own i := by
  induction is generalizing R with
  | nil => exact ⟨R, rfl, hg, fun i hi => by simpa using hi⟩
  | cons i is ih =>
    obtain ⟨R1, e1, e2, e3, e4⟩ := regressFile_spec hhead (hk i) hg (ht i) empty
    have hown : ∀ i r, find recs i = some r → (∀ n ∈ Names.list r.names, own n = some i) ∧ R0.mirror (mp i r.names) = some r.node.data := by
      intro i r hr
      have hcur : cur (proj R0.metas i) = find recs i := by
        cases hm : R0.metas with
        | nil => rw [hm] at hhead; cases hhead
        | cons x l => rw [hm] at hhead; cases hhead; rfl
      rw [← hcur] at hr
      obtain ⟨u, -, hu⟩ := cur_mem hr
      exact ⟨((hk i).recs u r hu).2, (hk i).here r hr⟩
    obtain ⟨R2, f1, f2, f3⟩ := ih e2 (fun j => by
      by_cases hj : j = i
      · subst hj; exact e3.touched (hown j)
      · exact (ht j).congr (fun r hr => (hown j r hr).1) (e4 j hj))
    refine ⟨R2, by simp only [regressAll, e1, f1], f2, ?_⟩
    intro j hj
    by_cases hji : j = i
    · subst hji; exact f3 j (Or.inr e3)
    · refine f3 j ?_
      rcases hj with hj | hj
      · exact Or.inl ((List.mem_cons.mp hj).resolve_left hji)
      · exact Or.inr (fun p hp => ⟨(e4 j hji p hp).1.trans (hj p hp).1, (e4 j hji p hp).2.trans (hj p hp).2⟩)

/-- A failed backup that has been undone leaves everything as it was, but for names that are taken. -/
theorem attempt_state {fm fi : I → Bool} {R : Repo I C A} {hist : List (Nat × List (I × Node C A))} (h : State fm fi R hist) (hne : hist ≠ [])
    {a : Attempt I C A} (hn : a.order.Nodup) (hback : ∀ i ∈ a.order, i ∈ a.back) (hsafe : a.before.all safe = true) (hfm : a.fits.mirror = fm)
    (hmono : ∀ i, fi i = true → (a.fits.inc i || a.fits.root i) = true) (hfi : ∀ i, (a.fits.inc i || a.fits.root i) = true → a.fits.mirror i = true)
    {names : St} (e : LongNames.run R.names (a.before ++ [.restart]) = some names) (empty : C) :
    ∃ R', attempt empty R a = some R' ∧ State fm fi R' hist := by
  subst hfm
  obtain ⟨⟨own, hg, hk⟩, hsame, htimes⟩ := between_state h (ops := a.before ++ [.restart]) (by simp [hsafe, safe]) e
  obtain ⟨t, recs, hhead⟩ : ∃ t recs, R.metas.head? = some (t, recs) := by
    cases hm : R.metas with
    | nil => simp only [hm] at hsame; cases hsame; exact absurd rfl hne
    | cons x l => exact ⟨x.1, x.2, rfl⟩
  obtain ⟨R1, e1, e2, e3⟩ := interrupted_spec (R0 := { R with names }) (R := { R with names }) hfi hhead ⟨hg.inv, hg.owned, hg.fresh, rfl⟩ hk hmono hn
    (fun i p _ => ⟨rfl, rfl⟩)
  obtain ⟨R2, f1, f2, f3⟩ := regressAll_spec (R0 := { R with names }) hhead hk empty a.back e2 (fun i => (e3 i).1)
  refine ⟨R2, by simp only [attempt, e, e1, hhead, Option.map_some, Option.getD_some, f1], ⟨own, ⟨f2.inv, f2.owned, f2.fresh⟩, ?_⟩, ?_, ?_⟩
  · intro i
    have hi : Agree { R with names } R2 own i := f3 i (by
      by_cases hb : i ∈ a.back
      · exact Or.inl hb
      · exact Or.inr ((e3 i).2 fun hx => hb (hback i hx)))
    rw [f2.metas]
    exact (hk i).frame (fun p => Iff.rfl) (fun n hn => hn) hi
  · rw [f2.metas]; exact hsame
  · rw [f2.metas]; exact htimes

/-- What is asked of a failed backup: every file is processed once at most; what has been processed is regressed. -/
structure Attempt.Fine (a : Attempt I C A) : Prop where
  once : a.order.Nodup
  back : ∀ i ∈ a.order, i ∈ a.back
  safe : a.before.all C42.safe = true

theorem attemptAll_state {fm fi : I → Bool} {hist : List (Nat × List (I × Node C A))} (empty : C) (as : List (Attempt I C A)) {R : Repo I C A}
    (h : State fm fi R hist) (hne : as ≠ [] → hist ≠ []) (hf : ∀ a ∈ as, a.Fine) (hfm : ∀ a ∈ as, a.fits.mirror = fm)
    (hmono : ∀ a ∈ as, ∀ i, fi i = true → (a.fits.inc i || a.fits.root i) = true)
    (hfi : ∀ a ∈ as, ∀ i, (a.fits.inc i || a.fits.root i) = true → a.fits.mirror i = true) :
    (∀ R', attemptAll empty R as = some R' → State fm fi R' hist) ∧ ((∀ a ∈ as, a.before = []) → ∃ R', attemptAll empty R as = some R') := by
  induction as generalizing R with
  | nil => exact ⟨fun R' e => by cases e; exact h, fun _ => ⟨R, rfl⟩⟩
  | cons a as ih =>
    have hne' := hne (by simp)
    have hm := hf a (by simp)
    have main : ∀ names, LongNames.run R.names (a.before ++ [.restart]) = some names → ∃ R1, attempt empty R a = some R1 ∧ State fm fi R1 hist :=
      fun names e => attempt_state h hne' hm.once hm.back hm.safe (hfm a (by simp)) (hmono a (by simp)) (hfi a (by simp)) e empty
    have next := fun R1 (h1 : State fm fi R1 hist) => ih (R := R1) h1 (fun _ => hne') (fun a' h' => hf a' (List.mem_cons_of_mem _ h'))
      (fun a' h' => hfm a' (List.mem_cons_of_mem _ h')) (fun a' h' => hmono a' (List.mem_cons_of_mem _ h')) (fun a' h' => hfi a' (List.mem_cons_of_mem _ h'))
    constructor
    · intro R' e
      simp only [attemptAll] at e
      split at e
      · cases e
      · next R1 e1 =>
        cases hnm : LongNames.run R.names (a.before ++ [.restart]) with
        | none => simp [attempt, hnm] at e1
        | some names =>
          obtain ⟨R2, e2, h2⟩ := main names hnm
          rw [e1] at e2; cases e2
          exact (next R1 h2).1 R' e
    · intro hb
      obtain ⟨R1, e1, h1⟩ := main { R.names with counter := none } (by rw [hb a (by simp)]; rfl)
      obtain ⟨R', e'⟩ := (next R1 h1).2 (fun a' h' => hb a' (List.mem_cons_of_mem _ h'))
      exact ⟨R', by simp only [attemptAll, e1, e']⟩

end Verif.LongRestore
