import Verif.Spec.RepoList
import Verif.Proof.RepoReach
import Verif.Model.Sort
import Verif.Props.C01
/-
C61  `list increments`: of which backups it tells, and that the type of a file in any backup can be told from it.
-/
namespace Verif.C61
open Verif.Repo Verif.MetaChain
set_option linter.unusedSectionVars false
variable {α A C S H Δ L : Type} [LinearOrder α] [DecidableEq A] [DecidableEq S] [DecidableEq H] [DecidableEq L]
variable {o : Ops A C H Δ L} {rsv : α → Prop} {st : State α A C S H Δ} {hist : Hist α A C S}

theorem mem_entries {mt : Nat} {sub : List α} {e : Nat × FileType} :
    e ∈ getIncrements st mt sub ↔ (∃ f ∈ incsAt st sub, e = (f.time, incType f.inc)) ∨ e = (mt, fileType (get st.mirror sub)) := by
  unfold getIncrements incsAt
  rw [(Sort.sortBy_perm _ _).mem_iff, List.mem_append, List.mem_singleton, List.mem_map]
  simp only [eq_comm (a := e)]

theorem pairwise_entries {mt : Nat} {sub : List α} (hs : (incsAt st sub).Pairwise (fun f g => g.time < f.time))
    (hlt : ∀ f ∈ incsAt st sub, f.time < mt) : (getIncrements st mt sub).Pairwise (fun x y => x.1 < y.1) := by
  have hnd : ((incsAt st sub).map (fun f => (f.time, incType f.inc)) ++ [(mt, fileType (get st.mirror sub))]).Pairwise (fun x y => x.1 ≠ y.1) := by
    rw [List.pairwise_append]
    refine ⟨List.pairwise_map.mpr (hs.imp fun h => (ne_of_lt h).symm), by simp, ?_⟩
    intro x hx y hy
    obtain ⟨f, hf, rfl⟩ := List.mem_map.mp hx
    rw [List.mem_singleton.mp hy]
    exact ne_of_lt (hlt f hf)
  have h1 : (getIncrements st mt sub).Pairwise (fun x y => x.1 ≠ y.1) :=
    (Sort.sortBy_perm _ _).pairwise_iff (fun h => Ne.symm h) |>.mpr hnd
  have h2 : (getIncrements st mt sub).Pairwise (fun x y => x.1 ≤ y.1) := by
    have := Sort.pairwise_sortBy (le := fun x y : Nat × FileType => decide (x.1 ≤ y.1)) (by simp; intros; omega) (by simp; intros; omega)
      ((incsAt st sub).map (fun f => (f.time, incType f.inc)) ++ [(mt, fileType (get st.mirror sub))])
    unfold getIncrements incsAt at *
    exact this.imp (fun h => by simpa using h)
  exact (h1.and h2).imp fun h => by omega

theorem chain_at {incs : List α → List (IncFile α A C S Δ)} {pre post : Hist α A C S} {y x : Nat × Files α (Node A C S)}
    (h : Chain o incs (pre ++ y :: x :: post)) (i : List α) : Linked o (get y.2 i) (incAt (incs i) x.1) (get x.2 i) := by
  induction pre with
  | nil => exact h.1 i
  | cons z pre ih =>
    apply ih
    cases pre with
    | nil => exact h.2
    | cons w pre => exact h.2

theorem incAt_mem {l : List (IncFile α A C S Δ)} {t : Nat} {y : Inc A C S Δ} (h : incAt l t = some y) : ∃ f ∈ l, f.time = t ∧ f.inc = y := by
  unfold incAt at h
  rw [Option.map_eq_some_iff] at h
  obtain ⟨f, hf, rfl⟩ := h
  exact ⟨f, List.mem_of_find?_eq_some hf, by simpa using List.find?_some hf, rfl⟩

theorem incAt_none {l : List (IncFile α A C S Δ)} {t : Nat} : incAt l t = none ↔ ∀ f ∈ l, f.time ≠ t := by
  unfold incAt
  rw [Option.map_eq_none_iff, List.find?_eq_none]
  simp

/-- going back in a history -/
theorem first_from {incs : List α → List (IncFile α A C S Δ)} {sub : List α} {entries : List (Nat × FileType)}
    (hin : ∀ f ∈ incs sub, (f.time, incType f.inc) ∈ entries)
    {h : Hist α A C S} {y : Nat × Files α (Node A C S)} (hch : Chain o incs (y :: h)) (ht : ((y :: h).map Prod.fst).Pairwise (· > ·))
    (hfrom : ∀ e ∈ entries, y.1 ≤ e.1 ∨ ∃ f ∈ incs sub, f.time = e.1 ∧ f.time ∈ h.map Prod.fst)
    (hy : ∃ e, FirstFrom entries y.1 e ∧ e.2 = fileType (get y.2 sub)) :
    ∀ x ∈ y :: h, ∃ e, FirstFrom entries x.1 e ∧ e.2 = fileType (get x.2 sub) := by
  induction h generalizing y with
  | nil => intro x hx; rw [List.mem_singleton.mp hx]; exact hy
  | cons z h ih =>
    intro x hx
    rcases List.mem_cons.mp hx with rfl | hx
    · exact hy
    obtain ⟨hp1, hp2⟩ := List.pairwise_cons.mp ht
    obtain ⟨hq1, -⟩ := List.pairwise_cons.mp hp2
    have hzy : z.1 < y.1 := hp1 z.1 (by simp)
    refine ih hch.2 hp2 ?_ ?_ x hx
    · intro e he
      rcases hfrom e he with h1 | ⟨f, hf, h1, h2⟩
      · left; omega
      · rw [List.map_cons] at h2
        rcases List.mem_cons.mp h2 with h2 | h2
        · left; omega
        · exact .inr ⟨f, hf, h1, h2⟩
    · obtain ⟨⟨l1, l2⟩, -⟩ := hch.1 sub
      cases hi : incAt (incs sub) z.1 with
      | none =>
        obtain ⟨e, ⟨h1, h2, h3⟩, h4⟩ := hy
        refine ⟨e, ⟨h1, by omega, ?_⟩, by rw [h4, l2 hi]⟩
        intro e' he' hle
        rcases hfrom e' he' with h5 | ⟨f, hf, h5, h6⟩
        · exact h3 e' he' h5
        · rw [List.map_cons] at h6
          rcases List.mem_cons.mp h6 with h6 | h6
          · exact absurd h6 (incAt_none.mp hi f hf)
          · have := hq1 _ h6; omega
      | some inc =>
        obtain ⟨f, hf, h1, h2⟩ := incAt_mem hi
        refine ⟨(f.time, incType f.inc), ⟨hin f hf, by simp only; omega, fun e' _ hle => by simp only; omega⟩, ?_⟩
        rw [h2, l1 inc hi]

theorem fileType_eq (n : Option (Node A C S)) : fileType n = typeIn n := by
  cases n with
  | none => rfl
  | some n => cases n <;> rfl

/-- In a repository with complete backups: the entries are in order of time, each for another backup, the last one for the last backup. The
type of the path in any backup (`missing` if it isn't there) is that of the first entry not before this backup: so each entry tells the type in
its own backup. Between two consecutive backups of which the older isn't listed, the contents haven't changed. -/
theorem increments (h : Reach o rsv false st hist) (hne : hist ≠ []) (sub : List α) :
    ∃ mt T rest, st.marks = [mt] ∧ hist = (mt, T) :: rest ∧
      (getIncrements st mt sub).Pairwise (fun x y => x.1 < y.1) ∧
      (getIncrements st mt sub).getLast? = some (mt, typeIn (get T sub)) ∧
      (∀ e ∈ getIncrements st mt sub, ∃ U, (e.1, U) ∈ hist ∧ e.2 = typeIn (get U sub)) ∧
      (∀ x ∈ hist, ∃ e, FirstFrom (getIncrements st mt sub) x.1 e ∧ e.2 = typeIn (get x.2 sub)) ∧
      ∀ pre y x post, hist = pre ++ y :: x :: post → x.1 ∉ (getIncrements st mt sub).map Prod.fst → SameContents (get y.2 sub) (get x.2 sub) := by
  simp only [← fileType_eq]
  rcases (reach_inv h).1 rfl with ⟨rfl, -⟩ | ⟨P, T0, rest, L0, mrest, rfl, hs, hc⟩
  · exact absurd rfl hne
  have hi : incsAt st sub = P.incs0 sub := hc.incs sub
  have hp := pairwise_entries (st := st) (mt := P.t0) (sub := sub) (by rw [hi]; exact hs.sorted sub)
    (by rw [hi]; exact fun f hf => (hs.incs sub f hf).2.1)
  have hty : fileType (get st.mirror sub) = fileType (get T0 sub) := (hc.mirror sub).fileType
  have hlast : (P.t0, fileType (get T0 sub)) ∈ getIncrements st P.t0 sub := mem_entries.mpr (.inr (by rw [hty]))
  have hle : ∀ e ∈ getIncrements st P.t0 sub, e = (P.t0, fileType (get T0 sub)) ∨
      ∃ f ∈ P.incs0 sub, e = (f.time, incType f.inc) ∧ f.time < P.t0 ∧ f.time ∈ rest.map Prod.fst := by
    intro e he
    rcases mem_entries.mp he with ⟨f, hf, rfl⟩ | rfl
    · rw [hi] at hf
      exact .inr ⟨f, hf, rfl, (hs.incs sub f hf).2⟩
    · rw [hty]; exact .inl rfl
  have hfirst : ∀ x ∈ (P.t0, T0) :: rest, ∃ e, FirstFrom (getIncrements st P.t0 sub) x.1 e ∧ e.2 = fileType (get x.2 sub) := by
    refine first_from (incs := P.incs0) (fun f hf => mem_entries.mpr (.inl ⟨f, by rw [hi]; exact hf, rfl⟩)) hs.chain hs.times ?_ ?_
    · intro e he
      rcases hle e he with rfl | ⟨f, hf, rfl, h1, h2⟩
      · exact .inl (le_refl _)
      · exact .inr ⟨f, hf, rfl, h2⟩
    · refine ⟨_, ⟨hlast, le_refl _, ?_⟩, rfl⟩
      intro e he h1
      exact h1
  refine ⟨P.t0, T0, rest, hc.marks, rfl, hp, ?_, ?_, hfirst, ?_⟩
  · rw [List.getLast?_eq_some_iff]
    obtain ⟨l1, l2, hl⟩ := List.append_of_mem hlast
    cases l2 with
    | nil => exact ⟨l1, hl⟩
    | cons z l2 =>
      exfalso
      rw [hl] at hp
      have := (List.pairwise_cons.mp (List.pairwise_append.mp hp).2.1).1 z (by simp)
      rcases hle z (by rw [hl]; simp) with rfl | ⟨f, hf, rfl, h1, h2⟩
      · exact lt_irrefl _ this
      · simp only at this; omega
  · intro e he
    have huniq : ∀ e' ∈ getIncrements st P.t0 sub, e'.1 = e.1 → e' = e := by
      intro e' he' heq
      by_contra hcon
      have : ∀ l : List (Nat × FileType), l.Pairwise (fun x y => x.1 < y.1) → e ∈ l → e' ∈ l → False := by
        intro l
        induction l with
        | nil => intro _ h; cases h
        | cons z l ih =>
          intro hp h1 h2
          obtain ⟨hp1, hp2⟩ := List.pairwise_cons.mp hp
          rcases List.mem_cons.mp h1 with rfl | h1 <;> rcases List.mem_cons.mp h2 with e2 | h2
          · exact hcon e2
          · have := hp1 e' h2; omega
          · have := hp1 e h1; rw [← e2] at this; omega
          · exact ih hp2 h1 h2
      exact this _ hp he he'
    have hmem : e.1 ∈ ((P.t0, T0) :: rest).map Prod.fst := by
      rcases hle e he with rfl | ⟨f, hf, rfl, h1, h2⟩
      · simp
      · rw [List.map_cons]; exact List.mem_cons_of_mem _ h2
    obtain ⟨x, hx, hxe⟩ := List.mem_map.mp hmem
    obtain ⟨e', ⟨h1, h2, h3⟩, h4⟩ := hfirst x hx
    have : e'.1 = e.1 := by
      have := h3 e he (by omega); omega
    rw [huniq e' h1 this] at h4
    exact ⟨x.2, by rw [← hxe]; exact hx, h4⟩
  · intro pre y x post hh hnot
    have hch := hs.chain
    rw [hh] at hch
    have hnone : incAt (P.incs0 sub) x.1 = none := by
      rw [incAt_none]
      intro f hf he
      exact hnot (List.mem_map.mpr ⟨_, mem_entries.mpr (.inl ⟨f, by rw [hi]; exact hf, rfl⟩), he⟩)
    obtain ⟨⟨-, h0⟩, h1, h2, h3⟩ := chain_at hch sub
    rw [hnone] at h1 h2 h3
    specialize h0 hnone
    revert h0 h1 h2 h3
    cases get y.2 sub with
    | none => 
      cases get x.2 sub with
      | none => intros; trivial
      | some n => cases n <;> intro h0 <;> cases h0
    | some m =>
      cases get x.2 sub with
      | none => cases m <;> intro h0 <;> cases h0
      | some n =>
        cases m <;> cases n <;> intro h0 <;> (try cases h0) <;> intro h1 h2 h3
        · trivial
        · exact Option.some.inj (h3 _ _ rfl).2
        · rcases h2 _ _ rfl with ⟨a', h2, -⟩ | h2
          · cases h2; rfl
          · cases h2

/-! ### What a session adds -/

theorem changed_iff {m n : Option (Node A C S)} {r : Option (MRec A S H)} (h : Desc o m r) :
    (n.isSome = true ∨ r.isSome = true) ∧ changedPair o n r = true ↔ ¬ SameOrNone o m n := by
  cases m with
  | none =>
    cases r with
    | some r => exact h.elim
    | none => cases n <;> simp [changedPair, SameOrNone]
  | some m =>
    cases r with
    | none => cases m <;> exact h.elim
    | some r =>
      cases n with
      | none => simp [changedPair, SameOrNone]
      | some n =>
        simp only [Option.isSome_some, true_or, true_and, changedPair, SameOrNone]
        cases m <;> cases r <;> (first | exact h.elim | skip) <;> simp only [Desc] at h <;> cases n <;>
          simp only [eqMeta, SameMeta, h, Bool.not_false, not_false_eq_true, Bool.not_eq_true', decide_eq_false_iff_not, Bool.and_eq_false_iff, beq_eq_false_iff_ne, not_and_or]
        · rw [eq_comm]
        · obtain ⟨rfl, rfl, -⟩ := h
          rw [ne_eq, eq_comm, eq_comm (a := o.size _)]
        · obtain ⟨rfl, rfl⟩ := h
          rw [eq_comm, eq_comm (a := (_ : S))]

theorem incOf_some {c : Ctx α A C S H Δ} {i : List α} (hp : c.prev.isSome = true) : (c.incOf o i false).isSome = true := by
  unfold Ctx.incOf
  obtain ⟨t, ht⟩ := Option.isSome_iff_exists.mp hp
  rw [ht]
  cases c.mirror i with
  | none => rfl
  | some n => cases n <;> rfl

theorem finInc_some {c : Ctx α A C S H Δ} {i : List α} (hp : c.prev.isSome = true) (hf : c.isFast i = true) :
    (c.finInc o i).isSome = true ↔ ∃ tf, c.patch o i = .done tf := by
  unfold Ctx.finInc
  rw [if_pos hf]
  cases hpat : c.patch o i with
  | failed => simp
  | unchanged tf => simp
  | done tf =>
    simp only [Patched.done.injEq, exists_eq', iff_true]
    cases tf with
    | none => exact incOf_some hp
    | some tf =>
      cases tf with
      | reg a x =>
        simp only [Node.isReg]
        unfold Ctx.incOf
        obtain ⟨t, ht⟩ := Option.isSome_iff_exists.mp hp
        rw [ht]
        simp only [hpat]
        cases c.mirror i with
        | none => rfl
        | some n => cases n <;> rfl
      | dir a => exact incOf_some hp
      | other a s => exact incOf_some hp

theorem listed_iff {P : Prot α A C S H Δ} {st' : State α A C S H Δ} {i : List α} {x : Option (Inc A C S Δ)} {now : Nat}
    (h : incsAt st' i = incFile P i x ++ P.incs0 i) (hlt : ∀ f ∈ P.incs0 i, f.time < P.t0) (hn : P.t0 < now) :
    P.t0 ∈ (getIncrements st' now i).map Prod.fst ↔ x.isSome = true := by
  constructor
  · intro hm
    obtain ⟨e, he, het⟩ := List.mem_map.mp hm
    rcases mem_entries.mp he with ⟨f, hf, rfl⟩ | rfl
    · rw [h, List.mem_append] at hf
      simp only at het
      rcases hf with hf | hf
      · cases x with
        | none => cases hf
        | some y => rfl
      · have := hlt f hf; omega
    · simp only at het; omega
  · intro hx
    obtain ⟨y, rfl⟩ := Option.isSome_iff_exists.mp hx
    refine List.mem_map.mpr ⟨(P.t0, incType y), mem_entries.mpr (.inl ⟨⟨i, P.t0, y⟩, ?_, rfl⟩), rfl⟩
    rw [h]; simp [incFile]

/-- Which entries a successful backup adds for a path which is a directory in the last backup or in the source (so always for the whole
repository): the time of the last backup, exactly if some file at or below the path isn't, as far as metadata tell, as it was backed up last
time. So a backup after which nothing has changed when the next one is made is never listed. -/
theorem session_directory (h : Reach o rsv false st hist) {mt : Nat} {T : Files α (Node A C S)} {rest : Hist α A C S} (hh : hist = (mt, T) :: rest)
    {s : Sess α A C S H Δ} (hv : ValidSess o rsv hist s) {st' : State α A C S H Δ} (hb : backup o st s = some st') {i : List α}
    (hd : isDirNode (get T i) = true ∨ isDirNode (get s.src i) = true) :
    mt ∈ (getIncrements st' s.now i).map Prod.fst ↔ ∃ k, i <+: k ∧ ¬ SameOrNone o (get T k) (get s.src k) := by
  rcases (reach_inv h).1 rfl with ⟨rfl, -⟩ | ⟨P, T0, rest', L0, mrest, rfl, hs, hc⟩
  · cases hh
  cases hh
  obtain ⟨work, st₂, e1, e2, -, -, e5⟩ := session_next hs hc hv
  have : st₂ = st' := by
    unfold backup at hb
    rw [e1] at hb
    exact Option.some.inj (e2.symm.trans hb)
  subst this
  have hbf := before_next hs hc hv
  rw [listed_iff (e5 i) (fun f hf => (hs.incs i f hf).2.1) (hv.time (P.t0, T) (by simp))]
  have hnf : (nextCtx st s P L0).isFast i = false := by
    unfold Ctx.isFast
    have e : isDirRec ((nextCtx st s P L0).dst i) = isDirNode (get T i) := isDirRec_of_desc (hs.desc0.desc i)
    have e' : isDirNode ((nextCtx st s P L0).src i) = isDirNode (get s.src i) := rfl
    rw [e, e']
    rcases hd with hd | hd <;> simp [hd]
  have hfin : ((nextCtx st s P L0).finInc o i).isSome = true := by
    unfold Ctx.finInc
    rw [hnf]
    exact incOf_some (c := nextCtx st s P L0) rfl
  have : (if i ∈ (nextCtx st s P L0).touched o then (nextCtx st s P L0).finInc o i else none).isSome = true ↔ i ∈ (nextCtx st s P L0).touched o := by
    by_cases hi : i ∈ (nextCtx st s P L0).touched o <;> simp [hi, hfin]
  rw [this, hbf.sorted.touched.2]
  constructor
  · rintro ⟨k, hk, hik⟩
    exact ⟨k, hik, (changed_iff (hs.desc0.desc k)).mp ((hbf.sorted.changed.2 k).mp hk)⟩
  · rintro ⟨k, hik, hk⟩
    exact ⟨k, (hbf.sorted.changed.2 k).mpr ((changed_iff (hs.desc0.desc k)).mpr hk), hik⟩

/-- The same for a path which is neither: the last backup is listed exactly if the file isn't as it was, and could be transferred, and not only
attributes have changed (which is found out by the digest recorded for it). -/
theorem session_file (h : Reach o rsv false st hist) {mt : Nat} {T : Files α (Node A C S)} {rest : Hist α A C S} (hh : hist = (mt, T) :: rest)
    {s : Sess α A C S H Δ} (hv : ValidSess o rsv hist s) {st' : State α A C S H Δ} (hb : backup o st s = some st') {i : List α}
    (hd : isDirNode (get T i) = false) (hd' : isDirNode (get s.src i) = false)
    {recs : List (Rec (List α) (MRec A S H))} (hrec : metaAtTime st.metas mt (fun _ => true) = some recs) :
    mt ∈ (getIncrements st' s.now i).map Prod.fst ↔
      ¬ SameOrNone o (get T i) (get s.src i) ∧
      (get s.src i = none ∨ (s.fails i = false ∧
        ¬ (s.nohash i = false ∧ ∃ a c a' c', get T i = some (.reg a c) ∧ get s.src i = some (.reg a' c') ∧ digestOf recs i = some (o.sha c')))) := by
  rcases (reach_inv h).1 rfl with ⟨rfl, -⟩ | ⟨P, T0, rest', L0, mrest, rfl, hs, hc⟩
  · cases hh
  cases hh
  obtain ⟨work, st₂, e1, e2, -, -, e5⟩ := session_next hs hc hv
  have : st₂ = st' := by
    unfold backup at hb
    rw [e1] at hb
    exact Option.some.inj (e2.symm.trans hb)
  subst this
  have hbf := before_next hs hc hv
  rw [listed_iff (e5 i) (fun f hf => (hs.incs i f hf).2.1) (hv.time (P.t0, T) (by simp))]
  have hL : recs = L0 := by
    have := hc.metas.read (t := P.t0) (L := L0) (by simp) (fun _ => true)
    rw [hrec] at this
    simpa using this
  subst hL
  have hf : (nextCtx st s P recs).isFast i = true := by
    unfold Ctx.isFast
    have e : isDirRec ((nextCtx st s P recs).dst i) = isDirNode (get T i) := isDirRec_of_desc (hs.desc0.desc i)
    have e' : isDirNode ((nextCtx st s P recs).src i) = isDirNode (get s.src i) := rfl
    rw [e, e', hd, hd']; rfl
  have htouch : i ∈ (nextCtx st s P recs).touched o ↔ i ∈ (nextCtx st s P recs).changed o := by
    rw [hbf.sorted.touched.2]
    constructor
    · intro hx
      by_contra hn
      have hm := (hbf.sorted.touched.2 i).mpr hx
      unfold Ctx.touched at hm
      obtain ⟨⟨b, j⟩, hj, rfl⟩ := List.mem_map.mp hm
      cases b with
      | true =>
        apply hn
        have h1 := (C14.fillIn_spec _ (hbf.sorted.changed (o := o)).1).1
        rw [← h1]
        exact List.mem_map.mpr ⟨(true, j), List.mem_filter.mpr ⟨hj, rfl⟩, rfl⟩
      | false =>
        have hfil : (nextCtx st s P recs).isFiller o j = true := by simpa [Ctx.isFiller] using hj
        obtain ⟨h1, -⟩ := filler_dirs hbf.ok hbf.sorted hfil
        unfold Ctx.isFast at hf
        simp [h1] at hf
    · intro hx; exact ⟨i, hx, List.prefix_refl _⟩
  have hfin := finInc_some (o := o) (c := nextCtx st s P recs) (i := i) rfl hf
  have e : (if i ∈ (nextCtx st s P recs).touched o then (nextCtx st s P recs).finInc o i else none).isSome = true ↔
      i ∈ (nextCtx st s P recs).changed o ∧ ∃ tf, (nextCtx st s P recs).patch o i = .done tf := by
    rw [← hfin, ← htouch]
    by_cases hi : i ∈ (nextCtx st s P recs).touched o <;> simp [hi]
  rw [e, hbf.sorted.changed.2 i]
  refine and_congr (changed_iff (hs.desc0.desc i)) ?_
  have hdst : (nextCtx st s P recs).dst i = recAt recs i := rfl
  have hsrc : (nextCtx st s P recs).src i = get s.src i := rfl
  have hmir : (nextCtx st s P recs).mirror i = get st.mirror i := rfl
  have hdesc := hs.desc0.desc i
  have hloose := hc.mirror i
  have hdig : digestOf recs i = hashOf (recAt recs i) := by
    unfold digestOf recAt
    cases recs.find? (fun r => r.idx = i) with
    | none => rfl
    | some r =>
      simp only [Option.bind_some, digest]
      cases r.data with
      | none => rfl
      | some m => cases m <;> rfl
  rw [hdig]
  rw [← hsrc] at hd' ⊢
  have hfa : (nextCtx st s P recs).s.fails i = s.fails i := rfl
  have hno : (nextCtx st s P recs).s.nohash i = s.nohash i := rfl
  cases hsr : (nextCtx st s P recs).src i with
  | none => simp [Ctx.patch, hsr]
  | some n =>
    cases n with
    | dir a => rw [hsr] at hd'; cases hd'
    | other a x =>
      by_cases hfl : s.fails i = true <;> simp [Ctx.patch, hsr, hfa, hfl]
    | reg a cont =>
      by_cases hfl : s.fails i = true
      · simp [Ctx.patch, hsr, hfa, hfl]
      · simp only [Ctx.patch, hsr, hfa, hfl, hdst, hmir, hno, o.patch_delta, if_true]
        revert hdesc hloose hd
        cases get T i with
        | none =>
          cases recAt recs i with
          | none => intro _ _ _; simp
          | some r => intro _ h; cases r <;> exact h.elim
        | some m =>
          cases m with
          | dir a => intro h; cases h
          | other a x =>
            cases recAt recs i with
            | none => intro _ h; exact h.elim
            | some r => cases r <;> intro _ h <;> first | exact h.elim | (intro _; simp)
          | reg a1 x =>
            cases recAt recs i with
            | none => intro _ h; exact h.elim
            | some r =>
              cases r with
              | reg a2 sz d =>
                cases get st.mirror i with
                | none => intro _ _ h; exact h.elim
                | some k =>
                  cases k <;> intro _ _ h <;> (first | exact h.elim | skip)
                  by_cases hnh : s.nohash i = false ∧ d = some (o.sha cont)
                  · simp [hnh, hashOf]
                  · simp only [Bool.false_eq_true, if_false]
                    rw [if_neg hnh]
                    refine ⟨fun _ => .inr ⟨trivial, ?_⟩, fun _ => ⟨_, rfl⟩⟩
                    rintro ⟨h1, b, c, b', c', -, h3, h4⟩
                    cases h3
                    exact hnh ⟨h1, h4⟩
              | _ => intro _ h; exact h.elim

end Verif.C61

namespace Verif.C61.Demo
open Verif.Repo Verif.Repo.Demo Verif.C61

/-- a directory, then a regular file, then gone -/
example : getIncrements st3 30 [2] = [(10, .directory), (20, .regular), (30, .missing)] := by decide +kernel
example : getIncrements st3 30 [3, 1] = [(10, .missing), (20, .regular), (30, .regular)] := by decide +kernel
/-- a link of a directory which has become a regular file: nothing to tell about the second backup -/
example : getIncrements st3 30 [2, 5] = [(10, .special), (30, .missing)] := by decide +kernel
example : getIncrements st3 30 [] = [(10, .directory), (20, .directory), (30, .directory)] := by decide +kernel

/-- another backup of the same files, and one with a file changed -/
def src5 : Files Nat (Node Nat Nat Nat) := [([], .dir 8), ([1], .other 3 4), ([3], .dir 2), ([3, 1], .reg 4 6)]
theorem tree5 : IsTree rsv src5 := ⟨by decide +kernel, ⟨8, by decide +kernel⟩, by
      intro x hx hne
      simp only [src5, List.mem_cons, List.not_mem_nil, or_false] at hx
      rcases hx with rfl | rfl | rfl | rfl
      · exact absurd rfl hne
      · exact ⟨8, by decide +kernel⟩
      · exact ⟨8, by decide +kernel⟩
      · exact ⟨2, by decide +kernel⟩, by unfold rsv; decide +kernel⟩
def st4 := (backup ops st3 (sess 40 src3)).get (by decide +kernel)
def st5 := (backup ops st4 (sess 50 src5)).get (by decide +kernel)
theorem valid4 : ValidSess ops rsv [(30, src3), (20, src2), (10, src1)] (sess 40 src3) := ⟨valid3.tree, by decide +kernel, rfl, honest_any _ _⟩
theorem valid5 : ValidSess ops rsv [(40, src3), (30, src3), (20, src2), (10, src1)] (sess 50 src5) := ⟨tree5, by decide +kernel, rfl, honest_any _ _⟩
theorem reach4 : Reach ops rsv false st4 [(40, src3), (30, src3), (20, src2), (10, src1)] :=
  .backup reach3 valid4 (by simp [st4]) (recorded_src _ _ valid4.tree.ordered (fun _ => rfl))
theorem reach5 : Reach ops rsv false st5 [(50, src5), (40, src3), (30, src3), (20, src2), (10, src1)] :=
  .backup reach4 valid5 (by simp [st5]) (recorded_src _ _ valid5.tree.ordered (fun _ => rfl))

/-- There are five backups but only four are listed: nothing had changed after the third one. -/
theorem not_all_listed : getIncrements st5 50 [] = [(10, .directory), (20, .directory), (40, .directory), (50, .directory)] := by decide +kernel

example : ∃ e, FirstFrom (getIncrements st5 50 []) 30 e ∧ e.2 = .directory := by
  obtain ⟨mt, T, rest, h1, h2, -, -, -, h3, -⟩ := increments reach5 (by simp) []
  cases h2
  exact h3 (30, src3) (by simp)
/-- the hypotheses of `session_directory` and `session_file` -/
example : ¬ ∃ k, [] <+: k ∧ ¬ SameOrNone ops (get src3 k) (get (sess 40 src3).src k) := by
  rw [← session_directory reach3 rfl valid4 (st' := st4) (by simp [st4]) (i := []) (.inl rfl)]
  decide +kernel
example : ¬ SameOrNone ops (get src3 [3, 1]) (get (sess 50 src5).src [3, 1]) :=
  ((session_file reach4 rfl valid5 (st' := st5) (by simp [st5]) (i := [3, 1]) rfl rfl
    (recs := (MetaChain.metaAtTime st4.metas 40 (fun _ => true)).get (by decide +kernel)) (by simp)).mp (by decide +kernel)).1

end Verif.C61.Demo
