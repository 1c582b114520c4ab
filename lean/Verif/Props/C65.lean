import Verif.Proof.Linked
/-
C65 Hard-linked files are backed up and restored with their contents.
-/
set_option linter.unusedSectionVars false
namespace Verif.C65
open Verif.Linked
open Verif.Hardlinks (Decision Rorp Run Pair)
variable {I K A C D : Type} [DecidableEq I] [DecidableEq K] [DecidableEq A] [DecidableEq C] [DecidableEq D]

/-! ### earlier backups -/

theorem made_inv {o : Ops C D} {st : State I K A C D} (h : Made o st) :
    st.fs.WF ∧ (∀ m ∈ st.metas, ∀ t, st.metas.head?.map (·.1) = some t → m.1 ≤ t) ∧
      ∀ i, ∀ x ∈ st.incs i, ∃ t, st.metas.head?.map (·.1) = some t ∧ x.1 ≤ t := by
  induction h with
  | empty f => exact ⟨fun i n h => by simp at h, fun m hm => by simp at hm, fun i x hx => by simp at hx⟩
  | @backup st st' s errs hm hlt hs ih =>
    obtain ⟨ps, a, d, t, out, w, -, hw, rfl, -⟩ := hs
    obtain ⟨h1, h2, h3⟩ := ih
    refine ⟨?_, ?_, ?_⟩
    · rw [hw]; exact steps_wf o s _ _ h1
    · intro m hm t ht
      simp only [List.head?_cons, Option.map_some, Option.some.injEq] at ht
      subst ht
      rcases List.mem_cons.1 hm with rfl | hm
      · exact le_refl _
      · exact le_of_lt (hlt m hm)
    · intro i x hx
      refine ⟨s.now, rfl, ?_⟩
      rw [hw] at hx
      have := steps_times o s (prev := st.metas.head?.map (·.1)) (s.order.zip ((ps.map digest).zip out)) (fun t => t ≤ s.now) (by
        intro t ht
        rw [Option.map_eq_some_iff] at ht
        obtain ⟨m, hm, rfl⟩ := ht
        exact le_of_lt (hlt m (List.mem_of_head? hm))) ⟨st.fs, st.recs, st.incs, []⟩ (by
        intro k y hy
        obtain ⟨t, ht, hle⟩ := h3 k y hy
        rw [Option.map_eq_some_iff] at ht
        obtain ⟨m, hm, rfl⟩ := ht
        exact le_trans hle (le_of_lt (hlt m (List.mem_of_head? hm))))
      exact this i x hx

theorem restore_of_found {st st' : State I K A C D} {i : I} {t : Nat}
    (hm : (st'.metas.find? fun m => decide (m.1 = t)) = st.metas.find? fun m => decide (m.1 = t))
    (hf : kind (st'.contents i t) = kind (st.contents i t)) : st'.restore i t = st.restore i t := by
  simp only [State.restore, hm]
  have hd : ∀ r : Rec K A C D, (st'.contents i t).map (fun f => (⟨r.reg, r.attr, f.data⟩ : File A C)) =
      (st.contents i t).map fun f => ⟨r.reg, r.attr, f.data⟩ := by
    intro r
    have := congrArg (Option.map fun x : Bool × C => (⟨r.reg, r.attr, x.2⟩ : File A C)) hf
    simpa [kind, Option.map_map, Function.comp_def] using this
  split
  · rfl
  · next r _ =>
    split
    · rfl
    · exact hd r

/-- C65: whatever is backed up next, and whatever goes wrong then with whichever file: of the earlier backups the same is restored as before. -/
theorem earlier_backups_stay {o : Ops C D} {st st' : State I K A C D} {s : Sess I K A C} {errs : List I} (h : Made o st) (ht : ∀ m ∈ st.metas, m.1 < s.now)
    (hs : Session o st s st' errs) {m : Nat × (I → Option (Rec K A C D))} (hm : m ∈ st.metas) (i : I) : st'.restore i m.1 = st.restore i m.1 := by
  obtain ⟨h1, h2, h3⟩ := made_inv h
  obtain ⟨ps, a, d, t, out, w, -, hw, rfl, -⟩ := hs
  refine restore_of_found ?_ ?_
  · rw [List.find?_cons_of_neg]
    have := ht m hm
    simp only [decide_eq_true_eq]
    omega
  · rw [← found_eq, ← found_eq]
    cases hp : st.metas.head?.map (·.1) with
    | none =>
      cases hl : st.metas with
      | nil => rw [hl] at hm; simp at hm
      | cons x l => rw [hl] at hp; simp at hp
    | some t =>
      simp only [hw, hp]
      exact steps_found o s (h2 m hm t hp) i _ _ h1

/-! ### the new backup -/

/-- file and metadata of a version give its restore -/
theorem restore_now {o : Ops C D} {st : State I K A C D} {i : I} {now : Nat} {recs : I → Option (Rec K A C D)} {v : Option (Src K A C)}
    (hm : st.metas.head? = some (now, recs)) (ht : ∀ x ∈ st.incs i, x.1 < now) (hh : Holds v (st.fs.file i)) (hd : Describes o v (recs i)) :
    st.restore i now = v.map (·.file) := by
  obtain ⟨h, hr, -⟩ := hd
  have hf : st.metas.find? (fun m => decide (m.1 = now)) = some (now, recs) := by
    cases hl : st.metas with
    | nil => rw [hl] at hm; simp at hm
    | cons x l =>
      rw [hl] at hm
      simp only [List.head?_cons, Option.some.injEq] at hm
      subst hm
      rw [List.find?_cons_of_pos (by simp)]
  have hc : st.contents i now = st.fs.file i := by
    have : (st.incs i).filter (fun x => decide (now ≤ x.1)) = [] := by
      rw [List.filter_eq_nil_iff]
      intro x hx
      have := ht x hx
      simp only [decide_eq_true_eq]
      omega
    simp [State.contents, this]
  simp only [State.restore, hf, Option.bind_some, hr]
  cases v with
  | none => rfl
  | some y =>
    simp only [Option.map_some]
    by_cases hreg : y.file.reg = true
    · simp only [recOf, hreg, if_true, hc]
      have := congrArg (Option.map fun x : Bool × C => (⟨true, y.file.attr, x.2⟩ : File A C)) hh
      simp only [kind, Option.map_map, Function.comp_def, Option.map_some] at this
      rw [this, ← hreg]
    · simp only [recOf, hreg]
      have hb : y.file.reg = false := by simpa using hreg
      simp only [Bool.false_eq_true, if_false, Option.some.injEq]
      rw [← hb]

theorem outcome_versionOf (V S : Version I K A C) (errs : List I) (recs : I → Option (Rec K A C D)) (i : I) :
    outcome (V i) (S i) (decide (i ∈ errs)) (recs i) = versionOf V S errs recs i := by
  simp only [outcome, versionOf, decide_eq_true_eq]

/-- one backup: files and metadata -/
theorem session_good {o : Ops C D} (hinj : ∀ c c', o.hash c = o.hash c' → c = c') {s : Sess I K A C} {V : Version I K A C} {times : List Nat}
    {st st' : State I K A C D} {errs : List I} (hg : Good o V st.fs st.recs) (hV : KeyOk V) (hs : ValidSess o V times s) (h : Session o st s st' errs) {i : I}
    (hf : ∀ j, FirstLink s i j → j ∉ errs) :
    Holds (versionOf V s.src errs st'.recs i) (st'.fs.file i) ∧ Describes o (versionOf V s.src errs st'.recs i) (st'.recs i) := by
  obtain ⟨w, hp, rfl, rfl⟩ := session_part hinj hg hV hs h
  show Holds (versionOf V s.src w.errs w.recs i) (w.fs.file i) ∧ Describes o (versionOf V s.src w.errs w.recs i) (w.recs i)
  by_cases hi : i ∈ s.order
  · obtain ⟨h1, h2, -⟩ := hp.done i hi hf
    rw [outcome_versionOf] at h1 h2
    exact ⟨h1, h2⟩
  · obtain ⟨h1, h2, h3, -⟩ := hp.todo i hi
    have hall := mt (hs.all i) hi
    simp only [not_or, Bool.not_eq_true, Option.isSome_eq_false_iff, Option.isNone_iff_eq_none] at hall
    have hv : versionOf V s.src w.errs w.recs i = V i := by simp only [versionOf, h3, if_false, hall.1, hall.2]
    rw [hv]
    refine ⟨?_, ?_⟩
    · rw [Holds, h2]; exact hg.holds i
    · rw [h1]; exact hg.describes i

theorem keyOk_next {o : Ops C D} {s : Sess I K A C} {V : Version I K A C} {times : List Nat} {errs : List I} {recs : I → Option (Rec K A C D)} (hV : KeyOk V)
    (hs : ValidSess o V times s) (he : ∀ i ∈ errs, Alone (s.src i) ∧ Alone (V i)) : KeyOk (versionOf V s.src errs recs) := by
  have hcase : ∀ i x, versionOf V s.src errs recs i = some x → (s.src i = some x) ∨ (V i = some x ∧ (x.file.reg = true → x.nlink < 2)) := by
    intro i x h
    simp only [versionOf] at h
    split at h
    · next hi =>
      split at h
      · exact .inr ⟨h, (he i hi).2 x h⟩
      · simp at h
    · exact .inl h
  refine ⟨fun i j x y hx hy hl => ?_, fun i x hx => ?_⟩
  · rcases hcase i x hx with hx | ⟨-, hx⟩
    · rcases hcase j y hy with hy | ⟨-, hy⟩
      · rw [(hs.source.same i j x y hx hy hl.2.2.2.2).1]
      · have := hy hl.2.1; have := hl.2.2.2.1; omega
    · have := hx hl.1; have := hl.2.2.1; omega
  · rcases hcase i x hx with hx | ⟨hx, -⟩
    · exact (hs.source.key i x hx).2
    · exact hV.2 i x hx

theorem reach_made {o : Ops C D} {st : State I K A C D} {hist : List (Nat × Version I K A C)} (h : Reach o st hist) :
    Made o st ∧ st.metas.map (·.1) = hist.map (·.1) := by
  induction h with
  | empty f => exact ⟨.empty f, rfl⟩
  | @backup st st' hist s errs _ hv hs _ ih =>
    have : ∀ m ∈ st.metas, m.1 < s.now := fun m hm => hv.time m.1 (by rw [← ih.2]; exact List.mem_map_of_mem hm)
    refine ⟨.backup ih.1 this hs, ?_⟩
    obtain ⟨ps, a, d, t, out, w, -, -, rfl, -⟩ := hs
    simp [ih.2]

theorem reach_good {o : Ops C D} (hinj : ∀ c c', o.hash c = o.hash c' → c = c') {st : State I K A C D} {hist : List (Nat × Version I K A C)}
    (h : Reach o st hist) : Good o (last hist) st.fs st.recs ∧ KeyOk (last hist) := by
  induction h with
  | empty f =>
    refine ⟨⟨fun i n h => by simp at h, fun i => rfl, fun i => ⟨none, rfl, fun x hx => by simp [last] at hx⟩⟩, fun i j x y hx => by simp [last] at hx,
      fun i x hx => by simp [last] at hx⟩
  | @backup st st' hist s errs hr hv hs he ih =>
    have hf : ∀ i j, FirstLink s i j → j ∉ errs := by
      rintro i j ⟨x, y, a, b, -, hy, hl, -⟩ hj
      have := (he j hj).1 y hy hl.2.1
      have := hl.2.2.2.1
      omega
    refine ⟨⟨?_, fun i => (session_good hinj ih.1 ih.2 hv hs (hf i)).1, fun i => (session_good hinj ih.1 ih.2 hv hs (hf i)).2⟩, keyOk_next ih.2 hv he⟩
    obtain ⟨ps, a, d, t, out, w, -, hw, rfl, -⟩ := hs
    rw [hw]
    exact steps_wf o s _ _ ih.1.wf

theorem incs_before {o : Ops C D} {st st' : State I K A C D} {s : Sess I K A C} {errs : List I} (h : Made o st) (ht : ∀ m ∈ st.metas, m.1 < s.now)
    (hs : Session o st s st' errs) (i : I) : ∀ x ∈ st'.incs i, x.1 < s.now := by
  obtain ⟨-, -, h3⟩ := made_inv h
  obtain ⟨ps, a, d, t, out, w, -, hw, rfl, -⟩ := hs
  intro x hx
  rw [hw] at hx
  refine steps_times o s (prev := st.metas.head?.map (·.1)) (s.order.zip ((ps.map digest).zip out)) (fun t => t < s.now) ?_ ⟨st.fs, st.recs, st.incs, []⟩ ?_ i x hx
  · intro t ht'
    rw [Option.map_eq_some_iff] at ht'
    obtain ⟨m, hm, rfl⟩ := ht'
    exact ht m (List.mem_of_head? hm)
  · intro k y hy
    obtain ⟨t, ht', hle⟩ := h3 k y hy
    rw [Option.map_eq_some_iff] at ht'
    obtain ⟨m, hm, rfl⟩ := ht'
    exact lt_of_le_of_lt hle (ht m (List.mem_of_head? hm))

/-- C65: the next backup, with any errors: of a path whose first link has been backed up without an error, exactly what the backup has got of it is restored:
the file as it is in the source; or, if an error has been logged, as it was at the last backup, or nothing. (Missing: the first link is not all right: see
`first_link_fails`.) -/
theorem next_backup_partial {o : Ops C D} (hinj : ∀ c c', o.hash c = o.hash c' → c = c') {st st' : State I K A C D} {hist : List (Nat × Version I K A C)}
    {s : Sess I K A C} {errs : List I} (h : Reach o st hist) (hv : ValidSess o (last hist) (hist.map (·.1)) s) (hs : Session o st s st' errs) {i : I}
    (hf : ∀ j, FirstLink s i j → j ∉ errs) :
    (i ∉ errs → st'.restore i s.now = (s.src i).map (·.file)) ∧
    (i ∈ errs → st'.restore i s.now = (last hist i).map (·.file) ∨ st'.restore i s.now = none) := by
  obtain ⟨hm, hti⟩ := reach_made h
  have ht : ∀ m ∈ st.metas, m.1 < s.now := fun m hm => hv.time m.1 (by rw [← hti]; exact List.mem_map_of_mem hm)
  have hg := session_good hinj (reach_good hinj h).1 (reach_good hinj h).2 hv hs hf
  have hr : st'.restore i s.now = (versionOf (last hist) s.src errs st'.recs i).map (·.file) := by
    refine restore_now (recs := st'.recs) ?_ (incs_before hm ht hs i) hg.1 hg.2
    obtain ⟨ps, a, d, t, out, w, -, -, rfl, -⟩ := hs
    rfl
  rw [hr]
  refine ⟨fun hi => by simp [versionOf, hi], fun hi => ?_⟩
  simp only [versionOf, hi, if_true]
  split
  · exact .inl rfl
  · exact .inr rfl

/-- C65: after any number of backups, with errors only at files without hard links: of every backup exactly the files which it has got are restored, and the
mirror has the contents of the last one. -/
theorem all_backups_partial {o : Ops C D} (hinj : ∀ c c', o.hash c = o.hash c' → c = c') {st : State I K A C D} {hist : List (Nat × Version I K A C)}
    (h : Reach o st hist) : (∀ x ∈ hist, ∀ i, st.restore i x.1 = (x.2 i).map (·.file)) ∧
      ∀ i, (st.fs.file i).map (fun f => (f.reg, f.data)) = (last hist i).map fun x => (x.file.reg, x.file.data) := by
  refine ⟨?_, fun i => by have := (reach_good hinj h).1.holds i; simpa [Holds, kind, Option.map_map, Function.comp_def] using this⟩
  induction h with
  | empty f => intro x hx; simp at hx
  | @backup st st' hist s errs hr hv hs he ih =>
    obtain ⟨hm, hti⟩ := reach_made hr
    have ht : ∀ m ∈ st.metas, m.1 < s.now := fun m hm => hv.time m.1 (by rw [← hti]; exact List.mem_map_of_mem hm)
    have hf : ∀ i j, FirstLink s i j → j ∉ errs := by
      rintro i j ⟨x, y, a, b, -, hy, hl, -⟩ hj
      have := (he j hj).1 y hy hl.2.1
      have := hl.2.2.2.1
      omega
    intro x hx i
    rcases List.mem_cons.1 hx with rfl | hx
    · have hg := session_good hinj (reach_good hinj hr).1 (reach_good hinj hr).2 hv hs (hf i)
      refine restore_now (recs := st'.recs) ?_ (incs_before hm ht hs i) hg.1 hg.2
      obtain ⟨ps, a, d, t, out, w, -, -, rfl, -⟩ := hs
      rfl
    · obtain ⟨m, hm', hmx⟩ : ∃ m ∈ st.metas, m.1 = x.1 := by
        have : x.1 ∈ st.metas.map (·.1) := by rw [hti]; exact List.mem_map_of_mem hx
        simpa using this
      rw [← hmx, earlier_backups_stay hm ht hs hm' i, hmx]
      exact ih x hx i

/-- C65: an error is logged only if the transfer of the file does not succeed, or if it is to be made a link to the first of its links. (Missing: in the second case
an error may be logged without anything having gone wrong: `no_reason`.) -/
theorem errors_have_causes_partial {o : Ops C D} (hinj : ∀ c c', o.hash c = o.hash c' → c = c') {st st' : State I K A C D} {hist : List (Nat × Version I K A C)}
    {s : Sess I K A C} {errs : List I} (h : Reach o st hist) (hv : ValidSess o (last hist) (hist.map (·.1)) s) (hs : Session o st s st' errs) {i : I}
    (hi : i ∈ errs) : s.transfer i ≠ .ok ∨ ∃ j, FirstLink s i j := by
  obtain ⟨w, hp, -, rfl⟩ := session_part hinj (reach_good hinj h).1 (reach_good hinj h).2 hv hs
  exact hp.err i hi

/-! ### concrete backups -/

/-- the decisions of a backup in which each file is decided about as soon as it has been seen, and all remain in the cache -/
def sim (ps0 : List (Pair I K D)) : Nat → Option (List (Pair I K D) × Hardlinks.Tab I K D × List (Decision I))
  | 0 => some (ps0, Hardlinks.empty, [])
  | n + 1 => do
    let (ps, t, out) ← sim ps0 n
    let p ← ps[n]?
    match p.src with
    | some s =>
      let (t, dest) ← Hardlinks.add t s p.dest
      let (x, t) ← Hardlinks.decideOn t { p with dest := dest }
      some (ps.set n { p with dest := dest }, t, out ++ [x])
    | none => match p.dest with
      | some r =>
        let t ← Hardlinks.addOld t r
        let (x, t) ← Hardlinks.decideOn t p
        some (ps, t, out ++ [x])
      | none =>
        let (x, t) ← Hardlinks.decideOn t p
        some (ps, t, out ++ [x])

theorem sim_run {ps0 : List (Pair I K D)} {n : Nat} {ps : List (Pair I K D)} {t : Hardlinks.Tab I K D} {out : List (Decision I)}
    (h : sim ps0 n = some (ps, t, out)) : Run ps0 ps n n 0 t out := by
  induction n generalizing ps t out with
  | zero =>
    simp only [sim, Option.some.injEq, Prod.mk.injEq] at h
    obtain ⟨rfl, rfl, rfl⟩ := h
    exact .init
  | succ n ih =>
    simp only [sim, Option.bind_eq_bind, Option.bind_eq_some_iff, Prod.exists] at h
    obtain ⟨ps1, t1, out1, h1, p, hp, h2⟩ := h
    have hr := ih h1
    split at h2
    · next s hs =>
      simp only [Option.bind_eq_some_iff, Prod.exists, Option.some.injEq, Prod.mk.injEq] at h2
      obtain ⟨t2, dest, ha, x, t3, hd, rfl, rfl, rfl⟩ := h2
      have hl := (List.getElem?_eq_some_iff.1 hp).1
      have hat : (ps1.set n { p with dest := dest })[n]? = some { p with dest := dest } := by simp [hl]
      exact .decide (.add hr hp hs ha) hat (Nat.lt_succ_self n) hd
    · next hs =>
      split at h2
      · next r hr' =>
        simp only [Option.bind_eq_some_iff, Prod.exists, Option.some.injEq, Prod.mk.injEq] at h2
        obtain ⟨t2, ha, x, t3, hd, rfl, rfl, rfl⟩ := h2
        exact .decide (.addOld hr hp hs hr' ha) hp (Nat.lt_succ_self n) hd
      · simp only [Option.bind_eq_some_iff, Prod.exists, Option.some.injEq, Prod.mk.injEq] at h2
        obtain ⟨x, t3, hd, rfl, rfl, rfl⟩ := h2
        exact .decide (.pass hr hp hs) hp (Nat.lt_succ_self n) hd

/-- a backup with these decisions -/
def run (o : Ops C D) (st : State I K A C D) (s : Sess I K A C) : Option (State I K A C D × List I) :=
  (sim (s.order.map (pairOf o s.src st.recs)) s.order.length).map fun x =>
    let w := steps o (st.metas.head?.map (·.1)) s ⟨st.fs, st.recs, st.incs, []⟩ (s.order.zip ((x.1.map digest).zip x.2.2))
    (⟨w.fs, (s.now, w.recs) :: st.metas, w.incs⟩, w.errs)

theorem run_session {o : Ops C D} {st st' : State I K A C D} {s : Sess I K A C} {errs : List I} (h : run o st s = some (st', errs)) :
    Session o st s st' errs := by
  simp only [run, Option.map_eq_some_iff, Prod.mk.injEq] at h
  obtain ⟨⟨ps, t, out⟩, hsim, rfl, rfl⟩ := h
  exact ⟨ps, _, _, t, out, _, sim_run hsim, rfl, rfl, rfl⟩

/-- `ValidSess` checked -/
def valid {n : Nat} (o : Ops C D) (V : Version (Fin n) K A C) (times : List Nat) (s : Sess (Fin n) K A C) : Bool :=
  decide (∀ i j, ((s.src i).all fun x => (s.src j).all fun y => decide (x.key = y.key → x.file = y.file ∧ x.nlink = y.nlink)) = true) &&
  decide (∀ i, ((s.src i).all fun x => decide (x.file.reg = true → 2 ≤ x.nlink →
    s.order.countP (fun j => decide ((s.src j).map (·.key) = some x.key)) ≤ x.nlink) && x.key.isSome && decide (1 ≤ x.nlink)) = true) &&
  decide s.order.Nodup && decide (∀ i, i ∈ s.order) && times.all (fun t => decide (t < s.now)) &&
  decide (∀ i, ((s.src i).all fun x => (V i).all fun v => decide (x.file.reg = true → v.file.reg = true → x.file.attr = v.file.attr →
    o.size x.file.data = o.size v.file.data → (2 ≤ x.nlink → 2 ≤ v.nlink ∧ x.key = v.key) → x.file.data = v.file.data)) = true)

theorem valid_sess {n : Nat} {o : Ops C D} {V : Version (Fin n) K A C} {times : List Nat} {s : Sess (Fin n) K A C} (h : valid o V times s = true) :
    ValidSess o V times s := by
  simp only [valid, Bool.and_eq_true, decide_eq_true_eq, List.all_eq_true] at h
  obtain ⟨⟨⟨⟨⟨h1, h2⟩, h3⟩, h4⟩, h5⟩, h6⟩ := h
  refine ⟨⟨?_, ?_, ?_⟩, h3, fun i _ => h4 i, h5, ?_⟩
  · intro i j x y hx hy
    have := h1 i j
    simp only [hx, hy, Option.all_some, decide_eq_true_eq] at this
    exact this
  · intro i x hx
    have := h2 i
    simp only [hx, Option.all_some, Bool.and_eq_true, decide_eq_true_eq] at this
    exact this.1.1
  · intro i x hx
    have := h2 i
    simp only [hx, Option.all_some, Bool.and_eq_true, decide_eq_true_eq] at this
    exact ⟨by intro hn; simp [hn] at this, this.2⟩
  · intro i x v hx hv
    have := h6 i
    simp only [hx, hv, Option.all_some, decide_eq_true_eq] at this
    exact this

/-- all contents are of the same size and are their own digests -/
def ops : Ops Nat Nat := ⟨fun c => if c = 0 then 0 else 1, id, 0⟩

theorem ops_inj : ∀ c c', ops.hash c = ops.hash c' → c = c' := fun _ _ h => h

/-- a regular file: attributes, contents, links, inode -/
def reg (a c n k : Nat) : Src Nat Nat Nat := ⟨⟨true, a, c⟩, n, some k⟩

def start (n : Nat) : State (Fin n) Nat Nat Nat Nat := ⟨⟨fun _ => none, fun _ => ⟨true, 0, 0⟩, 0⟩, [], fun _ => []⟩

/-- a backup without errors which is valid -/
def good {n : Nat} (st : State (Fin n) Nat Nat Nat Nat) (V : Version (Fin n) Nat Nat Nat) (times : List Nat) (s : Sess (Fin n) Nat Nat Nat) : Bool :=
  valid ops V times s && decide ((run ops st s).map (·.2) = some [])

theorem run_get {st st' : State I K A C D} {o : Ops C D} {s : Sess I K A C} {errs : List I} (h : (run o st s).map (·.2) = some errs)
    (h' : (run o st s).map (·.1) = some st') : run o st s = some (st', errs) := by
  cases hr : run o st s with
  | none => rw [hr] at h; cases h
  | some x =>
    rw [hr] at h h'
    cases h
    cases h'
    rfl

theorem good_reach {n : Nat} {st st' : State (Fin n) Nat Nat Nat Nat} {hist : List (Nat × Version (Fin n) Nat Nat Nat)} {s : Sess (Fin n) Nat Nat Nat}
    (h : Reach ops st hist) (hg : good st (last hist) (hist.map (·.1)) s = true) (hst : (run ops st s).map (·.1) = some st') : Reach ops st' ((s.now, s.src) :: hist) := by
  simp only [good, Bool.and_eq_true, decide_eq_true_eq] at hg
  have := Reach.backup h (valid_sess hg.1) (run_session (run_get hg.2 hst)) (by simp)
  have hv : versionOf (last hist) s.src [] st'.recs = s.src := by funext i; simp [versionOf]
  rwa [hv] at this

/-! two links, of which the first can't be read while it is changed -/
namespace First

def src1 : Version (Fin 2) Nat Nat Nat := fun _ => some (reg 1 10 2 7)
def src2 : Version (Fin 2) Nat Nat Nat := fun _ => some (reg 2 20 2 7)
def s1 : Sess (Fin 2) Nat Nat Nat := ⟨100, src1, fun _ => .ok, 0, [0, 1]⟩
def s2 : Sess (Fin 2) Nat Nat Nat := ⟨200, src2, fun i => if i = 0 then .failed else .ok, 0, [0, 1]⟩
def s2' : Sess (Fin 2) Nat Nat Nat := { s2 with transfer := fun _ => .ok }
def s3 : Sess (Fin 2) Nat Nat Nat := ⟨300, src2, fun _ => .ok, 0, [0, 1]⟩
def st1 : State (Fin 2) Nat Nat Nat Nat := ((run ops (start 2) s1).map (·.1)).get (by decide +kernel)
def st2 : State (Fin 2) Nat Nat Nat Nat := ((run ops st1 s2).map (·.1)).get (by decide +kernel)
def st2' : State (Fin 2) Nat Nat Nat Nat := ((run ops st1 s2').map (·.1)).get (by decide +kernel)
def st3 : State (Fin 2) Nat Nat Nat Nat := ((run ops st2 s3).map (·.1)).get (by decide +kernel)

theorem reach1 : Reach ops st1 [(100, src1)] := good_reach (.empty _) (by decide +kernel) (Option.some_get _).symm
theorem reach2 : Reach ops st2' [(200, src2), (100, src1)] := good_reach reach1 (by decide +kernel) (Option.some_get _).symm
theorem sess2 : Session ops st1 s2 st2 [0] := run_session (run_get (by decide +kernel) (Option.some_get _).symm)
theorem sess3 : Session ops st2 s3 st3 [] := run_session (run_get (by decide +kernel) (Option.some_get _).symm)
theorem valid2 : ValidSess ops src1 [100] s2 := valid_sess (by decide +kernel)

end First

/-- F75: the first of two links is being changed when it is backed up, which is logged as an error; nothing happens to the second one, and it is not
transferred by this backup nor by the next one, in which no errors occur: the old contents are restored as if they were the new ones. -/
theorem first_link_fails : Reach ops First.st1 [(100, First.src1)] ∧ ValidSess ops First.src1 [100] First.s2 ∧ Session ops First.st1 First.s2 First.st2 [0] ∧
    Session ops First.st2 First.s3 First.st3 [] ∧ First.s3.src 1 = some (reg 2 20 2 7) ∧
    First.st2.restore 1 200 = some ⟨true, 2, 10⟩ ∧ First.st3.restore 1 300 = some ⟨true, 2, 10⟩ :=
  ⟨First.reach1, First.valid2, First.sess2, First.sess3, rfl, by decide +kernel, by decide +kernel⟩

/-- without the error it is all right -/
example : First.st2'.restore 1 200 = some ⟨true, 2, 20⟩ ∧ First.st2'.restore 1 100 = some ⟨true, 1, 10⟩ ∧ First.st2'.restore 0 200 = some ⟨true, 2, 20⟩ := by
  decide +kernel
example (i : Fin 2) : First.st2'.restore i 100 = (First.src1 i).map (·.file) := (all_backups_partial ops_inj First.reach2).1 (100, First.src1) (by simp) i
example (i : Fin 2) : First.st2.restore i 100 = First.st1.restore i 100 :=
  earlier_backups_stay (m := (100, First.st1.recs)) (reach_made First.reach1).1 (by decide +kernel) First.sess2 (List.mem_cons_self) i
/-- the failing path itself -/
example : First.st2.restore 0 200 = some ⟨true, 1, 10⟩ ∨ First.st2.restore 0 200 = none :=
  (next_backup_partial ops_inj First.reach1 First.valid2 First.sess2 (i := 0) (by
    rintro j ⟨x, y, a, b, -, -, -, h, hi, -⟩
    exfalso
    have hn : (First.s2).order = [0, 1] := rfl
    rw [hn] at h
    rcases a with _ | ⟨a1, _ | ⟨a2, _ | a⟩⟩
    · simp only [List.nil_append, List.cons.injEq] at h
      obtain ⟨-, rfl⟩ := h
      simp at hi
    · simp only [List.cons_append, List.nil_append, List.cons.injEq] at h
      obtain ⟨-, -, rfl⟩ := h
      simp at hi
    · simp at h
    · simp at h)).2 (by simp)
example : First.s2.transfer 0 ≠ .ok ∨ ∃ j, FirstLink First.s2 0 j := errors_have_causes_partial ops_inj First.reach1 First.valid2 First.sess2 (by simp)

/-! three links; an error with the second, then the first is deleted -/
namespace Second

def src1 : Version (Fin 3) Nat Nat Nat := fun _ => some (reg 1 10 3 7)
def src2 : Version (Fin 3) Nat Nat Nat := fun _ => some (reg 2 20 3 7)
def src3 : Version (Fin 3) Nat Nat Nat := fun i => if i = 0 then none else some (reg 2 20 2 7)
def s1 : Sess (Fin 3) Nat Nat Nat := ⟨100, src1, fun _ => .ok, 0, [0, 1, 2]⟩
def s2 : Sess (Fin 3) Nat Nat Nat := ⟨200, src2, fun i => if i = 1 then .failed else .ok, 0, [0, 1, 2]⟩
def s3 : Sess (Fin 3) Nat Nat Nat := ⟨300, src3, fun _ => .ok, 0, [0, 1, 2]⟩
def st1 : State (Fin 3) Nat Nat Nat Nat := ((run ops (start 3) s1).map (·.1)).get (by decide +kernel)
def st2 : State (Fin 3) Nat Nat Nat Nat := ((run ops st1 s2).map (·.1)).get (by decide +kernel)
def st3 : State (Fin 3) Nat Nat Nat Nat := ((run ops st2 s3).map (·.1)).get (by decide +kernel)

theorem reach1 : Reach ops st1 [(100, src1)] := good_reach (.empty _) (by decide +kernel) (Option.some_get _).symm
theorem sess2 : Session ops st1 s2 st2 [1] := run_session (run_get (by decide +kernel) (Option.some_get _).symm)
theorem sess3 : Session ops st2 s3 st3 [] := run_session (run_get (by decide +kernel) (Option.some_get _).symm)
theorem valid2 : ValidSess ops src1 [100] s2 := valid_sess (by decide +kernel)

end Second

/-- F76: the second of three links fails. The other two have their new contents. Then the first link is deleted: the next backup takes its digest for the one of the
second link's file, which has the old contents, and does not transfer it; and makes the third link, which had the new contents, a link of it. No
error is logged, and the new contents are in none of the files in the mirror. -/
theorem wrong_digest : Reach ops Second.st1 [(100, Second.src1)] ∧ ValidSess ops Second.src1 [100] Second.s2 ∧ Session ops Second.st1 Second.s2 Second.st2 [1] ∧
    Second.st2.restore 2 200 = some ⟨true, 2, 20⟩ ∧ Session ops Second.st2 Second.s3 Second.st3 [] ∧
    Second.s3.src 1 = some (reg 2 20 2 7) ∧ Second.st3.restore 1 300 = some ⟨true, 2, 10⟩ ∧
    Second.s3.src 2 = some (reg 2 20 2 7) ∧ Second.st3.restore 2 300 = some ⟨true, 2, 10⟩ :=
  ⟨Second.reach1, Second.valid2, Second.sess2, by decide +kernel, Second.sess3, rfl, by decide +kernel, rfl, by decide +kernel⟩

/-! attributes of files linked in the mirror only -/
namespace Attr

def src1 : Version (Fin 5) Nat Nat Nat := fun i => if i.val < 3 then some (reg 1 10 3 7) else none
def src2 : Version (Fin 5) Nat Nat Nat := fun i => if i = 0 then some (reg 2 10 1 8) else if i.val < 4 then some (reg 1 10 3 7) else none
def src3 : Version (Fin 5) Nat Nat Nat := fun i => if i = 0 then some (reg 2 10 1 8) else if i = 1 then none else some (reg 1 10 3 7)
def s1 : Sess (Fin 5) Nat Nat Nat := ⟨100, src1, fun _ => .ok, 0, [0, 1, 2, 3, 4]⟩
def s2 : Sess (Fin 5) Nat Nat Nat := ⟨200, src2, fun _ => .ok, 0, [0, 1, 2, 3, 4]⟩
def s3 : Sess (Fin 5) Nat Nat Nat := ⟨300, src3, fun _ => .ok, 0, [0, 1, 2, 3, 4]⟩
def st1 : State (Fin 5) Nat Nat Nat Nat := ((run ops (start 5) s1).map (·.1)).get (by decide +kernel)
def st2 : State (Fin 5) Nat Nat Nat Nat := ((run ops st1 s2).map (·.1)).get (by decide +kernel)
def st3 : State (Fin 5) Nat Nat Nat Nat := ((run ops st2 s3).map (·.1)).get (by decide +kernel)

theorem reach1 : Reach ops st1 [(100, src1)] := good_reach (.empty _) (by decide +kernel) (Option.some_get _).symm
theorem reach2 : Reach ops st2 [(200, src2), (100, src1)] := good_reach reach1 (by decide +kernel) (Option.some_get _).symm
theorem sess3 : Session ops st2 s3 st3 [4] := run_session (run_get (by decide +kernel) (Option.some_get _).symm)
theorem valid3 : ValidSess ops src2 [200, 100] s3 := valid_sess (by decide +kernel)

end Attr

/-- F79: one of the links is replaced in the source by a copy of its own with other attributes. The backup sets them in the mirror, where the file still is the same
as other links: one of these has wrong attributes in the mirror from now on. When later the first of them is deleted and a new link is made, backing up the new link fails,
although nothing has gone wrong. -/
theorem no_reason : Reach ops Attr.st2 [(200, Attr.src2), (100, Attr.src1)] ∧ Attr.src2 2 = some (reg 1 10 3 7) ∧
    Attr.st2.fs.file 2 = some ⟨true, 2, 10⟩ ∧ ValidSess ops Attr.src2 [200, 100] Attr.s3 ∧ Session ops Attr.st2 Attr.s3 Attr.st3 [4] ∧
    (∀ i, Attr.s3.transfer i = .ok) ∧ Attr.s3.src 4 = some (reg 1 10 3 7) ∧ Attr.st3.restore 4 300 = none :=
  ⟨Attr.reach2, rfl, by decide +kernel, Attr.valid3, Attr.sess3, fun _ => rfl, rfl, by decide +kernel⟩

end Verif.C65
