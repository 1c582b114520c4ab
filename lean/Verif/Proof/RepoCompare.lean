import Verif.Proof.RepoVerify
import Verif.Proof.RestoreDir
/- Comparison of a directory with a backup in a repository. -/
namespace Verif.Repo
open Verif.Collate Verif.JoinSpec Verif.MetaChain Verif.Compare
set_option linter.unusedSectionVars false
variable {α A C S H Δ L : Type} [LinearOrder α] [DecidableEq A] [DecidableEq S] [DecidableEq H] [DecidableEq L]
variable {o : Repo.Ops A C H Δ L} {rsv : α → Prop} {st : State α A C S H Δ} {hist : Hist α A C S}
variable {mt t : Nat} {sub : List α} {T : Files α (Node A C S)} {recs : List (Rec (List α) (MRec A S H))}

/-- the files of a directory -/
def listed (dir : Files α (Node A C S)) : List (List α × Option (Node A C S)) := dir.map fun x => (x.1, some x.2)

theorem mem_listed {dir : Files α (Node A C S)} (hd : dir.Pairwise (fun x y => x.1 < y.1)) {s : List α × Option (Node A C S)} :
    s ∈ listed dir ↔ ∃ n, s.2 = some n ∧ get dir s.1 = some n := by
  unfold listed
  rw [List.mem_map]
  constructor
  · rintro ⟨x, hx, rfl⟩
    exact ⟨x.2, rfl, (get_mem hd _ _).mpr hx⟩
  · rintro ⟨n, h1, h2⟩
    exact ⟨(s.1, n), (get_mem hd _ _).mp h2, by rw [← h1]⟩

theorem listed_ordered {dir : Files α (Node A C S)} (hd : dir.Pairwise (fun x y => x.1 < y.1)) :
    Ordered (cmpOps (H := H) o sub).idxS (listed dir) := by
  show List.Pairwise _ _
  unfold listed
  rw [List.pairwise_map]
  exact hd

theorem ReadsAs.pre (h : ReadsAs o st mt t sub T recs) {r} (hr : r ∈ recs) : sub ++ r.idx.drop sub.length = r.idx :=
  RestoreDir.drop_of_prefix (List.isPrefixOf_iff_prefix.mp (h.files r hr).1)

theorem ReadsAs.ordered (h : ReadsAs o st mt t sub T recs) : Ordered (cmpOps o sub).idxR recs := by
  refine List.Pairwise.imp_of_mem ?_ h.good.ordered
  intro x y hx hy hlt
  exact RestoreDir.drop_lt (List.isPrefixOf_iff_prefix.mp (h.files x hx).1) (List.isPrefixOf_iff_prefix.mp (h.files y hy).1) hlt

theorem ReadsAs.exist (h : ReadsAs o st mt t sub T recs) (dir : Files α (Node A C S)) : C39.Exist (cmpOps o sub) (listed dir) recs := by
  constructor
  · intro s hs
    unfold listed at hs
    obtain ⟨x, -, rfl⟩ := List.mem_map.mp hs
    rfl
  · intro r hr
    obtain ⟨-, m, n, e, -⟩ := h.files r hr
    simp [cmpOps, e]

theorem eqFile_iff {n m : Node A C S} {m' : MRec A S H} (h : Desc o (some m) (some m')) :
    eqFile o n (some m') = true ↔ SameMeta o n m := by
  cases m with
  | dir a' => cases m' with
    | dir a => cases h; cases n <;> simp [eqFile, SameMeta]
    | _ => exact h.elim
  | reg a' x => cases m' with
    | reg a sz d =>
      obtain ⟨rfl, rfl, -⟩ := h
      cases n <;> simp [eqFile, SameMeta]
    | _ => exact h.elim
  | other a' s' => cases m' with
    | other a s => obtain ⟨rfl, rfl⟩ := h; cases n <;> simp [eqFile, SameMeta]
    | _ => exact h.elim

theorem reg_desc {m : Node A C S} {m' : MRec A S H} (h : Desc o (some m) (some m')) : m'.isReg = m.isReg := by
  cases m <;> cases m' <;> first | rfl | exact h.elim

theorem ReadsAs.find (h : ReadsAs o st mt t sub T recs) (hT : T.Pairwise (fun x y => x.1 < y.1)) {k : List α} {n : Node A C S}
    (hg : get T (sub ++ k) = some n) : ∃ r ∈ recs, r.idx = sub ++ k ∧ (cmpOps o sub).idxR r = k := by
  have hm := (get_mem hT _ _).mp hg
  obtain ⟨r, hr, he⟩ := h.all _ hm (List.isPrefixOf_iff_prefix.mpr (List.prefix_append _ _))
  refine ⟨r, hr, he, ?_⟩
  show r.idx.drop sub.length = k
  rw [he]; simp

theorem ReadsAs.absent (h : ReadsAs o st mt t sub T recs) {k : List α} (hg : get T (sub ++ k) = none) :
    ∀ r ∈ recs, (cmpOps o sub).idxR r ≠ k := by
  intro r hr he
  obtain ⟨-, m, n, -, e2, -⟩ := h.files r hr
  have : r.idx = sub ++ k := by rw [← he]; exact (h.pre hr).symm
  rw [this, hg] at e2; cases e2

/-- the reports of C39 about files and records are the differences of the files -/
theorem ReadsAs.expected_iff (h : ReadsAs o st mt t sub T recs) (hT : T.Pairwise (fun x y => x.1 < y.1))
    {dir : Files α (Node A C S)} (hd : dir.Pairwise (fun x y => x.1 < y.1))
    {data : Option (List α × Option (Node A C S) → Rec (List α) (MRec A S H) → Prop)} {same : Option (List α → C → C → Prop)}
    (hnone : data = none ↔ same = none)
    (hsome : ∀ D sm, data = some D → same = some sm → ∀ k a a' x y r, r ∈ recs → r.idx = sub ++ k → get T r.idx = some (.reg a' y) →
      (D (k, some (.reg a x)) r ↔ sm k x y)) (k : List α) (rep : Report) :
    C39.Expected (cmpOps o sub) data (listed dir) recs k rep ↔ Differs o same k (get dir k) (get T (sub ++ k)) rep := by
  constructor
  · intro he
    cases he with
    | @new s hs hno =>
      obtain ⟨n, -, h2⟩ := (mem_listed hd).mp hs
      show Differs o same s.1 (get dir s.1) (get T (sub ++ s.1)) _
      rw [h2]
      cases hg : get T (sub ++ s.1) with
      | none => exact .new n
      | some m =>
        obtain ⟨r, hr, -, he⟩ := h.find hT hg
        exact absurd he (hno r hr)
    | @deleted r hr hno =>
      obtain ⟨-, m, n, e1, e2, e3⟩ := h.files r hr
      show Differs o same (r.idx.drop sub.length) (get dir (r.idx.drop sub.length)) (get T (sub ++ r.idx.drop sub.length)) _
      rw [h.pre hr, e2]
      cases hg : get dir (r.idx.drop sub.length) with
      | none => exact .deleted n
      | some x => exact absurd rfl (hno (r.idx.drop sub.length, some x) ((mem_listed hd).mpr ⟨x, rfl, hg⟩))
    | @changed s r hs hr hi hdd hne =>
      obtain ⟨x, h1, h2⟩ := (mem_listed hd).mp hs
      obtain ⟨-, m, n, e1, e2, e3⟩ := h.files r hr
      have hk : s.1 = r.idx.drop sub.length := hi
      show Differs o same s.1 (get dir s.1) (get T (sub ++ s.1)) _
      rw [h2, hk, h.pre hr, e2]
      refine .changed ?_ ?_
      · intro hs
        have := (eqFile_iff e3).mpr hs
        have he : eqFile o x r.data = false := by
          have := hne; simp only [cmpOps, h1] at this; exact this
        rw [e1, this] at he; cases he
      · rcases hdd with hdd | hdd
        · exact .inl (hnone.mp hdd)
        · right
          rintro ⟨r1, r2⟩
          apply hdd
          simp only [cmpOps, h1, e1, recIsReg, r1, reg_desc e3, r2, and_self]
    | @detail s r D mc dc hs hr hi hdd hreg hm hdc hor =>
      obtain ⟨x, h1, h2⟩ := (mem_listed hd).mp hs
      obtain ⟨-, m, n, e1, e2, e3⟩ := h.files r hr
      have hk : s.1 = r.idx.drop sub.length := hi
      show Differs o same s.1 (get dir s.1) (get T (sub ++ s.1)) _
      obtain ⟨r1, r2⟩ := hreg
      simp only [cmpOps, h1, e1, recIsReg, reg_desc e3] at r1 r2
      cases x with
      | reg a c =>
        cases n with
        | reg a' y =>
          have hidx : r.idx = sub ++ s.1 := by rw [hk]; exact (h.pre hr).symm
          rw [h2, ← hidx, e2]
          cases hsm : same with
          | none => rw [hnone.mpr hsm] at hdd; cases hdd
          | some sm =>
            have hs' : s = (s.1, some (.reg a c)) := by rw [← h1]
            refine .detail rfl ?_ ?_ hor
            · rw [hm]
              have := eqFile_iff (n := .reg a c) e3
              simp only [SameMeta] at this
              simp only [cmpOps, h1, e1]
              rw [← this]
              simp
            · rw [hdc, hs', hsome D sm hdd hsm s.1 a a' c y r hr hidx e2]
        | _ => cases r2
      | _ => cases r1
  · intro he
    cases hg1 : get dir k with
    | none =>
      cases hg2 : get T (sub ++ k) with
      | none => rw [hg1, hg2] at he; cases he
      | some m =>
        rw [hg1, hg2] at he; cases he
        obtain ⟨r, hr, -, hk⟩ := h.find hT hg2
        rw [← hk]
        refine .deleted hr ?_
        intro s hs he
        obtain ⟨n, -, h2⟩ := (mem_listed hd).mp hs
        have : s.1 = k := he.trans hk
        rw [this, hg1] at h2; cases h2
    | some n =>
      have hs : (k, some n) ∈ listed dir := (mem_listed hd).mpr ⟨n, rfl, hg1⟩
      cases hg2 : get T (sub ++ k) with
      | none =>
        rw [hg1, hg2] at he; cases he
        exact C39.Expected.new (o := cmpOps o sub) (s := (k, some n)) hs (h.absent hg2)
      | some m =>
        rw [hg1, hg2] at he
        obtain ⟨r, hr, hri, hk⟩ := h.find hT hg2
        obtain ⟨-, m', n', e1, e2, e3⟩ := h.files r hr
        rw [hri, hg2] at e2; cases e2
        cases he with
        | changed hne hdd =>
          refine C39.Expected.changed (o := cmpOps o sub) (s := (k, some n)) hs hr hk.symm ?_ ?_
          · rcases hdd with hdd | hdd
            · exact .inl (hnone.mpr hdd)
            · right
              intro hc
              apply hdd
              simp only [cmpOps, e1, recIsReg, reg_desc e3] at hc
              exact hc
          · simp only [cmpOps, e1]
            have := eqFile_iff (n := n) e3
            cases he : eqFile o n (some m') with
            | false => rfl
            | true => exact absurd (this.mp he) hne
        | @detail a a' x y sm mc dc hsm hm hdc hor =>
          cases hdat : data with
          | none => rw [hnone.mp hdat] at hsm; cases hsm
          | some D =>
            refine C39.Expected.detail (o := cmpOps o sub) (s := (k, some (.reg a x))) hs hr hk.symm rfl ?_ ?_ ?_ hor
            · simp [cmpOps, e1, recIsReg, reg_desc e3, Node.isReg]
            · rw [hm]
              have := eqFile_iff (n := .reg a x) e3
              simp only [SameMeta] at this
              simp only [cmpOps, e1]
              rw [← this]; simp
            · rw [hdc, hsome D sm hdat hsm k a a' x y r hr hri (by rw [hri]; exact hg2)]

/-! ### Attached data -/

/-- `_attach_files` through the cache attaches the data on disk -/
theorem attachRepo_ends (hw : FsWF st) (F : Reading C S) (mt t : Nat) (sub : List α) (dataR : Rec (List α) (MRec A S H) → C)
    (rows : List (Option (List α × Option (Node A C S)) × Option (Rec (List α) (MRec A S H))))
    (hord : (rows.filterMap Prod.snd).Pairwise (fun x y => x.idx < y.idx))
    (hpre : ∀ r ∈ rows.filterMap Prod.snd, sub ++ r.idx.drop sub.length = r.idx)
    (hok : ∀ r ∈ rows.filterMap Prod.snd, recIsReg r.data = true →
      r.idx ≠ [] ∧ directData o F st mt t r.idx = some (dataR r) ∧ ¬ LostLast st r.idx)
    (l : List (RestoreFile α A C S Δ)) (hl : ∀ r ∈ rows.filterMap Prod.snd, RFInv st r.idx l) :
    ∃ N, ∀ n, N ≤ n → attachRepo o F st n mt t sub rows l = attachFiles (cmpOps o sub) [] dataR rows := by
  induction rows generalizing l with
  | nil => exact ⟨0, fun n _ => rfl⟩
  | cons p rows ih =>
    obtain ⟨ps, pr⟩ := p
    have hsub : ∀ r ∈ rows.filterMap Prod.snd, r ∈ ((ps, pr) :: rows).filterMap Prod.snd := by
      intro r hr
      rw [List.filterMap_cons]
      cases pr with
      | none => exact hr
      | some x => exact List.mem_cons_of_mem _ hr
    have hord' : (rows.filterMap Prod.snd).Pairwise (fun x y => x.idx < y.idx) := by
      rw [List.filterMap_cons] at hord
      cases pr with
      | none => exact hord
      | some x => exact (List.pairwise_cons.mp hord).2
    have ih' := fun l => ih hord' (fun r hr => hpre r (hsub r hr)) (fun r hr => hok r (hsub r hr)) l
    obtain ⟨N, hN⟩ := ih' l (fun r hr => hl r (hsub r hr))
    cases pr with
    | none =>
      cases ps with
      | none => exact ⟨0, fun n _ => rfl⟩
      | some s =>
        refine ⟨N, fun n hn => ?_⟩
        rw [attachRepo, attachFiles, hN n hn]
        by_cases hc : (cmpOps (H := H) o sub).idxS s = []
        · rw [if_pos hc, if_pos hc]
        · rw [if_neg hc, if_neg hc]
    | some r =>
      cases ps with
      | none =>
        refine ⟨N, fun n hn => ?_⟩
        rw [attachRepo, attachFiles, hN n hn]
      | some s =>
        by_cases h1 : (!(cmpOps (H := H) o sub).regS s && (cmpOps o sub).eq s r) = true
        · refine ⟨N, fun n hn => ?_⟩
          rw [attachRepo, attachFiles, if_pos h1, if_pos h1, hN n hn]
        · by_cases h2 : ((cmpOps (H := H) o sub).regS s && (cmpOps o sub).regR r &&
              (cmpOps (H := H) o sub).sizeS s == (cmpOps o sub).sizeR r) = true
          · have hmem : r ∈ ((some s, some r) :: rows).filterMap Prod.snd := by simp
            have hreg : recIsReg r.data = true := by
              simp only [Bool.and_eq_true] at h2
              exact h2.1.2
            obtain ⟨hi, hdat, hlost⟩ := hok r hmem hreg
            have hidx : sub ++ (cmpOps o sub).idxR r = r.idx := hpre r hmem
            obtain ⟨l', N1, hinv, hget⟩ := request hw (hl r hmem) hi hlost
            obtain ⟨N2, hN2⟩ := ih' l' (fun x hx => hinv.mono (le_of_lt (by
              rw [List.filterMap_cons] at hord
              exact (List.pairwise_cons.mp hord).1 x hx)))
            refine ⟨max N1 N2, fun n hn => ?_⟩
            rw [attachRepo, attachFiles, if_neg h1, if_neg h1, if_pos h2, if_pos h2, hidx,
              hget n (le_trans (le_max_left _ _) hn)]
            simp only
            rw [getFp_lookup o F mt t hi, hdat]
            simp only
            rw [hN2 n (le_trans (le_max_right _ _) hn)]
          · refine ⟨N, fun n hn => ?_⟩
            rw [attachRepo, attachFiles, if_neg h1, if_neg h1, if_neg h2, if_neg h2, hN n hn]

theorem consistent_noLink (h : ReadsAs o st mt t sub T recs) : Hardlinks.Consistent ((recs.map (noLink sub)).map some) := by
  have hmem : ∀ s, some s ∈ (recs.map (noLink sub)).map some → s.nlink = 1 := by
    intro s hs
    simp only [List.mem_map, Option.some.injEq, exists_eq_right] at hs
    obtain ⟨r, -, rfl⟩ := hs
    rfl
  have hno : ∀ s k, some s ∈ (recs.map (noLink sub)).map some → ¬ s.isMem k = true := by
    intro s k hs hc
    have := hmem s hs
    simp [Hardlinks.Rorp.isMem, this] at hc
  refine ⟨fun s hs h2 => ?_, fun s s' k hs _ hm => absurd hm (hno s k hs), fun s k hs hm => absurd hm (hno s k hs),
    fun s s' k hs _ hm => absurd hm (hno s k hs), ?_⟩
  · rw [hmem s hs] at h2; omega
  · intro i j s s' hi hj he
    simp only [List.getElem?_map, Option.map_eq_some_iff, Option.some.injEq, exists_eq_right] at hi hj
    obtain ⟨r, hr, rfl⟩ := hi
    obtain ⟨r', hr', rfl⟩ := hj
    have hord := h.ordered
    have hlt : ∀ {i j : Nat} {r r' : Rec (List α) (MRec A S H)}, recs[i]? = some r → recs[j]? = some r' → i < j →
        (cmpOps o sub).idxR r < (cmpOps o sub).idxR r' := by
      intro i j r r' h1 h2 hij
      obtain ⟨hi', e1⟩ := List.getElem?_eq_some_iff.mp h1
      obtain ⟨hj', e2⟩ := List.getElem?_eq_some_iff.mp h2
      have := List.pairwise_iff_getElem.mp hord i j hi' hj' hij
      rw [e1, e2] at this; exact this
    have he' : (cmpOps o sub).idxR r = (cmpOps o sub).idxR r' := he
    rcases lt_trichotomy i j with hlt' | rfl | hlt'
    · have := hlt hr hr' hlt'; rw [he'] at this; exact absurd this (lt_irrefl _)
    · rfl
    · have := hlt hr' hr hlt'; rw [he'] at this; exact absurd this (lt_irrefl _)

end Verif.Repo
