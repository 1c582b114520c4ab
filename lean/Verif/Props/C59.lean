import Verif.Proof.RepoCompare
import Verif.Props.C01
import Verif.Props.C58
/-
C59  Comparison of a directory with a backup in a repository, by any of the three methods, reports exactly the differences between the
     directory and the files which were backed up; nothing right after a backup.
-/
namespace Verif.C59
open Verif.Repo Verif.MetaChain Verif.JoinSpec Verif.Collate
set_option linter.unusedSectionVars false
variable {α A C S H Δ L : Type} [LinearOrder α] [DecidableEq A] [DecidableEq S] [DecidableEq H] [DecidableEq L]
variable {o : Ops A C H Δ L} {rsv : α → Prop} {st : State α A C S H Δ} {hist : Hist α A C S}

/-- `compare --method meta`: in a repository with complete backups, any part of any backup, any directory. -/
theorem compare_meta (h : Reach o rsv false st hist) (hne : hist ≠ []) (t : Nat) (sub : List α)
    {dir : Files α (Node A C S)} (hd : dir.Pairwise (fun x y => x.1 < y.1)) :
    ∃ mt x reps, st.marks = [mt] ∧ chosen hist t = some x ∧ compareMetaRepo o st mt t sub dir = some reps ∧
      AreDifferences o none dir x.2 sub reps := by
  obtain ⟨mt, x, recs, hm, hx, hT, hw, hrec, hra⟩ := chosen_some ((reach_inv h).1 rfl) hne t sub
  obtain ⟨reps, h1, h2, h3⟩ := C39.compare_meta (listed_ordered hd) hra.ordered (hra.exist dir)
  refine ⟨mt, x, reps, hm, hx, ?_, h2, fun k rep => ?_⟩
  · unfold compareMetaRepo
    rw [hrec]; exact h1
  · rw [h3]
    exact hra.expected_iff hT.ordered hd (by simp) (by simp) k rep

/-- `compare --method hash`: data count as the same if no digest is recorded, or size and digest are the same. -/
theorem compare_hash (h : Reach o rsv false st hist) (hne : hist ≠ []) (F : Reading C S) (t : Nat) (sub : List α)
    {dir : Files α (Node A C S)} (hd : dir.Pairwise (fun x y => x.1 < y.1)) :
    ∃ mt x rt recs reps, st.marks = [mt] ∧ chosen hist t = some x ∧ recordsAt st mt t sub = some (rt, recs) ∧
      compareHashRepo o F st mt t sub dir = some reps ∧
      AreDifferences o (some fun k c c' => (∃ r ∈ recs, r.idx = sub ++ k ∧ noDigest r = true) ∨ (o.size c = o.size c' ∧ o.sha c = o.sha c'))
        dir x.2 sub reps := by
  obtain ⟨mt, x, recs, hm, hx, hT, hw, hrec, hra⟩ := chosen_some ((reach_inv h).1 rfl) hne t sub
  have hnl : ∀ r ∈ recs, ∀ r' ∈ recs, C39.linked (noLink sub r) (noLink sub r') = true → (noLink sub r).sha1 = (noLink sub r').sha1 := by
    intro r _ r' _ hl
    simp [C39.linked, noLink] at hl
  obtain ⟨reps, h1, h2, h3⟩ := C39.compare_hash_partial (sha := nodeSha o F) (listed_ordered hd) hra.ordered (hra.exist dir)
    (link := noLink sub) (fun r => rfl) (consistent_noLink hra) hnl
  refine ⟨mt, x, x.1, recs, reps, hm, hx, hrec, ?_, h2, fun k rep => ?_⟩
  · unfold compareHashRepo
    rw [hrec]; exact h1
  · rw [h3]
    refine hra.expected_iff hT.ordered hd (by simp) ?_ k rep
    intro D sm hD hsm k a a' c y r hr hri hg
    cases hD; cases hsm
    obtain ⟨-, m, n, e1, e2, e3⟩ := hra.files r hr
    rw [hg] at e2; cases e2
    cases m with
    | reg a2 sz d =>
      obtain ⟨rfl, rfl, e6⟩ := e3
      have huniq : ∀ r' ∈ recs, r'.idx = sub ++ k → r' = r := by
        intro r' hr' he
        by_contra hc
        rcases lt_trichotomy r'.idx r.idx with hlt | heq | hlt
        · rw [he, hri] at hlt; exact lt_irrefl _ hlt
        · have := hra.good.ordered
          have hp : ∀ l : List (Rec (List α) (MRec A S H)), l.Pairwise (fun x y => x.idx < y.idx) → r ∈ l → r' ∈ l → r'.idx = r.idx → r' = r := by
            intro l
            induction l with
            | nil => intro _ h; cases h
            | cons z l ih =>
              intro hp h1 h2 he
              obtain ⟨hp1, hp2⟩ := List.pairwise_cons.mp hp
              rcases List.mem_cons.mp h1 with e | h1
              · rcases List.mem_cons.mp h2 with e' | h2
                · rw [e, e']
                · have := hp1 r' h2; rw [← e, he] at this; exact absurd this (lt_irrefl _)
              · rcases List.mem_cons.mp h2 with e' | h2
                · have := hp1 r h1; rw [← e', he] at this; exact absurd this (lt_irrefl _)
                · exact ih hp2 h1 h2 he
          exact hc (hp recs this hr hr' heq)
        · rw [he, hri] at hlt; exact lt_irrefl _ hlt
      cases d with
      | none =>
        simp only [C39.sameDigest, noLink, e1, true_iff]
        exact .inl ⟨r, hr, hri, by simp [noDigest, e1]⟩
      | some d =>
        have hd' := e6 d rfl
        simp only [C39.sameDigest, noLink, e1, cmpOps, nodeSize, recSize, nodeSha, nodeData, Option.getD_some, hd']
        constructor
        · exact fun h => .inr h
        · rintro (⟨r', hr', he, hn⟩ | h)
          · rw [huniq r' hr' he] at hn
            simp [noDigest, e1] at hn
          · exact h
    | _ => exact e3.elim

variable [DecidableEq C]

/-- `compare --method full`: the data themselves are compared. The path given must exist in the backup (else the code raises an exception). -/
theorem compare_full (h : Reach o rsv false st hist) (hne : hist ≠ []) (F : Reading C S) {t : Nat} {sub : List α}
    {dir : Files α (Node A C S)} (hd : dir.Pairwise (fun x y => x.1 < y.1))
    (hsub : ∀ x, chosen hist t = some x → (get x.2 sub).isSome = true) :
    ∃ mt x reps N, st.marks = [mt] ∧ chosen hist t = some x ∧ (∀ n, N ≤ n → compareFullRepo o F st n mt t sub dir = some reps) ∧
      AreDifferences o (some fun _ c c' => c = c') dir x.2 sub reps := by
  obtain ⟨mt, x, recs, hm, hx, hT, hw, hrec, hra⟩ := chosen_some ((reach_inv h).1 rfl) hne t sub
  let dataR : Rec (List α) (MRec A S H) → C := fun r => match get x.2 r.idx with | some (.reg _ c) => c | _ => F.empty
  have hdata : ∀ r a c, get x.2 r.idx = some (.reg a c) → dataR r = c := by
    intro r a c hg; simp [dataR, hg]
  obtain ⟨n0, hn0⟩ := Option.isSome_iff_exists.mp (hsub x hx)
  obtain ⟨r0, hr0, hr0i, hr0k⟩ := hra.find (k := []) hT.ordered (by rw [List.append_nil]; exact hn0)
  have ho1 := listed_ordered (H := H) (o := o) (sub := sub) hd
  obtain ⟨reps, h1, h2, h3⟩ := C39.compare_full_partial (root := []) (fs := fun k => (k, get dir k)) (dataS := nodeData) (dataR := dataR)
    ho1 hra.ordered (hra.exist dir)
    (by
      intro s hs
      obtain ⟨n, e1, e2⟩ := (mem_listed hd).mp hs
      show (s.1, get dir s.1) = s
      rw [e2, ← e1])
    (fun k => rfl) ⟨r0, hr0, hr0k⟩
    (by
      intro r hr hno
      show (get dir _).isSome = false
      cases hg : get dir ((cmpOps o sub).idxR r) with
      | none => rfl
      | some n => exact absurd rfl (hno ((cmpOps o sub).idxR r, some n) ((mem_listed hd).mpr ⟨n, rfl, hg⟩)))
  have hj := C11.collate2_outer_join (cmpOps o sub).idxS (cmpOps o sub).idxR (listed dir) recs ho1 hra.ordered
  have hrow : ∀ r ∈ (collate2 (cmpOps o sub).idxS (cmpOps o sub).idxR (listed dir) recs).filterMap Prod.snd, r ∈ recs := by
    intro r hr
    obtain ⟨p, hp, he⟩ := List.mem_filterMap.mp hr
    obtain ⟨ks, -, -, hf⟩ := hj
    obtain ⟨k, -, hk⟩ := forall₂_mem_right hf p hp
    exact ((hk.2.2 r).mp he).1
  have hordr : ((collate2 (cmpOps o sub).idxS (cmpOps o sub).idxR (listed dir) recs).filterMap Prod.snd).Pairwise (fun x y => x.idx < y.idx) := by
    obtain ⟨ks, hs, -, hf⟩ := hj
    have := filterMap_ordered (f := Prod.snd) (idx := (cmpOps o sub).idxR) hf hs (fun k row hr y hy => ((hr.2.2 y).mp hy).2)
    refine List.Pairwise.imp_of_mem ?_ this
    intro y z hy hz hlt
    rw [← hra.pre (hrow y hy), ← hra.pre (hrow z hz), lt_append_left]
    exact hlt
  obtain ⟨N, hN⟩ := attachRepo_ends (o := o) hw F mt x.1 sub dataR _ hordr (fun r hr => hra.pre (hrow r hr))
    (by
      intro r hr hreg
      have hr := hrow r hr
      obtain ⟨-, m, n, e1, e2, e3⟩ := hra.files r hr
      cases m with
      | reg a sz d =>
        obtain ⟨c, hg, -⟩ := hra.reg hr e1
        exact ⟨hra.good.below r hr ⟨a, sz, d, e1⟩, by rw [hdata r a c hg, hra.directData F hr hg],
          fun hl => hl.1 (hra.kept r hr ⟨a, sz, d, e1⟩)⟩
      | _ => simp [e1, recIsReg, MRec.isReg] at hreg)
    [] (fun r _ => RFInv.nil _)
  refine ⟨mt, x, reps, N, hm, hx, fun n hn => ?_, h2, fun k rep => ?_⟩
  · unfold compareFullRepo
    rw [hrec]
    simp only
    unfold Compare.compareFull at h1
    have := hN n hn
    unfold listed at this h1
    rw [this]
    generalize Compare.attachFiles (cmpOps o sub) [] dataR _ = att at h1 ⊢
    cases att with
    | none => cases h1
    | some xs => exact h1
  · rw [h3]
    refine hra.expected_iff hT.ordered hd (by simp) ?_ k rep
    intro D sm hD hsm k a a' c y r hr hri hg
    cases hD; cases hsm
    obtain ⟨-, m, n, e1, e2, e3⟩ := hra.files r hr
    rw [hg] at e2; cases e2
    cases m with
    | reg a2 sz d =>
      obtain ⟨rfl, rfl, -⟩ := e3
      simp only [cmpOps, nodeSize, recSize, nodeData, e1, hdata r _ y hg, Option.some.injEq]
      constructor
      · exact fun h => h.2
      · rintro rfl; exact ⟨rfl, rfl⟩
    | _ => exact e3.elim

/-- a path has no difference to itself -/
theorem not_differs {same : Option (List α → C → C → Prop)} (hs : ∀ sm, same = some sm → ∀ k c, sm k c c) {k : List α} {n : Option (Node A C S)}
    {rep : Compare.Report} : ¬ Differs o same k n n rep := by
  have hsm : ∀ n : Node A C S, SameMeta o n n := by intro n; cases n <;> simp [SameMeta]
  intro hd
  cases n with
  | none => cases hd
  | some n =>
    cases hd with
    | changed h1 h2 => exact h1 (hsm n)
    | detail h1 h2 h3 h4 =>
      rcases h4 with h4 | h4
      · exact (h2.mp h4) ⟨rfl, rfl⟩
      · exact (h3.mp h4) (hs _ h1 _ _)

theorem no_differences {same : Option (List α → C → C → Prop)} (hs : ∀ sm, same = some sm → ∀ k c, sm k c c) {T : Files α (Node A C S)}
    {reps : List (List α × Compare.Report)} (h : AreDifferences o same T T [] reps) : reps = [] := by
  rw [List.eq_nil_iff_forall_not_mem]
  rintro ⟨k, rep⟩ hm
  exact not_differs hs ((h.2 k rep).mp hm)

/-- Right after a backup (of which no file failed) no method finds a difference to the source. -/
theorem nothing_after_backup (h : Reach o rsv false st hist) {s : Sess α A C S H Δ} (hv : ValidSess o rsv hist s) (hf : ∀ i, s.fails i = false)
    (F : Reading C S) : ∃ st' N, backup o st s = some st' ∧ st'.marks = [s.now] ∧ compareMetaRepo o st' s.now s.now [] s.src = some [] ∧
      compareHashRepo o F st' s.now s.now [] s.src = some [] ∧ ∀ n, N ≤ n → compareFullRepo o F st' n s.now s.now [] s.src = some [] := by
  obtain ⟨st', T, hb, hT, -, hsrc, -⟩ := C01.backup_then_restore h hv
  cases hsrc hf
  have hr := Reach.backup h hv hb hT
  have hch : chosen ((s.now, s.src) :: hist) s.now = some (s.now, s.src) := by simp [chosen]
  have hord := hv.tree.ordered
  obtain ⟨mt, x, reps, h1, h2, h3, h4⟩ := compare_meta hr (by simp) s.now [] hord
  obtain ⟨mt', x', rt, recs, reps', h1', h2', -, h3', h4'⟩ := compare_hash hr (by simp) F s.now [] hord
  obtain ⟨mt2, x2, reps2, N, h5, h6, h7, h8⟩ := compare_full hr (by simp) F (t := s.now) (sub := []) hord (by
    intro x hx
    rw [hch] at hx; cases hx
    obtain ⟨a, ha⟩ := hv.tree.root
    rw [(hv.tree.get_iff _ _).mpr ha]; rfl)
  rw [h1] at h1' h5
  cases h1'; cases h5
  rw [hch] at h2 h2' h6
  cases h2; cases h2'; cases h6
  have hmt : mt = s.now := by
    rcases (reach_inv hr).1 rfl with ⟨h, -⟩ | ⟨P, T0, rest, L0, mrest, he, -, hc⟩
    · cases h
    · have := hc.marks
      rw [h1] at this
      simp only [List.cons.injEq, and_true, Prod.mk.injEq] at he this
      rw [this, he.1.1]
  subst hmt
  refine ⟨st', N, hb, h1, ?_, ?_, fun n hn => ?_⟩
  · rw [h3, no_differences (by simp) h4]
  · rw [h3', no_differences (by rintro sm h; cases h; intro k c; exact .inr ⟨rfl, rfl⟩) h4']
  · rw [h7 n hn, no_differences (by rintro sm h; cases h; intro k c; rfl) h8]

end Verif.C59

namespace Verif.C59.Demo
open Verif.Repo Verif.Repo.Demo Verif.C58.Demo

/-- the source of the second backup compared with all three: everything is different in some way; `[1]` is a regular file and a link,
`[2]` a file, gone, and a directory -/
example : compareMetaRepo ops st3 30 30 [] src2 =
    some [([], .changed), ([1], .changed), ([2], .new), ([3], .changed), ([3, 1], .changed)] := by decide +kernel
example : compareFullRepo ops F0 st3 40 30 20 [] src2 = some [] := by decide +kernel
example : compareFullRepo ops F0 st3 40 30 10 [] src2 =
    some [([], .changed), ([1], .detail true true), ([2], .changed), ([2, 5], .deleted), ([3], .new), ([3, 1], .new)] := by decide +kernel

/-- one file of the same size (here: the same attributes) with other data: only found if data are compared -/
def ops2 : Ops Nat (Nat × Nat) Nat (Nat × Nat) Nat := ⟨fun x => x.1, fun x => x.1 + 100 * x.2, fun _ n => n, fun _ d => d, fun _ _ => rfl, id⟩
def st0 : State Nat Nat (Nat × Nat) Nat Nat (Nat × Nat) := ⟨[([], .dir 5)], [], [[]], [], []⟩
def sessF (now : Nat) (src : Files Nat (Node Nat (Nat × Nat) Nat)) : Sess Nat Nat (Nat × Nat) Nat Nat (Nat × Nat) :=
  ⟨now, src, fun _ => false, fun i => i == [2], 99, fun _ => (0, 77), fun _ => (7, 7), [], 1000⟩
def srcA : Files Nat (Node Nat (Nat × Nat) Nat) := [([], .dir 6), ([1], .reg 2 (3, 0)), ([2], .reg 2 (3, 0))]
def srcB : Files Nat (Node Nat (Nat × Nat) Nat) := [([], .dir 6), ([1], .reg 2 (3, 1)), ([2], .reg 2 (3, 1))]
def stA := (backup ops2 st0 (sessF 10 srcA)).get (by decide +kernel)
example : compareMetaRepo ops2 stA 10 10 [] srcB = some [] := by decide +kernel
/-- of the second no digest was recorded -/
example : compareHashRepo ops2 ⟨(0, 0), fun _ => none⟩ stA 10 10 [] srcB = some [([1], .detail false true)] := by decide +kernel
example : compareFullRepo ops2 ⟨(0, 0), fun _ => none⟩ stA 40 10 10 [] srcB = some [([1], .detail false true), ([2], .detail false true)] := by
  decide +kernel
/-- part of a backup -/
example : compareFullRepo ops F0 st3 40 30 20 [3] [([], .dir 1), ([2], .dir 1)] = some [([1], .deleted), ([2], .new)] := by decide +kernel

end Verif.C59.Demo
