import Verif.Proof.SrcCache
import Verif.Props.C01
/-
C54  The bounded cache between the two directions of a backup never loses what is needed: a backup with it
does exactly what a backup with unlimited memory does.
-/
namespace Verif.C54
open Verif.Repo Verif.Cache Verif.Collate Verif.JoinSpec
variable {α A C S H Δ L : Type} [LinearOrder α] [DecidableEq A] [DecidableEq S] [DecidableEq H] [DecidableEq L]
variable {o : Ops A C H Δ L} {rsv : α → Prop} {st : State α A C S H Δ} {hist : Hist α A C S}

/-- For every cache size and every way of interleaving the reading of the two trees with the processing of the diffs: if no diff is
processed before its file was read or after `N` further files were read, the backup ends without an exception, and the
repository is the same as with unlimited memory. -/
theorem bounded_same (h : Reach o rsv false st hist) {s : Sess α A C S H Δ} (hv : ValidSess o rsv hist s) {N : Nat}
    {sched : Ctx α A C S H Δ → List α → Nat}
    (ht : ∀ c : Ctx α A C S H Δ, Ordered Prod.fst c.s.src → MetaChain.IsListing c.dest → Timely o c N (sched c)) :
    ∃ st', backupBounded o N sched st s = some st' ∧ backup o st s = some st' := by
  obtain ⟨st', hb, -⟩ := backup_rep ((reach_inv h).1 rfl) hv
  refine ⟨st', ?_, hb⟩
  have key : ∀ (P : Prot α A C S H Δ) (prev : Option Nat) (dest : List (MetaChain.Rec (List α) (MRec A S H))), mirrorTime st = some prev → destOf o st prev = some dest →
      CtxOK o ⟨st, s, prev, dest⟩ P → Sorted (⟨st, s, prev, dest⟩ : Ctx α A C S H Δ) → backupBounded o N sched st s = some st' := by
    intro P prev dest hm hd hc hs
    have hB := bounded_eq hc hs (ht _ hs.src hs.dest)
    unfold backup sessionSteps at hb
    unfold backupBounded
    rw [hm] at hb ⊢
    simp only at hb ⊢
    by_cases hp : prev.any (fun t => s.now ≤ t) = true
    · rw [if_pos hp] at hb; cases hb
    · rw [if_neg hp] at hb ⊢
      rw [hd] at hb ⊢
      simp only [hB] at hb ⊢
      cases he : Ctx.events o (⟨st, s, prev, dest⟩ : Ctx α A C S H Δ) with
      | none => rw [he] at hb; simp at hb
      | some evs =>
        rw [he] at hb
        cases hcv : convertSteps s.junkMeta (⟨s.now, true, Ctx.listing o (⟨st, s, prev, dest⟩ : Ctx α A C S H Δ)⟩ :: st.metas) with
        | none => rw [hcv] at hb; simp at hb
        | some conv =>
          rw [hcv] at hb
          cases prev with
          | none => simp only [hcv]; exact hb
          | some t => simp only [hcv]; exact hb
  rcases (reach_inv h).1 rfl with ⟨rfl, a, rfl⟩ | ⟨P, T0, rest, L0, mrest, rfl, hs, hc⟩
  · have hbf := before_first a hv
    refine key _ none [⟨[], some (.dir a)⟩] rfl ?_ hbf.ok hbf.sorted
    simp [destOf, srcRec, Sort.sortBy, Sort.insertBy]
  · have hbf := before_next hs hc hv
    refine key _ (some P.t0) L0 (by simp [mirrorTime, hc.marks]) ?_ hbf.ok hbf.sorted
    simp only [destOf]
    rw [hc.metas.read (t := P.t0) (L := L0) (by simp)]
    simp

/-- A backup on one computer, with a cache of any size. -/
theorem local_same (h : Reach o rsv false st hist) {s : Sess α A C S H Δ} (hv : ValidSess o rsv hist s) {N : Nat} (hN : 1 ≤ N) :
    ∃ st', backupBounded o N localSched st s = some st' ∧ backup o st s = some st' :=
  bounded_same h hv fun _ h1 h2 => timely_local ⟨h1, h2⟩ hN

/-- A backup between two computers, with the size of the cache and the flush interval of the code: whatever sizes the blocks of signatures
and of diffs have. -/
theorem remote_same (h : Reach o rsv false st hist) {s : Sess α A C S H Δ} (hv : ValidSess o rsv hist s) (fullSig fullDiff : List Tok → Bool) :
    ∃ st', backupBounded o (pipelineMax * 4) (fun c => remoteSched o c (pipelineMax - 2) fullSig fullDiff) st s = some st' ∧
      backup o st s = some st' :=
  bounded_same h hv fun _ h1 h2 => timely_remote ⟨h1, h2⟩ (by decide) fullSig fullDiff

/-- The cache may be as small as the flush interval plus 2. -/
theorem remote_margin (h : Reach o rsv false st hist) {s : Sess α A C S H Δ} (hv : ValidSess o rsv hist s) (fullSig fullDiff : List Tok → Bool)
    {N interval : Nat} (hN : interval + 2 ≤ N) :
    ∃ st', backupBounded o N (fun c => remoteSched o c interval fullSig fullDiff) st s = some st' ∧ backup o st s = some st' :=
  bounded_same h hv fun _ h1 h2 => timely_remote ⟨h1, h2⟩ hN fullSig fullDiff

/-- After a backup between two computers everything is restored: the new backup and the older ones. -/
theorem remote_restores (h : Reach o rsv false st hist) {s : Sess α A C S H Δ} (hv : ValidSess o rsv hist s) (hf : ∀ i, s.fails i = false)
    (fullSig fullDiff : List Tok → Bool) :
    ∃ st', backupBounded o (pipelineMax * 4) (fun c => remoteSched o c (pipelineMax - 2) fullSig fullDiff) st s = some st' ∧
      restore o st' s.now [] = some s.src ∧ ∀ t T, (t, T) ∈ hist → restore o st' t [] = some T := by
  obtain ⟨st', h1, h2⟩ := remote_same h hv fullSig fullDiff
  obtain ⟨st'', T, g1, g2, g3, g4, g5⟩ := C01.backup_then_restore h hv
  rw [h2] at g1; cases g1
  rw [g4 hf] at g3
  exact ⟨st', h1, g3, g5⟩

/-! ### what is in the cache -/

section
variable {V W H : Type} {sdir : V → Bool} {ddir : W → Bool}

/-- A cache of `N` entries into which the first `n` pairs of two trees have been read: it never holds more than `N` entries, and
a pair can be looked up as long as at most `N - 1` further ones have been read, a directory as long as something inside it can. -/
theorem cache_holds {ps : List (Pair α V W)} (h : Pairs sdir ddir ps) (N n : Nat) (hn : n ≤ ps.length) :
    ∃ s : Ccpp α V W H, (ps.take n).foldlM (fun s p => s.next sdir ddir p) (Ccpp.empty N) = some s ∧ s.items.length ≤ N ∧
      (∀ p x, ps[p]? = some x → p < n → n ≤ p + N → s.inCache x.1 = true ∧ s.rorps x.1 = some x.2 ∧ s.source x.1 = some x.2.1 ∧
        s.mirror x.1 = some x.2.2 ∧ ∀ d ∈ ps, isd sdir ddir d = true → d.1 <+: x.1 → s.rorps d.1 = some d.2) ∧
      ∀ p x, ps[p]? = some x → p + N < n → s.inCache x.1 = false ∧ s.source x.1 = none := by
  have main : ∀ n, n ≤ ps.length → ∃ s : Ccpp α V W H, (ps.take n).foldlM (fun s p => s.next sdir ddir p) (Ccpp.empty N) = some s ∧
      s.size = N ∧ Inv sdir ddir ps n (n - N) s := by
    intro n
    induction n with
    | zero => intro _; exact ⟨Ccpp.empty N, rfl, rfl, by rw [Nat.zero_sub]; exact inv_empty⟩
    | succ n ih =>
      intro hn
      obtain ⟨s, h1, h2, h3⟩ := ih (by omega)
      have hp : ps[n]? = some ps[n] := List.getElem?_eq_getElem (by omega)
      obtain ⟨s', g1, g2, g3, -⟩ := h3.next h h2 hp
      refine ⟨s', ?_, g2, g3⟩
      rw [List.take_add_one, hp, List.foldlM_append, h1]
      simpa using g1
  obtain ⟨s, h1, h2, h3⟩ := main n hn
  refine ⟨s, h1, by rw [h3.items_length]; omega, ?_, ?_⟩
  · intro p x hp hpn hN
    have hm : x ∈ (ps.take n).drop (n - N) := by
      refine List.mem_iff_getElem?.mpr ⟨p - (n - N), ?_⟩
      rw [List.getElem?_drop, show n - N + (p - (n - N)) = p by omega, List.getElem?_take_of_lt hpn, hp]
    obtain ⟨g1, g2, g3⟩ := h3.rorps h hm
    exact ⟨g2, g1, g3, by simp [Ccpp.mirror, g1], fun d hd hdd hpre => h3.rorps_parent h hm hd hpre hdd⟩
  · intro p x hp hN
    have hm : x ∈ ps.take (n - N) := List.mem_iff_getElem?.mpr ⟨p, by rw [List.getElem?_take_of_lt (by omega), hp]⟩
    refine ⟨by simp [Ccpp.inCache, h3.find_none h hm], ?_⟩
    unfold Ccpp.source
    cases hi : s.items with
    | nil => rfl
    | cons e rest =>
      have he : e.key ∈ (ps.take n).drop (n - N) := by rw [← h3.items, hi]; simp
      obtain ⟨k, hk⟩ := List.mem_iff_getElem?.mp he
      rw [List.getElem?_drop] at hk
      have hk' : ps[n - N + k]? = some e.key := by
        rw [List.getElem?_take] at hk
        by_cases hc : n - N + k < n
        · rwa [if_pos hc] at hk
        · rw [if_neg hc] at hk; cases hk
      have := getElem_pairwise h.sorted hp hk' (by omega)
      simp only [if_pos (show x.1 < e.idx from this)]

end

/-! ### the source -/

/-- Between two computers, the source finds every file for which a signature arrives in its own cache, however large the blocks
of the signatures (`fullSig`) and of the source list (`R` files have been sent, at most one block and one file more than the destination
has looked at) are; a file which is no longer there is recognised as such. -/
theorem source_found {c : Ctx α A C S H Δ} (hsrc : Ordered Prod.fst c.s.src) (hdest : MetaChain.IsListing c.dest)
    (hroot : (c.src []).isSome = true) (fullSig : List Tok → Bool) {i : List α} (hi : i ∈ c.changed o) {R : Nat}
    (h1 : (srcAmong c (sigSched o c (pipelineMax - 2) fullSig i)).length ≤ R)
    (h2 : R ≤ (srcAmong c (sigSched o c (pipelineMax - 2) fullSig i)).length + pipelineMax + 1) (h3 : R ≤ c.s.src.length) :
    (SrcCache.reads (pipelineMax * 3) (c.s.src.take R)).get i = some (c.src i) := by
  have hs : Sorted c := ⟨hsrc, hdest⟩
  have ht := timely_remote (o := o) hs (N := pipelineMax) (thr := pipelineMax - 2) (by decide) fullSig (fun _ => true)
  obtain ⟨p, x, hp, rfl, -⟩ := changed_pos hs hi
  obtain ⟨g1, g2⟩ := ht.window p x hp hi
  exact source_get hs hroot (W := pipelineMax) (B := pipelineMax + 1) (by decide) hp g1 g2 h1 (by rw [← Nat.add_assoc]; exact h2) h3

/-! ### examples -/

open Verif.Repo.Demo

/-- a third backup over a connection: blocks of one signature, blocks of three diffs -/
example : backupBounded ops (pipelineMax * 4) (fun c => remoteSched ops c (pipelineMax - 2) (fun _ => true) (fun b => b.length == 3)) st2 (sess 30 src3)
    = some st3 := by
  obtain ⟨st', h1, h2⟩ := remote_same reach2 valid3 (fun _ => true) (fun b => b.length == 3)
  rw [h1, ← h2]; simp [st3]

/-- a flush after every second file and a cache of four: here the cache really drops entries (there are five pairs) -/
example : backupBounded ops 4 (fun c => remoteSched ops c 2 (fun _ => false) (fun _ => false)) st2 (sess 30 src3) = some st3 := by
  obtain ⟨st', h1, h2⟩ := remote_margin reach2 valid3 (fun _ => false) (fun _ => false) (N := 4) (interval := 2) (by decide)
  rw [h1, ← h2]; simp [st3]

/-- what happens without the flush markers: a diff which comes too late ends the session with an exception -/
theorem late_fails : backupBounded ops 2 (fun c => remoteSched ops c 100 (fun _ => false) (fun _ => false)) st1 (sess 20 src2) = none := by
  decide +kernel

/-- only the directory at the top has changed -/
def srcTop : Files Nat (Node Nat Nat Nat) := [([], .dir 9), ([1], .reg 2 3), ([2], .dir 1), ([2, 5], .other 1 8)]

/-- or, worse, silently records the old attributes of a directory which was updated -/
theorem late_stale : (backupBounded ops 2 (fun c => remoteSched ops c 100 (fun _ => false) (fun _ => false)) st1 (sess 20 srcTop)).bind
    (fun st => restore ops st 20 []) = some src1 ∧ (backup ops st1 (sess 20 srcTop)).bind (fun st => restore ops st 20 []) = some srcTop := by
  decide +kernel

/-- the session of the examples -/
def ctx3 : Ctx Nat Nat Nat Nat Nat (Nat × Nat) := ⟨st2, sess 30 src3, some 20, (destOf ops st2 (some 20)).get (by decide +kernel)⟩

/-- the hypotheses of `cache_holds` -/
example : Pairs Node.isDir MRec.isDir ctx3.pairs ∧ ctx3.pairs.length = 5 :=
  ⟨⟨by decide +kernel, by decide +kernel⟩, by decide +kernel⟩

/-- the hypotheses of `source_found`: `[2]` is gone at the source -/
example : (SrcCache.reads (pipelineMax * 3) (src3.take 4)).get [2] = some none :=
  source_found (o := ops) (c := ctx3) (by unfold Ordered; decide +kernel) ⟨by decide +kernel, by decide +kernel⟩ (by decide +kernel) (fun _ => true) (i := [2])
    (by decide +kernel) (R := 4) (by decide +kernel) (by decide +kernel) (by decide +kernel)

end Verif.C54
