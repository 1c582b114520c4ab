import Verif.Proof.Hardlinks
import Mathlib.Tactic.IntervalCases
/-
C31 Hard links are kept together.
-/
set_option linter.unusedSectionVars false
namespace Verif.C31
open Verif.Hardlinks
variable {I K D : Type} [DecidableEq I] [DecidableEq K] [DecidableEq D]

/-- the two are links of the same file: regular files with several links and the same inode and device -/
def SameFile (s s' : Rorp I K D) : Prop := ∃ k, s.reg = true ∧ 2 ≤ s.nlink ∧ s.key = some k ∧ s'.reg = true ∧ 2 ≤ s'.nlink ∧ s'.key = some k

theorem sameFile_iff {s s' : Rorp I K D} {k : K} (h : s.isMem k = true) : SameFile s s' ↔ s'.isMem k = true := by
  have hs := Rorp.isMem_iff.1 h
  constructor
  · rintro ⟨k', -, -, h3, h4, h5, h6⟩
    rw [hs.2.2] at h3; cases h3
    exact Rorp.isMem_iff.2 ⟨h4, h5, h6⟩
  · intro h'
    obtain ⟨h1, h2, h3⟩ := Rorp.isMem_iff.1 h'
    exact ⟨k, hs.1, hs.2.1, hs.2.2, h1, h2, h3⟩

/-- the entry for a file between being added and being removed -/
theorem entry_at {ps0 ps : List (Pair I K D)} {a q d : Nat} {t : Tab I K D} (hc : Consistent (ps0.map (·.src))) (hi : RInv ps0 ps a q d t)
    {i : Nat} (hd : d ≤ i) (ha : i < a) {s : Rorp I K D} {k : K} (hs : (ps0.map (·.src))[i]? = some (some s)) (hk : s.isMem k = true) :
    ∃ f s' e, f ≤ i ∧ First (ps0.map (·.src)) k f s' ∧ t.tab k = some e ∧ e.index = s'.index ∧
      ∃ p dk, ps[f]? = some p ∧ destKey p.dest = some dk ∧ ((e.dest = dk ∧ e.digest = s'.sha1) ∨ (dk = .na ∧ e.dest = .missing)) := by
  obtain ⟨f, s', hf, hfs⟩ := exists_first (cnt_pos_iff.2 ⟨i, s, Nat.lt_succ_self i, hs, hk⟩)
  have h1 := (hi.tab k).2 f s' (by omega) (by rw [hi.srcs]; exact hfs)
  rw [hi.srcs] at h1
  have h2 : cnt (ps0.map (·.src)) k d ≤ cnt (ps0.map (·.src)) k i := cnt_mono hd
  have h3 := cnt_succ hs k
  rw [memb_some, hk] at h3
  have h4 := cnt_le_total (ps0.map (·.src)) k (i + 1)
  have h5 := hc.count s' k (mem_of_at hfs.1) hfs.2.1
  simp only [if_true] at h3
  obtain ⟨e, he, h6, -, h7⟩ := h1.2 (by omega)
  exact ⟨f, s', e, by omega, hfs, he, h6, h7⟩

/-- `is_linked` and `get_link_index` tell whether there is an earlier link, and which is the first one. -/
theorem isLinked_at {ps0 ps : List (Pair I K D)} {a q d : Nat} {t : Tab I K D} (hc : Consistent (ps0.map (·.src))) (hi : RInv ps0 ps a q d t)
    {i : Nat} (hd : d ≤ i) (ha : i < a) {s : Rorp I K D} (hs : (ps0.map (·.src))[i]? = some (some s)) :
    ((∀ f, f < i → ∀ s', (ps0.map (·.src))[f]? = some (some s') → ¬ SameFile s s') ∧ isLinked t s = some false) ∨
    ∃ k f s', s.isMem k = true ∧ f < i ∧ First (ps0.map (·.src)) k f s' ∧ isLinked t s = some true ∧ linkIndex t s = some s'.index := by
  by_cases hm : ∃ k, s.isMem k = true
  · obtain ⟨k, hk⟩ := hm
    obtain ⟨f, s', e, hf, hfs, he, hidx, -⟩ := entry_at hc hi hd ha hs hk
    obtain ⟨-, hn, hkey⟩ := Rorp.isMem_iff.1 hk
    have hl : isLinked t s = some (decide (s'.index ≠ s.index)) := by
      rw [isLinked, if_neg (by simp; omega), hkey]
      simp [he, hidx]
    by_cases hfi : f = i
    · left
      subst hfi
      refine ⟨fun g hg s'' hs'' hsame => ?_, ?_⟩
      · have := cnt_pos_iff.2 ⟨g, s'', hg, hs'', (sameFile_iff hk).1 hsame⟩
        rw [hfs.2.2] at this
        omega
      · have := hfs.1
        rw [hs] at this
        simp only [Option.some.injEq] at this
        rw [hl, this]; simp
    · right
      refine ⟨k, f, s', hk, by omega, hfs, ?_, ?_⟩
      · rw [hl]
        simp only [ne_eq, Option.some.injEq, decide_eq_true_eq]
        exact fun h => hfi (hc.nodup f i s' s hfs.1 hs h)
      · simp [linkIndex, hkey, he, hidx]
  · left
    refine ⟨fun f hf s' hs' hsame => ?_, ?_⟩
    · obtain ⟨k, h1, h2, h3, -⟩ := hsame
      exact hm ⟨k, Rorp.isMem_iff.2 ⟨h1, h2, h3⟩⟩
    · rw [isLinked]
      split
      · rfl
      · next hn =>
        simp only [gt_iff_lt, Bool.not_eq_true', decide_eq_false_iff_not, Nat.not_lt] at hn
        have hkey := hc.haskey s (mem_of_at hs) (by omega)
        cases hk : s.key with
        | none => exact absurd hk hkey
        | some k =>
          simp only
          have hz : cnt (ps0.map (·.src)) k a = 0 := by
            by_contra hpos
            obtain ⟨j, s', -, hs', hk'⟩ := cnt_pos_iff.1 (Nat.pos_of_ne_zero hpos)
            exact hm ⟨k, hc.other s' s k (mem_of_at hs') (mem_of_at hs) hk' hk⟩
          rw [(hi.tab k).1 (by rw [hi.srcs]; exact hz)]

theorem onChanged_at {ps0 ps : List (Pair I K D)} {a q d : Nat} {t : Tab I K D} (hc : Consistent (ps0.map (·.src))) (hi : RInv ps0 ps a q d t)
    {i : Nat} (hd : d ≤ i) (ha : i < a) {s : Rorp I K D} (hs : (ps0.map (·.src))[i]? = some (some s)) {x : Decision I}
    (h : onChanged t (some s) = some x) :
    ((∀ f, f < i → ∀ s', (ps0.map (·.src))[f]? = some (some s') → ¬ SameFile s s') ∧ x = .replace) ∨
    ∃ k f s', s.isMem k = true ∧ f < i ∧ First (ps0.map (·.src)) k f s' ∧ x = .link s'.index := by
  rcases isLinked_at hc hi hd ha hs with ⟨h1, h2⟩ | ⟨k, f, s', h1, h2, h3, h4, h5⟩
  · simp only [onChanged, h2, Option.some.injEq] at h
    exact .inl ⟨h1, h.symm⟩
  · simp only [onChanged, h4, h5, Option.map_some, Option.some.injEq] at h
    exact .inr ⟨k, f, s', h1, h2, h3, h.symm⟩

/-- after the first call of `rorp_eq` the table is still as the invariant says -/
theorem rinv_rorpEq {ps0 ps : List (Pair I K D)} {a q d : Nat} {t t' : Tab I K D} (hi : RInv ps0 ps a q d t) {s r : Rorp I K D} {b : Bool}
    (h : rorpEq t s r = some (b, t')) : RInv ps0 ps a q d t' := by
  refine { hi with tab := ?_ }
  rcases rorpEq_tab h with rfl | ⟨k, e, -, he, hna, ht⟩
  · exact hi.tab
  · intro k'
    obtain ⟨h1, h2⟩ := hi.tab k'
    rw [ht]
    by_cases hkk : k' = k
    · subst hkk
      rw [set_self]
      refine ⟨fun hz => absurd (h1 hz) (by simp [he]), fun f s hf hfs => ⟨fun hle => absurd ((h2 f s hf hfs).1 hle) (by simp [he]), fun hl => ?_⟩⟩
      obtain ⟨e', he', h3, h4, p', dk, hp', hdk, h5⟩ := (h2 f s hf hfs).2 hl
      rw [he] at he'
      cases he'
      refine ⟨_, rfl, h3, h4, p', dk, hp', hdk, .inr ⟨?_, rfl⟩⟩
      rcases h5 with h5 | h5
      · rw [← h5.1, hna]
      · exact h5.1
    · rw [set_ne _ _ hkk]; exact ⟨h1, h2⟩

/-- what is decided about the file at position `i` -/
theorem decision_at {ps0 ps : List (Pair I K D)} {a q d : Nat} {t : Tab I K D} {out : List (Decision I)} (hc : Consistent (ps0.map (·.src)))
    (hr : Run ps0 ps a q d t out) {i : Nat} {x : Decision I} (hx : out[i]? = some x) :
    (x = .replace ∧ (ps0.map (·.src))[i]? = some none) ∨
    ∃ s, (ps0.map (·.src))[i]? = some (some s) ∧ (x = .keep ∨
      ((∀ f, f < i → ∀ s', (ps0.map (·.src))[f]? = some (some s') → ¬ SameFile s s') ∧ x = .replace) ∨
      ∃ k f s', s.isMem k = true ∧ f < i ∧ First (ps0.map (·.src)) k f s' ∧ x = .link s'.index) := by
  obtain ⟨ps', a', d', t', t'', p, hi, hia, hp, hdec⟩ := (run_out hc hr).2 i x hx
  have hat := src_at hp
  rw [hi.srcs] at hat
  have hd : d' ≤ i := hi.le.1
  cases hs : p.src with
  | none =>
    left
    simp only [decideOn, hs, onChanged, Option.map_some, Option.some.injEq, Prod.mk.injEq] at hdec
    exact ⟨hdec.1.symm, by rw [hat, hs]⟩
  | some s =>
    right
    rw [hs] at hat
    refine ⟨s, hat, ?_⟩
    simp only [decideOn, hs] at hdec
    have ch : ∀ {u}, RInv ps0 ps' a' i d' u → (onChanged u (some s)).map (·, u) = some (x, t'') → x = .keep ∨
      ((∀ f, f < i → ∀ s', (ps0.map (·.src))[f]? = some (some s') → ¬ SameFile s s') ∧ x = .replace) ∨
      ∃ k f s', s.isMem k = true ∧ f < i ∧ First (ps0.map (·.src)) k f s' ∧ x = .link s'.index := by
      intro u hu h
      simp only [Option.map_eq_some_iff, Prod.mk.injEq] at h
      obtain ⟨y, hy, rfl, -⟩ := h
      exact .inr (onChanged_at hc hu hd hia hat hy)
    cases hdst : p.dest with
    | none => rw [hdst] at hdec; exact ch hi hdec
    | some r =>
      rw [hdst] at hdec
      simp only at hdec
      split at hdec
      · split at hdec
        · simp at hdec
        · simp only [Option.some.injEq, Prod.mk.injEq] at hdec
          exact .inl hdec.1.symm
        · next he => exact ch (rinv_rorpEq hi he) hdec
      · exact ch hi hdec

/-- C31: whatever is made a link, in any backup or restore, is a link of the same file in the source, and it is linked to the first of its
links. -/
theorem linked_to_first {ps0 ps : List (Pair I K D)} {a q d : Nat} {t : Tab I K D} {out : List (Decision I)} (hc : Consistent (ps0.map (·.src)))
    (hr : Run ps0 ps a q d t out) {i : Nat} {j : I} (hx : out[i]? = some (.link j)) :
    ∃ s s' f, (ps0.map (·.src))[i]? = some (some s) ∧ (ps0.map (·.src))[f]? = some (some s') ∧ f < i ∧ SameFile s s' ∧ s'.index = j ∧
      ∀ g r, g < f → (ps0.map (·.src))[g]? = some (some r) → ¬ SameFile s r := by
  rcases decision_at hc hr hx with ⟨h, -⟩ | ⟨s, hs, h | ⟨-, h⟩ | ⟨k, f, s', hk, hf, hfs, h⟩⟩
  · cases h
  · cases h
  · cases h
  · cases h
    refine ⟨s, s', f, hs, hfs.1, hf, (sameFile_iff hk).2 hfs.2.1, rfl, fun g r hg hr hsame => ?_⟩
    have := cnt_pos_iff.2 ⟨g, r, hg, hr, (sameFile_iff hk).1 hsame⟩
    rw [hfs.2.2] at this
    omega

/-- C31: a file of which a link has been seen before is linked to the first one, or left as it is. -/
theorem later_is_linked {ps0 ps : List (Pair I K D)} {a q d : Nat} {t : Tab I K D} {out : List (Decision I)} (hc : Consistent (ps0.map (·.src)))
    (hr : Run ps0 ps a q d t out) {i f : Nat} {s s' : Rorp I K D} (hs : (ps0.map (·.src))[i]? = some (some s))
    (hf : f < i) (hs' : (ps0.map (·.src))[f]? = some (some s')) (hsame : SameFile s s')
    (hfirst : ∀ g r, g < f → (ps0.map (·.src))[g]? = some (some r) → ¬ SameFile s r) {x : Decision I} (hx : out[i]? = some x) :
    x = .keep ∨ x = .link s'.index := by
  rcases decision_at hc hr hx with ⟨-, h⟩ | ⟨s1, hs1, h⟩
  · rw [hs] at h; cases h
  · rw [hs] at hs1
    simp only [Option.some.injEq] at hs1
    subst hs1
    rcases h with h | ⟨h, -⟩ | ⟨k, f', s'', hk, hf', hfs, h⟩
    · exact .inl h
    · exact absurd hsame (h f hf s' hs')
    · right
      have hz : cnt (ps0.map (·.src)) k f = 0 := by
        by_contra hpos
        obtain ⟨g, r, hg, hr', hm⟩ := cnt_pos_iff.1 (Nat.pos_of_ne_zero hpos)
        exact hfirst g r hg hr' ((sameFile_iff hk).2 hm)
      obtain ⟨-, rfl⟩ := hfs.unique ⟨hs', (sameFile_iff hk).1 hsame, hz⟩
      exact h

/-- C31: the bookkeeping for a file is there from its first link having been added until as many of its links as it has have been removed. -/
theorem bookkeeping {ps0 ps : List (Pair I K D)} {a q d : Nat} {t : Tab I K D} {out : List (Decision I)} (hc : Consistent (ps0.map (·.src)))
    (hr : Run ps0 ps a q d t out) {k : K} {i : Nat} {s : Rorp I K D} (hs : (ps0.map (·.src))[i]? = some (some s)) (hk : s.isMem k = true) :
    t.tab k ≠ none ↔ 0 < cnt (ps0.map (·.src)) k a ∧ cnt (ps0.map (·.src)) k d < s.nlink := by
  have hi := run_inv hc hr
  obtain ⟨h1, h2⟩ := hi.tab k
  rw [hi.srcs] at h1 h2
  by_cases hz : cnt (ps0.map (·.src)) k a = 0
  · simp [h1 hz, hz]
  · obtain ⟨f, s', hf, hfs⟩ := exists_first (Nat.pos_of_ne_zero hz)
    have hn := hc.nlink s s' k (mem_of_at hs) (mem_of_at hfs.1) hk hfs.2.1
    obtain ⟨h3, h4⟩ := h2 f s' hf hfs
    by_cases hlt : cnt (ps0.map (·.src)) k d < s.nlink
    · obtain ⟨e, he, -⟩ := h4 (by omega)
      simp [he, hlt, Nat.pos_of_ne_zero hz]
    · simp [h3 (by omega), hlt]

/-- C31: if all links of a file are in the backup, then its bookkeeping is dropped exactly when the last of them has been processed, so that
nothing of it is left over. -/
theorem dropped_with_last {ps0 ps : List (Pair I K D)} {a q d : Nat} {t : Tab I K D} {out : List (Decision I)}
    (hc : Consistent (ps0.map (·.src))) (hr : Run ps0 ps a q d t out) {k : K} {i : Nat} {s : Rorp I K D}
    (hs : (ps0.map (·.src))[i]? = some (some s)) (hk : s.isMem k = true) (hall : (ps0.map (·.src)).countP (memb k) = s.nlink) (ha : i < a) :
    t.tab k = none ↔ ∀ j r, (ps0.map (·.src))[j]? = some (some r) → SameFile s r → j < d := by
  have hb := bookkeeping hc hr hs hk
  have hpos : 0 < cnt (ps0.map (·.src)) k a := cnt_pos_iff.2 ⟨i, s, ha, hs, hk⟩
  have key : s.nlink ≤ cnt (ps0.map (·.src)) k d ↔ ∀ j r, (ps0.map (·.src))[j]? = some (some r) → SameFile s r → j < d := by
    rw [← hall]
    constructor
    · intro hle j r hj hsame
      by_contra hjd
      have h1 := cnt_succ hj k
      rw [memb_some, (sameFile_iff hk).1 hsame] at h1
      have h2 : cnt (ps0.map (·.src)) k d ≤ cnt (ps0.map (·.src)) k j := cnt_mono (by omega)
      have h3 := cnt_le_total (ps0.map (·.src)) k (j + 1)
      simp only [if_true] at h1
      omega
    · intro h
      have hz : ((ps0.map (·.src)).drop d).countP (memb k) = 0 := by
        rw [List.countP_eq_zero]
        intro x hx hm
        obtain ⟨j, hj⟩ := List.mem_iff_getElem?.1 hx
        rw [List.getElem?_drop] at hj
        cases x with
        | none => simp [memb] at hm
        | some r =>
          have := h (d + j) r hj ((sameFile_iff hk).2 hm)
          omega
      have h2 : (ps0.map (·.src)).countP (memb k) = ((ps0.map (·.src)).take d).countP (memb k) + ((ps0.map (·.src)).drop d).countP (memb k) := by
        rw [← List.countP_append, List.take_append_drop]
      rw [cnt]
      omega
  rw [← key]
  constructor
  · intro h
    by_contra hlt
    exact (hb.2 ⟨hpos, by omega⟩) h
  · intro hle
    by_contra hne
    have := (hb.1 hne).2
    omega

/-! ### the links in the mirror -/

/-- the index of a pair -/
def idx (p : Pair I K D) : Option I := match p.src with
  | some s => some s.index
  | none => p.dest.map (·.index)

/-- Carrying out a decision. A file is known by its inode in the mirror: one which was there before (`inl`) or the one of the file created
for the pair at position `n` (`inr n`). -/
def step {J : Type} (n : Nat) (ino : I → Option (J ⊕ Nat)) (p : Pair I K D) (x : Decision I) : I → Option (J ⊕ Nat) :=
  match x, p.src, idx p with
  | .keep, _, _ => ino
  | .link j, some s, _ => set ino s.index (ino j)
  | .replace, some s, _ => set ino s.index (if s.reg then some (.inr n) else none)
  | _, none, some i => set ino i none
  | _, none, none => ino

/-- the inodes in the mirror when the first `n` decisions have been carried out -/
def mirror {J : Type} (ino0 : I → Option J) (ps : List (Pair I K D)) (out : List (Decision I)) : Nat → I → Option (J ⊕ Nat)
  | 0 => fun i => (ino0 i).map .inl
  | n + 1 => match ps[n]?, out[n]? with
    | some p, some x => step n (mirror ino0 ps out n) p x
    | _, _ => mirror ino0 ps out n

theorem mirror_other {J : Type} {ino0 : I → Option J} {ps : List (Pair I K D)} {out : List (Decision I)} {n : Nat} {i : I}
    (h : ∀ p, ps[n]? = some p → idx p ≠ some i) : mirror ino0 ps out (n + 1) i = mirror ino0 ps out n i := by
  rw [mirror]
  cases hp : ps[n]? with
  | none => rfl
  | some p =>
  cases hx : out[n]? with
  | none => rfl
  | some x =>
    have hne := h p hp
    obtain ⟨src, dest, same⟩ := p
    simp only
    cases src with
    | some s =>
      have hne : i ≠ s.index := by rintro rfl; exact hne rfl
      cases x <;> simp [step, set_ne _ _ hne]
    | none =>
      cases dest with
      | none => cases x <;> rfl
      | some r =>
        have hne : i ≠ r.index := by rintro rfl; exact hne rfl
        cases x <;> simp [step, idx, set_ne _ _ hne]

/-- What is assumed about the destination (the mirror at a backup, the target at a restore). -/
structure DestOk {J : Type} (ps : List (Pair I K D)) (ino0 : I → Option J) : Prop where
  /-- every path occurs in one pair -/
  index : ∀ (i j : Nat) p p', ps[i]? = some p → ps[j]? = some p' → idx p = idx p' → i = j
  pair : ∀ p s r, p ∈ ps → p.src = some s → p.dest = some r → s.index = r.index
  nlink : ∀ p s, p ∈ ps → p.src = some s → 1 ≤ s.nlink
  /-- the metadata say which files are linked -/
  inode : ∀ (i j : Nat) p p' r r', i ≠ j → ps[i]? = some p → ps[j]? = some p' → p.dest = some r → p'.dest = some r' → r.reg = true →
    r'.reg = true → (ino0 r.index = ino0 r'.index ↔ SameFile r r')
  /-- other files (directories) have other inodes -/
  other : ∀ p p' r r' k, p ∈ ps → p' ∈ ps → p.dest = some r → p'.dest = some r' → r.isMem k = true → r'.key = some k → r'.isMem k = true
  /-- files are compared including type and, if they have links, the inode (`compare_inode`, the default) -/
  compared : ∀ p s r, p ∈ ps → p.src = some s → p.dest = some r → p.same = true → s.reg = r.reg ∧ (s.reg = true → 2 ≤ s.nlink → r.key = s.key)
  /-- links of the same file have the same attributes -/
  alike : ∀ p p' s s' r r', p ∈ ps → p' ∈ ps → p.src = some s → p'.src = some s' → p.dest = some r → p'.dest = some r' →
    SameFile s s' → SameFile r r' → p.same = p'.same ∧ r.nlink = r'.nlink
  /-- the first link has a digest (findings F26) -/
  digest : ∀ k f s p r, First (ps.map (·.src)) k f s → ps[f]? = some p → p.dest = some r → r.sha1 ≠ none
  /-- not the case of finding F25 -/
  notAlone : ∀ k f s p r, First (ps.map (·.src)) k f s → ps[f]? = some p → p.dest = some r → r.nlink = 1 →
    ∀ p' s' r', p' ∈ ps → p'.src = some s' → p'.dest = some r' → SameFile s s' → p'.same = true → s'.nlink ≠ r'.nlink

/-- the decision to keep a file -/
theorem keep_at {J : Type} {ps0 ps : List (Pair I K D)} {ino0 : I → Option J} {a q d : Nat} {t : Tab I K D} {out : List (Decision I)}
    (hc : Consistent (ps0.map (·.src))) (hd : DestOk ps0 ino0) (hr : Run ps0 ps a q d t out) {i : Nat} {s : Rorp I K D}
    {p : Pair I K D} (hp : ps0[i]? = some p) (hs : p.src = some s) (hreg : s.reg = true) (hx : out[i]? = some .keep) :
    ∃ r, p.dest = some r ∧ p.same = true ∧ r.reg = true ∧ r.nlink = s.nlink ∧
      ∀ k, s.isMem k = true → r.key = some k ∧ ∃ f s', First (ps0.map (·.src)) k f s' ∧ out[f]? = some .keep := by
  obtain ⟨ps', a', d', t', t'', p', hi, hia, hp', hdec⟩ := (run_out hc hr).2 i _ hx
  have hsrc : p'.src = p.src := by
    have h1 := src_at hp'
    rw [hi.srcs, src_at hp] at h1
    exact (Option.some.inj h1).symm
  have hsame : p'.same = p.same := by
    have h1 : (ps'.map (·.same))[i]? = some p'.same := by rw [List.getElem?_map, hp']; rfl
    rw [hi.sames, List.getElem?_map, hp] at h1
    exact (Option.some.inj h1).symm
  have hsd := hi.dests i p' p hp' hp
  have nokeep : ∀ {u : Tab I K D} {y : Option (Rorp I K D)}, onChanged u y ≠ some .keep := by
    intro u y h
    simp only [onChanged] at h
    split at h
    · cases h
    · split at h
      · cases h
      · simp only [Option.map_eq_some_iff, reduceCtorEq, and_false, exists_false] at h
      · cases h
  have nokeep' : ∀ {u : Tab I K D} {y : Option (Rorp I K D)}, (onChanged u y).map (·, u) ≠ some (.keep, t'') := by
    intro u y h
    simp only [Option.map_eq_some_iff, Prod.mk.injEq] at h
    obtain ⟨z, hz, rfl, -⟩ := h
    exact nokeep hz
  cases hdst : p'.dest with
  | none =>
    have : decideOn t' p' = (onChanged t' p'.src).map (·, t') := by cases h : p'.src <;> simp [decideOn, hdst, h]
    rw [this] at hdec
    exact absurd hdec nokeep'
  | some r' =>
    -- the destination itself, up to the digest
    obtain ⟨r, hr0, hrr⟩ : ∃ r, p.dest = some r ∧ r.reg = r'.reg ∧ r.nlink = r'.nlink ∧ r.key = r'.key ∧ r.index = r'.index := by
      rw [hdst] at hsd
      rcases hsd with h | ⟨r, h, h1, h2⟩
      · exact ⟨r', h, rfl, rfl, rfl, rfl⟩
      · simp only [Option.some.injEq] at h2
        exact ⟨r, h1, by rw [h2], by rw [h2], by rw [h2], by rw [h2]⟩
    obtain ⟨hr1, hr2, hr3, hr4⟩ := hrr
    have hpm : p ∈ ps0 := mem_of_at hp
    simp only [decideOn, hsrc, hs, hdst] at hdec
    split at hdec
    · next hsm =>
      rw [hsame] at hsm
      obtain ⟨hc1, hc2⟩ := hd.compared p s r hpm hs hr0 hsm
      have hrreg : r.reg = true := by rw [← hc1, hreg]
      refine ⟨r, hr0, hsm, hrreg, ?_⟩
      split at hdec
      · simp at hdec
      · next t1 he =>
        have hat : (ps0.map (·.src))[i]? = some (some s) := by rw [src_at hp, hs]
        have hn1 := hd.nlink p s hpm hs
        simp only [rorpEq, hreg, ← hr1, hrreg, Bool.not_true, Bool.false_or] at he
        by_cases hone : s.nlink = 1
        · -- a single file
          refine ⟨?_, fun k hk => absurd (Rorp.isMem_iff.1 hk).2.1 (by omega)⟩
          split at he
          · next h => rw [decide_eq_true_eq] at h; rw [hr2]; omega
          · split at he
            · simp at he
            · split at he
              · simp at he
              · split at he
                · simp at he
                · next h => rw [hr2]; exact (Classical.not_not.1 h).symm
        · have hn2 : 2 ≤ s.nlink := by omega
          rw [if_neg (by rw [decide_eq_true_eq]; omega)] at he
          split at he
          · simp at he
          · split at he
            · simp at he
            · split at he
              · simp at he
              · next hnl =>
                have hnl : s.nlink = r'.nlink := Classical.not_not.1 hnl
                refine ⟨by omega, fun k hk => ?_⟩
                obtain ⟨-, -, hkey⟩ := Rorp.isMem_iff.1 hk
                have hrk : r.key = some k := by rw [hc2 hreg hn2, hkey]
                refine ⟨hrk, ?_⟩
                obtain ⟨f, s', e, hf, hfs, hte, hidx, pf', dk, hpf', hdk, hed⟩ := entry_at hc hi hi.le.1 hia hat hk
                refine ⟨f, s', hfs, ?_⟩
                obtain ⟨hfl, -⟩ := List.getElem?_eq_some_iff.1 hfs.1
                simp only [List.length_map] at hfl
                have hpf := List.getElem?_eq_getElem hfl
                have hpfs : ps0[f].src = some s' := by
                  have := hfs.1
                  rw [src_at hpf] at this
                  exact Option.some.inj this
                have hfsd := hi.dests f pf' ps0[f] hpf' hpf
                have hdk0 : destKey ps0[f].dest = some dk := by rw [hfsd.destKey, hdk]
                -- the first one isn't alone
                have hnotna : dk ≠ .na := by
                  rintro rfl
                  cases hd0 : ps0[f].dest with
                  | none => rw [hd0] at hdk0; simp [destKey] at hdk0
                  | some rf =>
                    rw [hd0, destKey] at hdk0
                    have h1 : rf.nlink = 1 := by
                      by_contra hne
                      rw [if_neg hne] at hdk0
                      simp at hdk0
                    exact hd.notAlone k f s' ps0[f] rf hfs hpf hd0 h1 p s r hpm hs hr0 ((sameFile_iff hfs.2.1).2 hk) hsm (by omega)
                have hed' : e.dest = dk := by
                  rcases hed with h | h
                  · exact h.1
                  · exact absurd h.1 hnotna
                rw [hkey] at he
                simp only [hte] at he
                rw [if_neg (by rw [hed']; exact hnotna), ← hr3, hrk] at he
                simp only [Option.some.injEq, Prod.mk.injEq, decide_eq_true_eq] at he
                -- the destination of the first one is linked with that of this one
                have hdkk : dk = .key k := by rw [← hed', he.1]
                by_cases hfi : f = i
                · subst hfi; exact hx
                · -- the decision about the first one
                  have hlen := (run_out hc hr).1
                  have hil : i < out.length := (List.getElem?_eq_some_iff.1 hx).1
                  have hxf := List.getElem?_eq_getElem (l := out) (i := f) (by omega)
                  obtain ⟨psf, af, df, tf, tf', pf, hif, hfaf, hpff, hdecf⟩ := (run_out hc hr).2 f _ hxf
                  have hsrcf : pf.src = some s' := by
                    have h1 := src_at hpff
                    rw [hif.srcs, hfs.1] at h1
                    exact (Option.some.inj h1).symm
                  have hsamef : pf.same = ps0[f].same := by
                    have h1 : (psf.map (·.same))[f]? = some pf.same := by rw [List.getElem?_map, hpff]; rfl
                    rw [hif.sames, List.getElem?_map, hpf] at h1
                    exact (Option.some.inj h1).symm
                  cases hd0 : ps0[f].dest with
                  | none => rw [hd0, hdkk] at hdk0; simp [destKey] at hdk0
                  | some rf =>
                    rw [hd0, hdkk, destKey] at hdk0
                    have hrf1 : rf.nlink ≠ 1 := by
                      intro h1
                      rw [if_pos h1] at hdk0
                      simp at hdk0
                    rw [if_neg hrf1] at hdk0
                    have hrfk : rf.key = some k := by
                      simp only [Option.map_eq_some_iff, DestKey.key.injEq] at hdk0
                      obtain ⟨k', h1, rfl⟩ := hdk0
                      exact h1
                    have hpfm : ps0[f] ∈ ps0 := mem_of_at hpf
                    obtain ⟨hs1, hs2, hs3⟩ := Rorp.isMem_iff.1 hfs.2.1
                    have hrm : r.isMem k = true := Rorp.isMem_iff.2 ⟨hrreg, by omega, hrk⟩
                    have hrfm := hd.other p ps0[f] r rf k hpm hpfm hr0 hd0 hrm hrfk
                    obtain ⟨hal1, hal2⟩ := hd.alike p ps0[f] s s' r rf hpm hpfm hs hpfs hr0 hd0 ((sameFile_iff hk).2 hfs.2.1)
                      ((sameFile_iff hrm).2 hrfm)
                    have hnn := hc.nlink s s' k (mem_of_at hat) (mem_of_at hfs.1) hk hfs.2.1
                    have hsha := hd.digest k f s' ps0[f] rf hfs hpf hd0
                    obtain ⟨rf', hrf', h1, h2, h3, h4⟩ : ∃ rf', pf.dest = some rf' ∧ rf'.reg = rf.reg ∧ rf'.nlink = rf.nlink ∧
                        rf'.key = rf.key ∧ rf'.sha1 ≠ none := by
                      have hsdf := hif.dests f pf ps0[f] hpff hpf
                      rw [hd0] at hsdf
                      rcases hsdf with h | ⟨x, h, h1, h2⟩
                      · exact ⟨rf, h.symm, rfl, rfl, rfl, hsha⟩
                      · simp only [Option.some.injEq] at h1
                        subst h1
                        exact ⟨_, h2, rfl, rfl, rfl, by simp⟩
                    have hlk : isLinked tf s' = some false := by
                      rcases isLinked_at hc hif hif.le.1 hfaf hfs.1 with h | ⟨k', f', s'', hk', hlt', hfs', -⟩
                      · exact h.2
                      · have := (isMem_key hfs.2.1).1 hk'
                        subst this
                        have := (hfs'.unique hfs).1
                        omega
                    obtain ⟨f2, s2, e2, hf2, hfs2, hte2, -, pf2, dk2, hpf2, hdk2, hed2⟩ := entry_at hc hif hif.le.1 hfaf hfs.1 hfs.2.1
                    obtain ⟨rfl, rfl⟩ := hfs2.unique hfs
                    have hdk2' : dk2 = .key k := by
                      rw [hpff] at hpf2
                      simp only [Option.some.injEq] at hpf2
                      subst hpf2
                      rw [hrf', destKey, h2, if_neg hrf1, h3, hrfk] at hdk2
                      simpa using hdk2.symm
                    have hed2' : e2.dest = .key k := by
                      rcases hed2 with h | h
                      · rw [h.1, hdk2']
                      · rw [hdk2'] at h; cases h.1
                    have heqf : rorpEq tf s2 rf' = some (true, tf) := by
                      obtain ⟨hm1, hm2, -⟩ := Rorp.isMem_iff.1 hrfm
                      simp only [rorpEq, hs1, h1, hm1, Bool.not_true, Bool.false_or, hlk]
                      rw [if_neg (by rw [decide_eq_true_eq]; omega)]
                      have : rf'.sha1.isNone = false := by cases h : rf'.sha1 <;> simp_all
                      simp only [this, Bool.and_false, Bool.false_eq_true, if_false, hs3, hte2, h3, hrfk]
                      rw [if_neg (by rw [h2]; omega), if_neg (by rw [hed2']; simp)]
                      simp [hed2']
                    have hsmf : pf.same = true := by rw [hsamef, ← hal1, hsm]
                    simp only [decideOn, hsrcf, hrf', hsmf, if_true, heqf, Option.some.injEq, Prod.mk.injEq] at hdecf
                    rw [hxf, ← hdecf.1]
      · exact absurd hdec nokeep'
    · exact absurd hdec nokeep'

theorem mirror_before {J : Type} {ps0 : List (Pair I K D)} {ino0 : I → Option J} (hd : DestOk ps0 ino0) {out : List (Decision I)}
    {i : Nat} {p : Pair I K D} (hp : ps0[i]? = some p) {j : I} (hj : idx p = some j) {n : Nat} (hn : n ≤ i) :
    mirror ino0 ps0 out n j = (ino0 j).map .inl := by
  induction n with
  | zero => rfl
  | succ n ih =>
    rw [mirror_other, ih (by omega)]
    intro p' hp' he
    have := hd.index n i p' p hp' hp (he.trans hj.symm)
    omega

theorem mirror_after {J : Type} {ps0 : List (Pair I K D)} {ino0 : I → Option J} (hd : DestOk ps0 ino0) {out : List (Decision I)}
    {i : Nat} {p : Pair I K D} (hp : ps0[i]? = some p) {j : I} (hj : idx p = some j) {n : Nat} (hn : i < n) :
    mirror ino0 ps0 out n j = mirror ino0 ps0 out (i + 1) j := by
  induction n with
  | zero => omega
  | succ n ih =>
    by_cases hni : n = i
    · rw [hni]
    · rw [mirror_other, ih (by omega)]
      intro p' hp' he
      exact hni (hd.index n i p' p hp' hp (he.trans hj.symm))

/-- C31, the result: after a backup (or restore) two files are links of the same file in the mirror (or target) exactly if they are so in the
source. Partial: under the assumptions of `DestOk`, among them that we are not in the cases of findings F25 and F26, and for files which
don't change meanwhile. -/
theorem links_as_in_source_partial {J : Type} {ps0 ps : List (Pair I K D)} {ino0 : I → Option J} {a d : Nat} {t : Tab I K D} {out : List (Decision I)}
    (hc : Consistent (ps0.map (·.src))) (hd : DestOk ps0 ino0) (hr : Run ps0 ps a ps0.length d t out) {i j : Nat} (hij : i ≠ j)
    {s s' : Rorp I K D} (hs : (ps0.map (·.src))[i]? = some (some s)) (hs' : (ps0.map (·.src))[j]? = some (some s'))
    (hreg : s.reg = true) (hreg' : s'.reg = true) :
    mirror ino0 ps0 out ps0.length s.index = mirror ino0 ps0 out ps0.length s'.index ↔ SameFile s s' := by
  have hlen := (run_out hc hr).1
  -- the first link of a file, or the file itself
  have get : ∀ {i : Nat} {s : Rorp I K D}, (ps0.map (·.src))[i]? = some (some s) → ∃ p x, ps0[i]? = some p ∧ p.src = some s ∧
      idx p = some s.index ∧ out[i]? = some x ∧ i < ps0.length := by
    intro i s h
    obtain ⟨hl, h1⟩ := List.getElem?_eq_some_iff.1 h
    simp only [List.length_map, List.getElem_map] at hl h1
    exact ⟨ps0[i], out[i], List.getElem?_eq_getElem hl, h1, by simp [idx, h1], List.getElem?_eq_getElem _, hl⟩
  -- the final inode of a file which isn't made a link
  have final : ∀ {i : Nat} {s : Rorp I K D}, (ps0.map (·.src))[i]? = some (some s) → s.reg = true →
      (out[i]? = some .keep → mirror ino0 ps0 out ps0.length s.index = (ino0 s.index).map .inl) ∧
      (out[i]? = some .replace → mirror ino0 ps0 out ps0.length s.index = some (.inr i)) ∧
      (∀ j f s', out[i]? = some (.link j) → (ps0.map (·.src))[f]? = some (some s') → f < i → s'.index = j →
        mirror ino0 ps0 out ps0.length s.index = mirror ino0 ps0 out ps0.length s'.index) := by
    intro i s h hreg
    obtain ⟨p, x, hp, hps, hidx, hx, hl⟩ := get h
    rw [mirror_after hd hp hidx hl]
    refine ⟨fun hk => ?_, fun hk => ?_, fun j f s' hk hs' hf hj => ?_⟩
    · simp only [mirror, hp, hk, step]
      exact mirror_before hd hp hidx (Nat.le_refl _)
    · simp only [mirror, hp, hk, step, hps, hreg, if_true]
      exact set_self _ _ _
    · obtain ⟨p', x', hp', hps', hidx', hx', hl'⟩ := get hs'
      simp only [mirror, hp, hk, step, hps]
      rw [set_self, ← hj, mirror_after hd hp' hidx' hf, mirror_after hd hp' hidx' hl']
  -- the root of a file: itself, or the first link
  have root : ∀ {i : Nat} {s : Rorp I K D}, (ps0.map (·.src))[i]? = some (some s) → s.reg = true →
      ∃ f r x, (ps0.map (·.src))[f]? = some (some r) ∧ r.reg = true ∧ out[f]? = some x ∧ (x = .keep ∨ x = .replace) ∧
        mirror ino0 ps0 out ps0.length s.index = mirror ino0 ps0 out ps0.length r.index ∧
        ((f = i ∧ ∀ k, s.isMem k = false) ∨ ∃ k, s.isMem k = true ∧ First (ps0.map (·.src)) k f r) := by
    intro i s h hreg
    obtain ⟨p, x, hp, hps, hidx, hx, hl⟩ := get h
    by_cases hm : ∃ k, s.isMem k = true
    · obtain ⟨k, hk⟩ := hm
      obtain ⟨f, r, hf, hfs⟩ := exists_first (cnt_pos_iff.2 ⟨i, s, Nat.lt_succ_self i, h, hk⟩)
      obtain ⟨pf, xf, hpf, hpfs, hidxf, hxf, hlf⟩ := get hfs.1
      have hrr := (Rorp.isMem_iff.1 hfs.2.1).1
      have hxf2 : xf = .keep ∨ xf = .replace := by
        rcases decision_at hc hr hxf with ⟨h1, -⟩ | ⟨r', hr', h1 | ⟨-, h1⟩ | ⟨k', f', r'', h1, h2, h3, -⟩⟩
        · exact .inr h1
        · exact .inl h1
        · exact .inr h1
        · rw [hfs.1] at hr'
          simp only [Option.some.injEq] at hr'
          subst hr'
          have := (isMem_key hfs.2.1).1 h1
          subst this
          have := (h3.unique hfs).1
          omega
      refine ⟨f, r, xf, hfs.1, hrr, hxf, hxf2, ?_, .inr ⟨k, hk, hfs⟩⟩
      by_cases hfi : f = i
      · subst hfi
        have := hfs.1
        rw [h] at this
        simp only [Option.some.injEq] at this
        rw [this]
      · rcases decision_at hc hr hx with ⟨-, h1⟩ | ⟨s1, hs1, h1 | ⟨h1, -⟩ | ⟨k', f', r', h1, h2, h3, h4⟩⟩
        · rw [h] at h1; cases h1
        · -- kept: then the first one is kept, and they were linked
          subst h1
          obtain ⟨d1, hd1, hsm, hdr, hdn, hkk⟩ := keep_at hc hd hr hp hps hreg hx
          obtain ⟨hk1, f', r', hfs', hkeep⟩ := hkk k hk
          obtain ⟨rfl, rfl⟩ := hfs'.unique hfs
          obtain ⟨d2, hd2, hsm2, hdr2, hdn2, hkk2⟩ := keep_at hc hd hr hpf hpfs hrr hkeep
          obtain ⟨hk2, -⟩ := hkk2 k hfs.2.1
          rw [(final h hreg).1 hx, (final hfs.1 hrr).1 hkeep]
          have h5 := hd.pair p s d1 (mem_of_at hp) hps hd1
          have h6 := hd.pair pf r' d2 (mem_of_at hpf) hpfs hd2
          have h7 := (hd.inode i f' p pf d1 d2 (Ne.symm hfi) hp hpf hd1 hd2 hdr hdr2).2
            ⟨k, hdr, by have := (Rorp.isMem_iff.1 hk).2.1; omega, hk1, hdr2, by have := (Rorp.isMem_iff.1 hfs.2.1).2.1; omega, hk2⟩
          rw [h5, h6, h7]
        · rw [h] at hs1
          simp only [Option.some.injEq] at hs1
          subst hs1
          exact absurd ((sameFile_iff hk).2 hfs.2.1) (h1 f (by omega) r hfs.1)
        · rw [h] at hs1
          simp only [Option.some.injEq] at hs1
          subst hs1
          have := (isMem_key hk).1 h1
          subst this
          obtain ⟨rfl, rfl⟩ := h3.unique hfs
          rw [h4] at hx
          exact (final h hreg).2.2 _ f' r' hx hfs.1 h2 rfl
    · refine ⟨i, s, x, h, hreg, hx, ?_, rfl, .inl ⟨rfl, fun k => ?_⟩⟩
      · rcases decision_at hc hr hx with ⟨h1, -⟩ | ⟨s1, hs1, h1 | ⟨-, h1⟩ | ⟨k', f', r', h1, -⟩⟩
        · exact .inr h1
        · exact .inl h1
        · exact .inr h1
        · rw [h] at hs1
          simp only [Option.some.injEq] at hs1
          subst hs1
          exact absurd ⟨k', h1⟩ hm
      · rw [Bool.eq_false_iff]; exact fun hk => hm ⟨k, hk⟩
  obtain ⟨f, r, x, hf, hfr, hx, hxx, he, hcase⟩ := root hs hreg
  obtain ⟨f', r', x', hf', hfr', hx', hxx', he', hcase'⟩ := root hs' hreg'
  rw [he, he']
  constructor
  · intro heq
    have hff : f = f' := by
      by_contra hne
      obtain ⟨p, _, hp, hps, hidx, -, -⟩ := get hf
      obtain ⟨p', _, hp', hps', hidx', -, -⟩ := get hf'
      rcases hxx with rfl | rfl
      · rw [(final hf hfr).1 hx] at heq
        rcases hxx' with rfl | rfl
        · rw [(final hf' hfr').1 hx'] at heq
          obtain ⟨d1, hd1, hsm, hdr, hdn, hkk⟩ := keep_at hc hd hr hp hps hfr hx
          obtain ⟨d2, hd2, hsm2, hdr2, hdn2, hkk2⟩ := keep_at hc hd hr hp' hps' hfr' hx'
          have heq : ino0 r.index = ino0 r'.index := by
            cases h1 : ino0 r.index <;> cases h2 : ino0 r'.index <;> rw [h1, h2] at heq <;> simp at heq <;> try rfl
            exact congrArg some heq
          rw [hd.pair p r d1 (mem_of_at hp) hps hd1, hd.pair p' r' d2 (mem_of_at hp') hps' hd2,
            hd.inode f f' p p' d1 d2 hne hp hp' hd1 hd2 hdr hdr2] at heq
          obtain ⟨k, -, h2, h3, -, h5, h6⟩ := heq
          obtain ⟨c1, hc1⟩ : ∃ c, r.key = some c := Option.ne_none_iff_exists'.1 (hc.haskey r (mem_of_at hf) (by omega))
          obtain ⟨c2, hc2⟩ : ∃ c, r'.key = some c := Option.ne_none_iff_exists'.1 (hc.haskey r' (mem_of_at hf') (by omega))
          have hm1 : r.isMem c1 = true := Rorp.isMem_iff.2 ⟨hfr, by omega, hc1⟩
          have hm2 : r'.isMem c2 = true := Rorp.isMem_iff.2 ⟨hfr', by omega, hc2⟩
          have e1 := (hkk c1 hm1).1
          have e2 := (hkk2 c2 hm2).1
          rw [h3] at e1; rw [h6] at e2
          cases e1; cases e2
          -- both are first
          have first : ∀ {i f : Nat} {s r : Rorp I K D}, (ps0.map (·.src))[i]? = some (some s) → (ps0.map (·.src))[f]? = some (some r) →
              r.isMem k = true → ((f = i ∧ ∀ k, s.isMem k = false) ∨ ∃ k, s.isMem k = true ∧ First (ps0.map (·.src)) k f r) →
              First (ps0.map (·.src)) k f r := by
            intro i f s r hs hf hm h
            rcases h with ⟨rfl, h⟩ | ⟨k', h1, h2⟩
            · rw [hs] at hf
              simp only [Option.some.injEq] at hf
              subst hf
              rw [h k] at hm; cases hm
            · have := (isMem_key h2.2.1).1 hm
              subst this
              exact h2
          exact hne ((first hs hf hm1 hcase).unique (first hs' hf' hm2 hcase')).1
        · rw [(final hf' hfr').2.1 hx'] at heq
          cases h1 : ino0 r.index <;> rw [h1] at heq <;> simp at heq
      · rw [(final hf hfr).2.1 hx] at heq
        rcases hxx' with rfl | rfl
        · rw [(final hf' hfr').1 hx'] at heq
          cases h1 : ino0 r'.index <;> rw [h1] at heq <;> simp at heq
        · rw [(final hf' hfr').2.1 hx'] at heq
          simp at heq
          exact hne heq
    subst hff
    have hrr : r = r' := by
      rw [hf] at hf'
      simpa using hf'
    subst hrr
    rcases hcase with ⟨rfl, h⟩ | ⟨k, h1, h2⟩
    · rcases hcase' with ⟨rfl, -⟩ | ⟨k, h1, h2⟩
      · exact absurd rfl hij
      · rw [hs] at hf
        simp only [Option.some.injEq] at hf
        subst hf
        have := h2.2.1
        rw [h k] at this; cases this
    · rcases hcase' with ⟨rfl, h⟩ | ⟨k', h1', h2'⟩
      · rw [hs'] at hf
        simp only [Option.some.injEq] at hf
        subst hf
        have := h2.2.1
        rw [h k] at this; cases this
      · have := (isMem_key h2.2.1).1 h2'.2.1
        subst this
        exact (sameFile_iff h1).2 h1'
  · intro hsame
    obtain ⟨k, h1, h2, h3, h4, h5, h6⟩ := hsame
    have hm : s.isMem k = true := Rorp.isMem_iff.2 ⟨h1, h2, h3⟩
    have hm' : s'.isMem k = true := Rorp.isMem_iff.2 ⟨h4, h5, h6⟩
    rcases hcase with ⟨rfl, h⟩ | ⟨k1, hk1, hf1⟩
    · rw [h k] at hm; cases hm
    · rcases hcase' with ⟨rfl, h⟩ | ⟨k2, hk2, hf2⟩
      · rw [h k] at hm'; cases hm'
      · have e1 := (isMem_key hm).1 hk1
        have e2 := (isMem_key hm').1 hk2
        subst e1; subst e2
        rw [(hf1.unique hf2).2]

/-- No exception is raised on the way: a decision can be made about every file which has been added. -/
theorem no_keyerror {ps0 ps : List (Pair I K D)} {a q d : Nat} {t : Tab I K D} {out : List (Decision I)} (hc : Consistent (ps0.map (·.src)))
    (hnl : ∀ s, some s ∈ ps0.map (·.src) → 1 ≤ s.nlink) (hr : Run ps0 ps a q d t out) (hq : q < a) {p : Pair I K D} (hp : ps[q]? = some p) :
    ∃ x t', decideOn t p = some (x, t') := by
  have hi := run_inv hc hr
  have hch : ∀ {u : Tab I K D} {s : Rorp I K D}, RInv ps0 ps a q d u → p.src = some s → ∃ x, onChanged u (some s) = some x := by
    intro u s hu hs
    have hat : (ps0.map (·.src))[q]? = some (some s) := by rw [← hi.srcs, src_at hp, hs]
    rcases isLinked_at hc hu hu.le.1 hq hat with ⟨-, h⟩ | ⟨k, f, s', -, -, -, h1, h2⟩
    · exact ⟨.replace, by simp only [onChanged, h]⟩
    · exact ⟨.link s'.index, by simp only [onChanged, h1, h2, Option.map_some]⟩
  cases hs : p.src with
  | none => exact ⟨.replace, t, by simp [decideOn, hs, onChanged]⟩
  | some s =>
    have hat : (ps0.map (·.src))[q]? = some (some s) := by rw [← hi.srcs, src_at hp, hs]
    obtain ⟨y, hy⟩ := hch hi hs
    cases hd : p.dest with
    | none => exact ⟨y, t, by simp [decideOn, hs, hd, hy]⟩
    | some r =>
      by_cases hsm : p.same = true
      · have heq : ∃ b t', rorpEq t s r = some (b, t') := by
          simp only [rorpEq]
          split
          · exact ⟨_, _, rfl⟩
          · next hb =>
            simp only [Bool.or_eq_true, Bool.not_eq_true', decide_eq_true_eq, not_or, Bool.not_eq_false] at hb
            obtain ⟨⟨hb1, hb2⟩, hb3⟩ := hb
            have hl : ∃ b, isLinked t s = some b := by
              rcases isLinked_at hc hi hi.le.1 hq hat with ⟨-, h⟩ | ⟨k, f, s', -, -, -, h1, h2⟩
              exacts [⟨_, h⟩, ⟨_, h1⟩]
            obtain ⟨b, hb⟩ := hl
            simp only [hb]
            split
            · exact ⟨_, _, rfl⟩
            · split
              · exact ⟨_, _, rfl⟩
              · next hn =>
                have hn : s.nlink = r.nlink := Classical.not_not.1 hn
                have h1 := hnl s (mem_of_at hat)
                have h2 : 2 ≤ s.nlink := by omega
                obtain ⟨k, hk⟩ := Option.ne_none_iff_exists'.1 (hc.haskey s (mem_of_at hat) h2)
                obtain ⟨f, s', e, -, -, he, -⟩ := entry_at hc hi hi.le.1 hq hat (Rorp.isMem_iff.2 ⟨hb1, h2, hk⟩)
                simp only [hk, he]
                split
                · exact ⟨_, _, rfl⟩
                · split <;> exact ⟨_, _, rfl⟩
        obtain ⟨b, t', heq⟩ := heq
        cases b with
        | true => exact ⟨.keep, t', by simp [decideOn, hs, hd, hsm, heq]⟩
        | false =>
          obtain ⟨y', hy'⟩ := hch (rinv_rorpEq hi heq) hs
          exact ⟨y', t', by simp [decideOn, hs, hd, hsm, heq, hy']⟩
      · exact ⟨y, t, by simp [decideOn, hs, hd, hsm, hy]⟩

/-! ### digests -/

/-- `get_hash` asked for one file after the other (verification, comparison) -/
def hashes (t : Tab I K D) : List (Rorp I K D) → Option (List (Option D) × Tab I K D)
  | [] => some ([], t)
  | r :: rs =>
    match getHash t r with
    | none => none
    | some (h, t') => (hashes t' rs).map fun x => (h :: x.1, x.2)

def alone (r : Rorp I K D) : Pair I K D := ⟨some r, none, false⟩

theorem alone_src (rs : List (Rorp I K D)) : (rs.map alone).map (·.src) = rs.map some := by
  simp [alone]

/-- the links of a regular file before position `i`, and at it -/
theorem getHash_run {rs : List (Rorp I K D)} (hc : Consistent (rs.map some)) {ps : List (Pair I K D)} {n : Nat} {t : Tab I K D} {out : List (Decision I)}
    (hr : Run (rs.map alone) ps n n n t out) (hps : ps = rs.map alone) {r : Rorp I K D} (hn : rs[n]? = some r) :
    ∃ h t' out', getHash t r = some (h, t') ∧ Run (rs.map alone) ps (n + 1) (n + 1) (n + 1) t' out' ∧
      ((∀ f, f < n → ∀ r', rs[f]? = some r' → ¬ SameFile r r') → h = r.sha1) ∧
      (∀ f r', f < n → rs[f]? = some r' → SameFile r r' → (∀ g r'', g < f → rs[g]? = some r'' → ¬ SameFile r r'') → h = r'.sha1) := by
  have hc' : Consistent ((rs.map alone).map (·.src)) := by rw [alone_src]; exact hc
  have hat : ps[n]? = some (alone r) := by rw [hps, List.getElem?_map, hn]; rfl
  have hmem : some r ∈ rs.map some := List.mem_map.2 ⟨r, mem_of_at hn, rfl⟩
  have hadd : ∃ t1, add t r none = some (t1, none) := by
    simp only [add]
    split
    · exact ⟨_, rfl⟩
    · next hb =>
      simp only [Bool.or_eq_true, Bool.not_eq_true', decide_eq_true_eq, not_or, Bool.not_eq_false, Nat.not_lt] at hb
      obtain ⟨k, hk⟩ := Option.ne_none_iff_exists'.1 (hc.haskey r hmem hb.2)
      simp only [hk]
      split <;> exact ⟨_, rfl⟩
  obtain ⟨t1, hadd⟩ := hadd
  have hset : ps.set n { alone r with dest := none } = ps := by
    apply List.ext_getElem?
    intro i
    rw [List.getElem?_set]
    split
    · next h => subst h; rw [hat, if_pos (List.getElem?_eq_some_iff.1 hat).1]; rfl
    · rfl
  have hr1 : Run (rs.map alone) ps (n + 1) n n t1 out := by
    have := Run.add (dest' := none) hr hat (s := r) rfl hadd
    rwa [hset] at this
  have hi := run_inv hc' hr1
  have hsat : ((rs.map alone).map (·.src))[n]? = some (some r) := by rw [alone_src, List.getElem?_map, hn]; rfl
  have hsrc : ∀ (f : Nat) (r' : Rorp I K D), ((rs.map alone).map (·.src))[f]? = some (some r') ↔ rs[f]? = some r' := by
    intro f r'
    rw [alone_src, List.getElem?_map]
    cases rs[f]? <;> simp
  obtain ⟨x, t2, hdec⟩ : ∃ x, ∃ t2, decideOn t1 (alone r) = some (x, t2) := by
    rcases isLinked_at hc' hi hi.le.1 (Nat.lt_succ_self n) hsat with ⟨-, h⟩ | ⟨k, f, s', -, -, -, h1, h2⟩
    · exact ⟨.replace, t1, by simp [decideOn, alone, onChanged, h]⟩
    · exact ⟨.link s'.index, t1, by simp [decideOn, alone, onChanged, h1, h2]⟩
  have ht2 : t2 = t1 := by
    simp only [decideOn, alone, Option.map_eq_some_iff, Prod.mk.injEq] at hdec
    obtain ⟨_, -, -, h⟩ := hdec
    exact h.symm
  subst ht2
  have hr2 := Run.decide hr1 hat (Nat.lt_succ_self n) hdec
  have hdel : ∃ t3, del t2 r = some t3 := by
    simp only [del]
    split
    · exact ⟨_, rfl⟩
    · next hb =>
      simp only [Bool.or_eq_true, Bool.not_eq_true', decide_eq_true_eq, not_or, Bool.not_eq_false, Nat.not_lt] at hb
      obtain ⟨k, hk⟩ := Option.ne_none_iff_exists'.1 (hc.haskey r hmem hb.2)
      simp only [hk]
      split
      · exact ⟨_, rfl⟩
      · split <;> exact ⟨_, rfl⟩
  obtain ⟨t3, hdel⟩ := hdel
  have hr3 := Run.del hr2 hat (Nat.lt_succ_self n) (s := r) rfl hdel
  rcases isLinked_at hc' hi hi.le.1 (Nat.lt_succ_self n) hsat with ⟨h1, h2⟩ | ⟨k, f, s', hk, hf, hfs, h1, h2⟩
  · refine ⟨r.sha1, t3, _, by simp [getHash, hadd, h2, hdel], hr3, fun _ => rfl, fun f r' hf hr' hsame => ?_⟩
    exact absurd hsame (h1 f hf r' ((hsrc f r').2 hr'))
  · obtain ⟨f2, s2, e, hf2, hfs2, he, -, p2, dk, hp2, hdk, hed⟩ := entry_at hc' hi hi.le.1 (Nat.lt_succ_self n) hsat hk
    obtain ⟨rfl, rfl⟩ := hfs2.unique hfs
    have hdig : e.digest = s2.sha1 := by
      have : p2.dest = none := by
        rw [hps, List.getElem?_map, Option.map_eq_some_iff] at hp2
        obtain ⟨x, -, rfl⟩ := hp2
        rfl
      rw [this] at hdk
      cases hdk
      rcases hed with h | h
      · exact h.2
      · cases h.1
    have hget : getSha1 t2 r = some s2.sha1 := by simp [getSha1, (Rorp.isMem_iff.1 hk).2.2, he, hdig]
    refine ⟨s2.sha1, t3, _, by simp [getHash, hadd, h1, hget, hdel], hr3, fun hno => ?_, fun g r' hg hr' hsame hfirst => ?_⟩
    · exact absurd ((sameFile_iff hk).2 hfs.2.1) (hno f2 hf s2 ((hsrc f2 s2).1 hfs.1))
    · have hz : cnt ((rs.map alone).map (·.src)) k g = 0 := by
        by_contra hpos
        obtain ⟨g', r'', hg', hr'', hm⟩ := cnt_pos_iff.1 (Nat.pos_of_ne_zero hpos)
        exact hfirst g' r'' hg' ((hsrc g' r'').1 hr'') ((sameFile_iff hk).2 hm)
      obtain ⟨-, rfl⟩ := hfs.unique ⟨(hsrc g r').2 hr', (sameFile_iff hk).1 hsame, hz⟩
      rfl

/-- The digest found for a file is its own one or, if it is a link, the one of the first of its links. -/
theorem hashes_of_first {rs : List (Rorp I K D)} (hc : Consistent (rs.map some)) :
    ∃ hs t, hashes empty rs = some (hs, t) ∧ hs.length = rs.length ∧ ∀ (i : Nat) r h, rs[i]? = some r → hs[i]? = some h →
      ((∀ f, f < i → ∀ r', rs[f]? = some r' → ¬ SameFile r r') → h = r.sha1) ∧
      (∀ f r', f < i → rs[f]? = some r' → SameFile r r' → (∀ g r'', g < f → rs[g]? = some r'' → ¬ SameFile r r'') → h = r'.sha1) := by
  have go : ∀ m n t out, n + m = rs.length → Run (rs.map alone) (rs.map alone) n n n t out →
      ∃ hs t', hashes t (rs.drop n) = some (hs, t') ∧ hs.length = m ∧ ∀ (i : Nat) r h, n ≤ i → rs[i]? = some r → hs[i - n]? = some h →
        ((∀ f, f < i → ∀ r', rs[f]? = some r' → ¬ SameFile r r') → h = r.sha1) ∧
        (∀ f r', f < i → rs[f]? = some r' → SameFile r r' → (∀ g r'', g < f → rs[g]? = some r'' → ¬ SameFile r r'') → h = r'.sha1) := by
    intro m
    induction m with
    | zero =>
      intro n t out hn hr
      rw [List.drop_eq_nil_of_le (by omega)]
      exact ⟨[], t, rfl, rfl, fun i r h _ _ hh => by simp at hh⟩
    | succ m ih =>
      intro n t out hn hr
      have hlt : n < rs.length := by omega
      have hat := List.getElem?_eq_getElem hlt
      obtain ⟨h, t', out', hg, hr', h1, h2⟩ := getHash_run hc hr rfl hat
      obtain ⟨hs, t'', hh, hl, hall⟩ := ih (n + 1) t' out' (by omega) hr'
      refine ⟨h :: hs, t'', ?_, by simp [hl], fun i r h' hni hri hhi => ?_⟩
      · rw [List.drop_eq_getElem_cons hlt, hashes, hg]
        simp [hh]
      · by_cases hin : i = n
        · subst hin
          simp only [Nat.sub_self, List.getElem?_cons_zero, Option.some.injEq] at hhi
          subst hhi
          rw [hat] at hri
          simp only [Option.some.injEq] at hri
          subst hri
          exact ⟨h1, h2⟩
        · refine hall i r h' (by omega) hri ?_
          rw [show i - n = (i - (n + 1)) + 1 by omega, List.getElem?_cons_succ] at hhi
          exact hhi
  obtain ⟨hs, t, h1, h2, h3⟩ := go rs.length 0 empty [] (by simp) .init
  rw [List.drop_zero] at h1
  exact ⟨hs, t, h1, h2, fun i r h hr hh => h3 i r h (Nat.zero_le _) hr hh⟩

/-! ### digests of files which are gone -/

/-- the `add_old_rorp` calls for the files `rs` which are in the mirror and no longer in the source -/
def addOlds (t : Tab I K D) : List (Rorp I K D) → Option (Tab I K D)
  | [] => some t
  | r :: rs => (addOld t r).bind (addOlds · rs)

theorem addOlds_old {t t' : Tab I K D} {rs : List (Rorp I K D)} (h : addOlds t rs = some t') (k : K) :
    t'.tab = t.tab ∧ t'.old k = (t.old k).or ((rs.find? fun r => r.sha1.isSome && r.isMem k).bind (·.sha1)) := by
  induction rs generalizing t with
  | nil => cases h; simp
  | cons r rs ih =>
    obtain ⟨u, h1, h2⟩ := Option.bind_eq_some_iff.1 h
    obtain ⟨i1, i2⟩ := ih h2
    have : u.tab = t.tab ∧ u.old k = (t.old k).or (if r.sha1.isSome && r.isMem k then r.sha1 else none) := by
      simp only [addOld] at h1
      split at h1
      · rename_i hs; cases h1; simp [hs]
      · rename_i x hs
        split at h1
        · rename_i hr; cases h1; refine ⟨rfl, ?_⟩
          have : r.isMem k = false := by
            cases hm : r.isMem k with
            | false => rfl
            | true =>
              obtain ⟨a, b, _⟩ := Rorp.isMem_iff.1 hm
              simp [a] at hr
              omega
          simp [this]
        · rename_i hr
          split at h1
          · cases h1
          · rename_i k' hk
            have hm : r.isMem k = decide (k' = k) := by
              simp [Rorp.isMem, hk] at hr ⊢
              intro h; subst h; exact ⟨hr.1, hr.2⟩
            split at h1
            · rename_i y hy; cases h1; refine ⟨rfl, ?_⟩
              rw [hm, hs]
              by_cases hkk : k' = k
              · subst hkk; simp [hy]
              · simp [hkk]
            · rename_i hy; cases h1; refine ⟨rfl, ?_⟩
              rw [hm, hs]
              by_cases hkk : k' = k
              · subst hkk; simp [hy, Hardlinks.set]
              · simp [hkk, Hardlinks.set, Ne.symm hkk]
    rw [i1, i2, this.1, this.2, List.find?_cons]
    refine ⟨rfl, ?_⟩
    cases hc : (r.sha1.isSome && r.isMem k) with
    | true => cases t.old k <;> simp; simp at hc; cases hs : r.sha1 <;> simp_all
    | false => simp

/-- If the members of the mirror's group seen first are gone from the source, the digest recorded with the first of them (for it alone has got one)
is handed on to the first member still there, which is therefore not taken for changed. -/
theorem old_digest_handed_on {rs : List (Rorp I K D)} {t : Tab I K D} (h : addOlds empty rs = some t) {s d : Rorp I K D} {k dk : K} {h0 : D}
    (hs : s.isMem k = true) (hd : d.isMem dk = true) (hn : d.sha1 = none)
    (hf : (rs.find? fun r => r.sha1.isSome && r.isMem dk).bind (·.sha1) = some h0) :
    ∃ t', add t s (some d) = some (t', some { d with sha1 := some h0 }) ∧ t'.old dk = none := by
  obtain ⟨h1, h2⟩ := addOlds_old h dk
  rw [hf] at h2
  have h2 : t.old dk = some h0 := h2
  have h3 : t.tab k = none := by rw [h1]; rfl
  obtain ⟨a, b, c⟩ := Rorp.isMem_iff.1 hs
  obtain ⟨a', b', c'⟩ := Rorp.isMem_iff.1 hd
  refine ⟨⟨Hardlinks.set t.tab k (some ⟨s.index, s.nlink, .key dk, s.sha1⟩), Hardlinks.set t.old dk none⟩, ?_, by simp [Hardlinks.set]⟩
  have e1 : (!s.reg || decide (s.nlink < 2)) = false := by simp [a]; omega
  have e2 : ¬ d.nlink = 1 := by omega
  simp only [add, e1, c, h3, e2, c', hn, h2, Bool.false_eq_true, if_false]

/-! ### examples -/


/-- files processed one at a time, as at a restore -/
def sim (ps0 : List (Pair I K D)) : Nat → Option (List (Pair I K D) × Tab I K D × List (Decision I))
  | 0 => some (ps0, empty, [])
  | n + 1 => do
    let (ps, t, out) ← sim ps0 n
    let p ← ps[n]?
    match p.src with
    | some s =>
      let (t, dest) ← add t s p.dest
      let (x, t) ← decideOn t { p with dest := dest }
      let t ← del t s
      some (ps.set n { p with dest := dest }, t, out ++ [x])
    | none =>
      let (x, t) ← decideOn t p
      some (ps, t, out ++ [x])

theorem sim_run {ps0 : List (Pair I K D)} {n : Nat} {ps : List (Pair I K D)} {t : Tab I K D} {out : List (Decision I)}
    (h : sim ps0 n = some (ps, t, out)) : Run ps0 ps n n n t out := by
  induction n generalizing ps t out with
  | zero =>
    simp only [sim, Option.some.injEq, Prod.mk.injEq] at h
    obtain ⟨rfl, rfl, rfl⟩ := h
    exact .init
  | succ n ih =>
    simp only [sim, Option.bind_eq_bind, Option.bind_eq_some_iff, Prod.exists] at h
    obtain ⟨ps1, t1, out1, h1, p, hp, h2⟩ := h
    have hr := ih h1
    split at h2
    · next s hs =>
      simp only [Option.bind_eq_some_iff, Prod.exists, Option.some.injEq, Prod.mk.injEq] at h2
      obtain ⟨t2, dest, ha, x, t3, hd, t4, hdel, rfl, rfl, rfl⟩ := h2
      have hl := (List.getElem?_eq_some_iff.1 hp).1
      have hat : (ps1.set n { p with dest := dest })[n]? = some { p with dest := dest } := by simp [hl]
      exact .del (.decide (.add hr hp hs ha) hat (Nat.lt_succ_self n) hd) hat (Nat.lt_succ_self n) hs hdel
    · next hs =>
      simp only [Option.bind_eq_some_iff, Prod.exists, Option.some.injEq, Prod.mk.injEq] at h2
      obtain ⟨x, t3, hd, rfl, rfl, rfl⟩ := h2
      exact .skip (.decide (.pass hr hp hs) hp (Nat.lt_succ_self n) hd) hp (Nat.lt_succ_self n) hs

/-- a regular file: index, number of links, inode, digest -/
def file (i n k : Nat) (h : Option Nat := none) : Rorp Nat Nat Nat := ⟨i, true, n, some k, h⟩

example : (addOlds empty [file 1 3 7 (some 5), file 2 3 7]).bind (fun t => (add t (file 3 1 8) (some (file 3 3 7))).map (·.2)) =
    some (some (file 3 3 7)) := by decide +kernel
example : (addOlds empty [file 1 3 7 (some 5), file 2 3 7]).bind (fun t => (add t (file 3 2 8) (some (file 3 3 7))).map (·.2)) =
    some (some (file 3 3 7 (some 5))) := by decide +kernel

/-- three links of inode 7 (files 1, 3, 4), a single file 2; in the mirror 1 and 4 are linked and 3 is another file -/
def ex : List (Pair Nat Nat Nat) :=
  [⟨some (file 1 3 7), some (file 1 3 7 (some 5)), true⟩, ⟨some (file 2 1 8), none, false⟩,
   ⟨some (file 3 3 7), some (file 3 1 9 (some 6)), false⟩, ⟨some (file 4 3 7), some (file 4 3 7), true⟩]

theorem ex_out : (sim ex 4).map (·.2.2) = some [.keep, .replace, .link 1, .keep] := by decide +kernel

theorem ex_consistent : Consistent (ex.map (·.src)) := by
  have hl : ∀ {P : Option (Rorp Nat Nat Nat) → Prop} {x}, x ∈ ex.map (·.src) → (∀ y ∈ ex.map (·.src), P y) → P x := fun hx h => h _ hx
  refine ⟨?_, ?_, ?_, ?_, ?_⟩
  · intro s hs hn hk
    simp only [ex, List.map_cons, List.map_nil, List.mem_cons, List.not_mem_nil, or_false, Option.some.injEq] at hs
    rcases hs with rfl | rfl | rfl | rfl <;> simp [file] at hk
  · intro s s' k hs hs' h h'
    simp only [ex, List.map_cons, List.map_nil, List.mem_cons, List.not_mem_nil, or_false, Option.some.injEq] at hs hs'
    rcases hs with rfl | rfl | rfl | rfl <;> rcases hs' with rfl | rfl | rfl | rfl <;> simp [file, Rorp.isMem] at h h' ⊢
  · intro s k hs h
    simp only [ex, List.map_cons, List.map_nil, List.mem_cons, List.not_mem_nil, or_false, Option.some.injEq] at hs
    rcases hs with rfl | rfl | rfl | rfl <;> simp [file, Rorp.isMem] at h <;> subst h <;> decide
  · intro s s' k hs hs' h h'
    simp only [ex, List.map_cons, List.map_nil, List.mem_cons, List.not_mem_nil, or_false, Option.some.injEq] at hs hs'
    rcases hs with rfl | rfl | rfl | rfl <;> rcases hs' with rfl | rfl | rfl | rfl <;> simp [file, Rorp.isMem] at h h' ⊢ <;> omega
  · intro i j s s' hi hj he
    have h1 := (List.getElem?_eq_some_iff.1 hi).1
    have h2 := (List.getElem?_eq_some_iff.1 hj).1
    simp only [ex, List.map_cons, List.map_nil, List.length_cons, List.length_nil] at h1 h2
    interval_cases i <;> interval_cases j <;> simp [ex, file] at hi hj <;> subst hi <;> subst hj <;> first | rfl | (exact absurd he (by decide))

/-- the inodes of the mirror in the example: 1 and 4 are linked -/
def exIno : Nat → Option Nat := fun i => if i = 1 ∨ i = 4 then some 0 else if i = 3 then some 1 else none

theorem first_ex {k f : Nat} {s : Rorp Nat Nat Nat} (h : First (ex.map (·.src)) k f s) : f = 0 := by
  obtain ⟨h1, h2, h3⟩ := h
  have hk : k = 7 := by
    have := mem_of_at h1
    simp only [ex, List.map_cons, List.map_nil, List.mem_cons, List.not_mem_nil, or_false, Option.some.injEq] at this
    rcases this with rfl | rfl | rfl | rfl <;> simp [file, Rorp.isMem] at h2 <;> omega
  subst hk
  have h0 : First (ex.map (·.src)) 7 0 (file 1 3 7) := by refine ⟨rfl, by decide, by decide⟩
  exact (First.unique ⟨h1, h2, h3⟩ h0).1

theorem ex_destOk : DestOk ex exIno := by
  have mem : ∀ {p}, p ∈ ex → p = ⟨some (file 1 3 7), some (file 1 3 7 (some 5)), true⟩ ∨ p = ⟨some (file 2 1 8), none, false⟩ ∨
      p = ⟨some (file 3 3 7), some (file 3 1 9 (some 6)), false⟩ ∨ p = ⟨some (file 4 3 7), some (file 4 3 7), true⟩ := by
    intro p hp
    simpa [ex] using hp
  refine ⟨?_, ?_, ?_, ?_, ?_, ?_, ?_, ?_, ?_⟩
  · intro i j p p' hi hj he
    have h1 := (List.getElem?_eq_some_iff.1 hi).1
    have h2 := (List.getElem?_eq_some_iff.1 hj).1
    simp only [ex, List.length_cons, List.length_nil] at h1 h2
    interval_cases i <;> interval_cases j <;> simp [ex, file] at hi hj <;> subst hi <;> subst hj <;> first | rfl | (exact absurd he (by decide))
  · intro p s r hp hs hr
    rcases mem hp with rfl | rfl | rfl | rfl <;> simp at hs hr <;> subst hs <;> subst hr <;> rfl
  · intro p s hp hs
    rcases mem hp with rfl | rfl | rfl | rfl <;> simp at hs <;> subst hs <;> decide
  · intro i j p p' r r' hij hi hj hr hr' hreg hreg'
    have h1 := (List.getElem?_eq_some_iff.1 hi).1
    have h2 := (List.getElem?_eq_some_iff.1 hj).1
    simp only [ex, List.length_cons, List.length_nil] at h1 h2
    interval_cases i <;> interval_cases j <;> first | exact absurd rfl hij | skip
    all_goals
      simp [ex] at hi hj
      subst hi; subst hj
      simp at hr hr'
      try (subst hr; subst hr')
      try simp [SameFile, file, exIno]
  · intro p p' r r' k hp hp' hr hr' hm hk
    rcases mem hp with rfl | rfl | rfl | rfl <;> rcases mem hp' with rfl | rfl | rfl | rfl <;> simp at hr hr' <;> subst hr <;> subst hr' <;>
      simp [file, Rorp.isMem] at hm hk ⊢ <;> omega
  · intro p s r hp hs hr hsm
    rcases mem hp with rfl | rfl | rfl | rfl <;> simp at hs hr hsm <;> subst hs <;> subst hr <;> simp [file]
  · intro p p' s s' r r' hp hp' hs hs' hr hr' hsf hdf
    rcases mem hp with rfl | rfl | rfl | rfl <;> rcases mem hp' with rfl | rfl | rfl | rfl <;> simp at hs hs' hr hr' <;> subst hs <;> subst hs' <;>
      subst hr <;> subst hr' <;> simp [SameFile, file] at hdf ⊢
  · intro k f s p r hf hp hr
    rw [first_ex hf] at hp
    simp [ex] at hp
    subst hp
    simp at hr
    subst hr
    simp [file]
  · intro k f s p r hf hp hr hn
    rw [first_ex hf] at hp
    simp [ex] at hp
    subst hp
    simp at hr
    subst hr
    simp [file] at hn

/-- the inodes of files 1, 2, 3, 4 at the end -/
example : (sim ex 4).map (fun x => [1, 2, 3, 4].map (mirror exIno ex x.2.2 4)) = some [some (.inl 0), some (.inr 1), some (.inl 0), some (.inl 0)] := by
  decide +kernel

/-- Finding F25: in the mirror file 1 is a single file, file 2 is linked with another one; in the source 1 is now linked with 2. File 2 is
kept as it is, although 1 is replaced: `dest_key` is still "NA", which is meant for the first file. -/
theorem not_linked_na : ∃ ps : List (Pair Nat Nat Nat), ∃ out, (sim ps 2).map (·.2.2) = some out ∧ out = [.replace, .keep] ∧
    ps.map (·.src) = [some (file 1 2 7), some (file 2 2 7)] ∧ SameFile (file 1 2 7) (file 2 2 7) ∧
    mirror (fun i => some i) ps out 2 1 ≠ mirror (fun i => some i) ps out 2 2 :=
  ⟨[⟨some (file 1 2 7), some ⟨1, true, 1, none, some 5⟩, false⟩, ⟨some (file 2 2 7), some (file 2 2 7 (some 5)), true⟩], _,
    by decide +kernel, rfl, rfl, ⟨7, by decide⟩, by decide +kernel⟩

/-- Finding F26: two linked files whose metadata have no digest: the first is replaced, the second is kept, and they are no longer linked. -/
theorem not_linked_digest : ∃ ps : List (Pair Nat Nat Nat), ∃ out, (sim ps 2).map (·.2.2) = some out ∧ out = [.replace, .keep] ∧
    ps.map (·.src) = [some (file 1 2 7), some (file 2 2 7)] ∧ ps.map (·.dest) = [some (file 1 2 7), some (file 2 2 7)] ∧
    mirror (fun _ => some 0) ps out 2 1 ≠ mirror (fun _ => some 0) ps out 2 2 :=
  ⟨[⟨some (file 1 2 7), some (file 1 2 7), true⟩, ⟨some (file 2 2 7), some (file 2 2 7), true⟩], _,
    by decide +kernel, rfl, rfl, rfl, by decide +kernel⟩

example : (hashes empty [file 1 2 7 (some 5), file 2 1 8 (some 6), file 3 2 7]).map (·.1) = some [some 5, some 6, some 5] := by decide +kernel

end Verif.C31
