import Mathlib.Order.MinMax
import Verif.Model.Hardlinks
/-
The table of hard links during a backup or restore: what it contains is determined by how many files have been added and removed.
-/
set_option linter.unusedSectionVars false
namespace Verif.Hardlinks
variable {I K D : Type} [DecidableEq I] [DecidableEq K] [DecidableEq D]

/-- the file is a regular file with several links, with inode `k` -/
def Rorp.isMem (k : K) (r : Rorp I K D) : Bool := r.reg && decide (2 ≤ r.nlink) && decide (r.key = some k)

theorem Rorp.isMem_iff {k : K} {r : Rorp I K D} : r.isMem k = true ↔ r.reg = true ∧ 2 ≤ r.nlink ∧ r.key = some k := by
  simp [Rorp.isMem, and_assoc]

/-- the source of the pair is a link of the inode `k` -/
def memb (k : K) (s : Option (Rorp I K D)) : Bool := s.any (Rorp.isMem k)

/-- how many of the first `m` sources are links of `k` -/
def cnt (ss : List (Option (Rorp I K D))) (k : K) (m : Nat) : Nat := (ss.take m).countP (memb k)

theorem cnt_zero (ss : List (Option (Rorp I K D))) (k : K) : cnt ss k 0 = 0 := by simp [cnt]

theorem cnt_succ {ss : List (Option (Rorp I K D))} {m : Nat} {s : Option (Rorp I K D)} (h : ss[m]? = some s) (k : K) :
    cnt ss k (m + 1) = cnt ss k m + if memb k s then 1 else 0 := by
  obtain ⟨hm, rfl⟩ := List.getElem?_eq_some_iff.1 h
  rw [cnt, cnt, List.take_add_one, h, List.countP_append]
  simp only [Option.toList_some, List.countP_cons, List.countP_nil, Nat.zero_add]

theorem cnt_mono {ss : List (Option (Rorp I K D))} {k : K} {m n : Nat} (h : m ≤ n) : cnt ss k m ≤ cnt ss k n := by
  refine List.Sublist.countP_le ?_
  rw [show ss.take m = (ss.take n).take m by rw [List.take_take, Nat.min_eq_left h]]
  exact List.take_sublist _ _

theorem cnt_le_total (ss : List (Option (Rorp I K D))) (k : K) (m : Nat) : cnt ss k m ≤ ss.countP (memb k) :=
  List.Sublist.countP_le (List.take_sublist _ _)

theorem cnt_pos_iff {ss : List (Option (Rorp I K D))} {k : K} {m : Nat} :
    0 < cnt ss k m ↔ ∃ i s, i < m ∧ ss[i]? = some (some s) ∧ s.isMem k = true := by
  rw [cnt, List.countP_pos_iff]
  constructor
  · rintro ⟨s, hs, hm⟩
    obtain ⟨i, hi⟩ := List.mem_iff_getElem?.1 hs
    rw [List.getElem?_take] at hi
    split at hi
    · cases s with
      | none => simp [memb] at hm
      | some s => exact ⟨i, s, ‹_›, hi, by simpa [memb] using hm⟩
    · simp at hi
  · rintro ⟨i, s, him, hi, hm⟩
    refine ⟨some s, List.mem_iff_getElem?.2 ⟨i, ?_⟩, by simpa [memb] using hm⟩
    rw [List.getElem?_take, if_pos him, hi]

/-- The sources are what a directory contains while nothing changes in it. -/
structure Consistent (ss : List (Option (Rorp I K D))) : Prop where
  /-- files with several links have an inode -/
  haskey : ∀ s, some s ∈ ss → 2 ≤ s.nlink → s.key ≠ none
  /-- links of the same inode have the same number of links -/
  nlink : ∀ s s' k, some s ∈ ss → some s' ∈ ss → s.isMem k = true → s'.isMem k = true → s.nlink = s'.nlink
  /-- there are not more of them than this number -/
  count : ∀ s k, some s ∈ ss → s.isMem k = true → ss.countP (memb k) ≤ s.nlink
  /-- other files (directories) have other inodes -/
  other : ∀ s s' k, some s ∈ ss → some s' ∈ ss → s.isMem k = true → s'.key = some k → s'.isMem k = true
  /-- every file occurs once -/
  nodup : ∀ (i j : Nat) s s', ss[i]? = some (some s) → ss[j]? = some (some s') → s.index = s'.index → i = j

/-- position `f` is the first one with a link of `k`, and `s` this file -/
def First (ss : List (Option (Rorp I K D))) (k : K) (f : Nat) (s : Rorp I K D) : Prop :=
  ss[f]? = some (some s) ∧ s.isMem k = true ∧ cnt ss k f = 0

theorem First.unique {ss : List (Option (Rorp I K D))} {k : K} {f f' : Nat} {s s' : Rorp I K D} (h : First ss k f s) (h' : First ss k f' s') :
    f = f' ∧ s = s' := by
  have hlt : ∀ {f f' : Nat} {s s' : Rorp I K D}, First ss k f s → First ss k f' s' → ¬ f < f' := by
    intro f f' s s' h h' hlt
    have := cnt_pos_iff.2 ⟨f, s, hlt, h.1, h.2.1⟩
    rw [h'.2.2] at this
    exact absurd this (lt_irrefl _)
  have : f = f' := Nat.le_antisymm (Nat.not_lt.1 (hlt h' h)) (Nat.not_lt.1 (hlt h h'))
  subst this
  refine ⟨rfl, ?_⟩
  have := h.1.symm.trans h'.1
  simpa using this

theorem exists_first {ss : List (Option (Rorp I K D))} {k : K} {m : Nat} (h : 0 < cnt ss k m) : ∃ f s, f < m ∧ First ss k f s := by
  induction m with
  | zero => simp [cnt_zero] at h
  | succ m ih =>
    by_cases hm : 0 < cnt ss k m
    · obtain ⟨f, s, hf, h⟩ := ih hm
      exact ⟨f, s, by omega, h⟩
    · obtain ⟨i, s, hi, hs, hk⟩ := cnt_pos_iff.1 h
      have : i = m := by
        by_contra hne
        exact hm (cnt_pos_iff.2 ⟨i, s, by omega, hs, hk⟩)
      subst this
      exact ⟨i, s, by omega, hs, hk, by omega⟩

/-- the value of `dest_key` set for this file -/
def destKey : Option (Rorp I K D) → Option (DestKey K)
  | none => some .missing
  | some d => if d.nlink = 1 then some .na else d.key.map .key

/-- what the table contains when `a` files have been added and `d` removed -/
def TabInv (ps : List (Pair I K D)) (a d : Nat) (t : Tab I K D) : Prop :=
  ∀ k, (cnt (ps.map (·.src)) k a = 0 → t.tab k = none) ∧
    ∀ f s, f < a → First (ps.map (·.src)) k f s →
      (s.nlink ≤ cnt (ps.map (·.src)) k d → t.tab k = none) ∧
      (cnt (ps.map (·.src)) k d < s.nlink → ∃ e, t.tab k = some e ∧ e.index = s.index ∧ e.remaining = s.nlink - cnt (ps.map (·.src)) k d ∧
        ∃ p dk, ps[f]? = some p ∧ destKey p.dest = some dk ∧ ((e.dest = dk ∧ e.digest = s.sha1) ∨ (dk = .na ∧ e.dest = .missing)))

/-- pairs up to digests of the destination -/
def SameDest (d d' : Option (Rorp I K D)) : Prop :=
  d = d' ∨ ∃ r h, d = some r ∧ d' = some { r with sha1 := some h }

theorem SameDest.destKey {d d' : Option (Rorp I K D)} (h : SameDest d d') : destKey d = destKey d' := by
  rcases h with rfl | ⟨r, h, rfl, rfl⟩ <;> rfl

theorem not_isMem {s : Rorp I K D} (h : (!s.reg || decide (s.nlink < 2)) = true) (k : K) : s.isMem k = false := by
  rw [Bool.eq_false_iff]
  intro hm
  obtain ⟨h1, h2, -⟩ := Rorp.isMem_iff.1 hm
  simp only [h1, Bool.not_true, Bool.false_or, decide_eq_true_eq] at h
  omega

theorem memb_some (k : K) (s : Rorp I K D) : memb k (some s) = s.isMem k := rfl

theorem add_sameDest {t t' : Tab I K D} {r : Rorp I K D} {d d' : Option (Rorp I K D)} (h : add t r d = some (t', d')) : SameDest d d' := by
  simp only [add] at h
  repeat' (split at h)
  all_goals simp only [Option.some.injEq, Prod.mk.injEq, reduceCtorEq] at h
  all_goals obtain ⟨-, rfl⟩ := h
  all_goals first | exact .inl rfl | exact .inr ⟨_, _, rfl, rfl⟩

/-- what `add` does to the table -/
theorem add_tab {t t' : Tab I K D} {r : Rorp I K D} {d d' : Option (Rorp I K D)} (h : add t r d = some (t', d')) :
    ((!r.reg || decide (r.nlink < 2)) = true ∧ t'.tab = t.tab) ∨
    ∃ k, r.isMem k = true ∧ ((t.tab k ≠ none ∧ t'.tab = t.tab) ∨
      (t.tab k = none ∧ ∃ dk, destKey d = some dk ∧ t'.tab = set t.tab k (some ⟨r.index, r.nlink, dk, r.sha1⟩))) := by
  simp only [add] at h
  split at h
  · next hb => left; simp only [Option.some.injEq, Prod.mk.injEq] at h; exact ⟨hb, by rw [← h.1]⟩
  · next hb =>
    right
    have hreg : r.reg = true ∧ 2 ≤ r.nlink := by
      simp only [Bool.or_eq_true, Bool.not_eq_true', decide_eq_true_eq, not_or, Bool.not_eq_false, Nat.not_lt] at hb
      exact hb
    split at h
    · simp at h
    · next k hk =>
      refine ⟨k, Rorp.isMem_iff.2 ⟨hreg.1, hreg.2, hk⟩, ?_⟩
      split at h
      · next hs => left; simp only [Option.some.injEq, Prod.mk.injEq] at h; exact ⟨by simp [hs], by rw [← h.1]⟩
      · next hs =>
        right
        refine ⟨hs, ?_⟩
        split at h
        · simp only [Option.some.injEq, Prod.mk.injEq] at h
          exact ⟨.missing, rfl, by rw [← h.1]⟩
        · split at h
          · next h1 =>
            simp only [Option.some.injEq, Prod.mk.injEq] at h
            exact ⟨.na, by simp [destKey, h1], by rw [← h.1]⟩
          · next h1 =>
            split at h
            · simp at h
            · next dk hdk =>
              refine ⟨.key dk, by simp [destKey, h1, hdk], ?_⟩
              split at h <;> (simp only [Option.some.injEq, Prod.mk.injEq] at h; rw [← h.1])

theorem addOld_tab {t t' : Tab I K D} {r : Rorp I K D} (h : addOld t r = some t') : t'.tab = t.tab := by
  simp only [addOld] at h
  repeat' (split at h)
  all_goals first | (simp only [Option.some.injEq] at h; rw [← h]) | simp at h

theorem del_tab {t t' : Tab I K D} {r : Rorp I K D} (h : del t r = some t') :
    ((!r.reg || decide (r.nlink < 2)) = true ∧ t'.tab = t.tab) ∨
    ∃ k, r.isMem k = true ∧ ((t.tab k = none ∧ t'.tab = t.tab) ∨
      ∃ e, t.tab k = some e ∧ ((e.remaining = 1 ∧ t'.tab = set t.tab k none) ∨
        (e.remaining ≠ 1 ∧ t'.tab = set t.tab k (some { e with remaining := e.remaining - 1 })))) := by
  simp only [del] at h
  split at h
  · next hb => left; simp only [Option.some.injEq] at h; exact ⟨hb, by rw [← h]⟩
  · next hb =>
    right
    have hreg : r.reg = true ∧ 2 ≤ r.nlink := by
      simp only [Bool.or_eq_true, Bool.not_eq_true', decide_eq_true_eq, not_or, Bool.not_eq_false, Nat.not_lt] at hb
      exact hb
    split at h
    · simp at h
    · next k hk =>
      refine ⟨k, Rorp.isMem_iff.2 ⟨hreg.1, hreg.2, hk⟩, ?_⟩
      split at h
      · next hs => left; simp only [Option.some.injEq] at h; exact ⟨hs, by rw [← h]⟩
      · next e hs =>
        right
        refine ⟨e, hs, ?_⟩
        split at h
        · next h1 => left; simp only [Option.some.injEq] at h; exact ⟨h1, by rw [← h]⟩
        · next h1 => right; simp only [Option.some.injEq] at h; exact ⟨h1, by rw [← h]⟩

theorem rorpEq_tab {t t' : Tab I K D} {s d : Rorp I K D} {b : Bool} (h : rorpEq t s d = some (b, t')) :
    t' = t ∨ ∃ k e, s.key = some k ∧ t.tab k = some e ∧ e.dest = .na ∧ t'.tab = set t.tab k (some { e with dest := .missing, digest := none }) := by
  simp only [rorpEq] at h
  split at h
  · simp only [Option.some.injEq, Prod.mk.injEq] at h; exact .inl h.2.symm
  · split at h
    · simp at h
    · split at h
      · simp only [Option.some.injEq, Prod.mk.injEq] at h; exact .inl h.2.symm
      · split at h
        · simp only [Option.some.injEq, Prod.mk.injEq] at h; exact .inl h.2.symm
        · split at h
          · simp at h
          · next k hk =>
            split at h
            · simp at h
            · next e he =>
              split at h
              · next hna =>
                simp only [Option.some.injEq, Prod.mk.injEq] at h
                exact .inr ⟨k, e, hk, he, hna, by rw [← h.2]⟩
              · split at h <;> (simp only [Option.some.injEq, Prod.mk.injEq] at h; exact .inl h.2.symm)

theorem decideOn_tab {t t' : Tab I K D} {p : Pair I K D} {x : Decision I} (h : decideOn t p = some (x, t')) :
    t' = t ∨ ∃ k e, t.tab k = some e ∧ e.dest = .na ∧ t'.tab = set t.tab k (some { e with dest := .missing, digest := none }) := by
  have ch : ∀ {u : Tab I K D}, (onChanged u p.src).map (·, u) = some (x, t') → t' = u := by
    intro u h
    simp only [Option.map_eq_some_iff, Prod.mk.injEq] at h
    obtain ⟨_, -, -, h⟩ := h
    exact h.symm
  simp only [decideOn] at h
  split at h
  · next s d hs hd =>
    split at h
    · split at h
      · simp at h
      · next t1 he =>
        simp only [Option.some.injEq, Prod.mk.injEq] at h
        obtain ⟨-, rfl⟩ := h
        rcases rorpEq_tab he with h | ⟨k, e, -, h⟩
        exacts [.inl h, .inr ⟨k, e, h⟩]
      · next t1 he =>
        rw [ch h]
        rcases rorpEq_tab he with h | ⟨k, e, -, h⟩
        exacts [.inl h, .inr ⟨k, e, h⟩]
    · exact .inl (ch h)
  · exact .inl (ch h)

/-- the invariant of `Run` -/
structure RInv (ps0 ps : List (Pair I K D)) (a q d : Nat) (t : Tab I K D) : Prop where
  srcs : ps.map (·.src) = ps0.map (·.src)
  sames : ps.map (·.same) = ps0.map (·.same)
  dests : ∀ (i : Nat) (p p0 : Pair I K D), ps[i]? = some p → ps0[i]? = some p0 → SameDest p0.dest p.dest
  untouched : ∀ i, a ≤ i → ps[i]? = ps0[i]?
  le : d ≤ q ∧ q ≤ a ∧ a ≤ ps.length
  tab : TabInv ps a d t

theorem src_at {ps : List (Pair I K D)} {i : Nat} {p : Pair I K D} (h : ps[i]? = some p) : (ps.map (·.src))[i]? = some p.src := by
  rw [List.getElem?_map, h]; rfl

theorem mem_of_at {α : Type} {l : List α} {i : Nat} {x : α} (h : l[i]? = some x) : x ∈ l := List.mem_of_getElem? h

theorem set_self {V : Type} (f : K → Option V) (k : K) (v : Option V) : set f k v k = v := by simp [set]
theorem set_ne {V : Type} (f : K → Option V) {k k' : K} (v : Option V) (h : k' ≠ k) : set f k v k' = f k' := by simp [set, h]

/-- the invariant only looks at sources and keys of destinations -/
theorem TabInv.congr {ps ps' : List (Pair I K D)} {a d : Nat} {t t' : Tab I K D} (hs : ps'.map (·.src) = ps.map (·.src))
    (hd : ∀ (i : Nat) (p p' : Pair I K D), ps[i]? = some p → ps'[i]? = some p' → destKey p'.dest = destKey p.dest) (ht : t'.tab = t.tab) (h : TabInv ps a d t) :
    TabInv ps' a d t' := by
  intro k
  obtain ⟨h1, h2⟩ := h k
  rw [hs, ht]
  refine ⟨h1, fun f s hf hfs => ⟨(h2 f s hf hfs).1, fun hc => ?_⟩⟩
  obtain ⟨e, he, h3, h4, p, dk, hp, hdk, h5⟩ := (h2 f s hf hfs).2 hc
  refine ⟨e, he, h3, h4, ?_⟩
  have hlen : ps'.length = ps.length := by have := congrArg List.length hs; simpa using this
  obtain ⟨hfl, -⟩ := List.getElem?_eq_some_iff.1 hp
  refine ⟨ps'[f], dk, List.getElem?_eq_getElem (by omega), ?_, h5⟩
  rw [hd f p ps'[f] hp (List.getElem?_eq_getElem (by omega)), hdk]

theorem isMem_key {s : Rorp I K D} {k k' : K} (h : s.isMem k = true) : s.isMem k' = true ↔ k' = k := by
  rw [Rorp.isMem_iff] at h ⊢
  constructor
  · rintro ⟨-, -, h'⟩; rw [h.2.2] at h'; exact (Option.some.inj h').symm
  · rintro rfl; exact h

/-- advancing the count of added files by a file which is not the first of its inode -/
theorem TabInv.add_other {ps : List (Pair I K D)} {a d : Nat} {t : Tab I K D} {p : Pair I K D} (hp : ps[a]? = some p)
    (hnf : ∀ k s, p.src = some s → s.isMem k = true → 0 < cnt (ps.map (·.src)) k a) (h : TabInv ps a d t) : TabInv ps (a + 1) d t := by
  intro k
  obtain ⟨h1, h2⟩ := h k
  have hc := cnt_succ (src_at hp) k
  have hz : cnt (ps.map (·.src)) k a = 0 → memb k p.src = false := by
    intro hz
    rw [Bool.eq_false_iff]
    intro hm
    cases hs : p.src with
    | none => rw [hs] at hm; simp [memb] at hm
    | some s => rw [hs] at hm; exact absurd (hnf k s hs hm) (by omega)
  refine ⟨fun hz' => h1 (by omega), fun f s hf hfs => ?_⟩
  by_cases hfa : f < a
  · exact h2 f s hfa hfs
  · have : f = a := by omega
    subst this
    have h3 := hz hfs.2.2
    have h4 := src_at hp
    rw [hfs.1] at h4
    simp only [Option.some.injEq] at h4
    rw [← h4, memb_some, hfs.2.1] at h3
    cases h3

theorem run_inv {ps0 ps : List (Pair I K D)} {a q d : Nat} {t : Tab I K D} {out : List (Decision I)} (hc : Consistent (ps0.map (·.src)))
    (hr : Run ps0 ps a q d t out) : RInv ps0 ps a q d t := by
  induction hr with
  | init =>
    refine ⟨rfl, rfl, ?_, fun _ _ => rfl, ⟨Nat.le_refl _, Nat.le_refl _, Nat.zero_le _⟩, ?_⟩
    · intro i p p0 h1 h2; rw [h1] at h2; cases h2; exact .inl rfl
    · intro k
      refine ⟨fun _ => rfl, fun f s hf => absurd hf (by omega)⟩
  | @add ps a q d t out s dest' t' p hrun hp hs hadd ih =>
    have hsd := add_sameDest hadd
    obtain ⟨hlt, hpe⟩ := List.getElem?_eq_some_iff.1 hp
    have hsrc : (ps.set a { p with dest := dest' }).map (·.src) = ps.map (·.src) := by
      rw [List.map_set]
      apply List.ext_getElem? ; intro i
      rw [List.getElem?_set]
      split
      · next h => subst h; simp [hlt, hpe]
      · rfl
    have hget : ∀ (i : Nat) (x x' : Pair I K D), ps[i]? = some x → (ps.set a { p with dest := dest' })[i]? = some x' →
        x' = x ∨ (i = a ∧ x = p ∧ x' = { p with dest := dest' }) := by
      intro i x x' h1 h2
      rw [List.getElem?_set] at h2
      split at h2
      · next h =>
        subst h
        rw [hp] at h1
        simp only [Option.some.injEq] at h1 h2
        exact .inr ⟨rfl, h1.symm, h2.symm⟩
      · rw [h1] at h2
        simp only [Option.some.injEq] at h2
        exact .inl h2.symm
    have hdk : ∀ (i : Nat) (x x' : Pair I K D), ps[i]? = some x → (ps.set a { p with dest := dest' })[i]? = some x' → destKey x'.dest = destKey x.dest := by
      intro i x x' h1 h2
      rcases hget i x x' h1 h2 with rfl | ⟨rfl, rfl, rfl⟩
      · rfl
      · exact hsd.destKey.symm
    refine ⟨hsrc.trans ih.srcs, ?_, ?_, ?_, ⟨ih.le.1, by have := ih.le; omega, by rw [List.length_set]; omega⟩, ?_⟩
    · rw [← ih.sames, List.map_set]
      apply List.ext_getElem? ; intro i
      rw [List.getElem?_set]
      split
      · next h => subst h; simp [hlt, hpe]
      · rfl
    · intro i x p0 h1 h2
      have hi : i < ps.length := by have := (List.getElem?_eq_some_iff.1 h1).1; simpa using this
      rcases hget i _ x (List.getElem?_eq_getElem hi) h1 with rfl | ⟨rfl, h3, rfl⟩
      · exact ih.dests i _ p0 (List.getElem?_eq_getElem hi) h2
      · have := ih.untouched i (Nat.le_refl _)
        rw [hp, h2] at this
        simp only [Option.some.injEq] at this
        rw [← this]
        exact hsd
    · intro i hi
      rw [List.getElem?_set, if_neg (by omega)]
      exact ih.untouched i (by omega)
    · apply TabInv.congr hsrc hdk (t := t') rfl
      rcases add_tab hadd with ⟨hb, ht⟩ | ⟨k, hk, ⟨hne, ht⟩ | ⟨hnone, dk, hdk', ht⟩⟩
      · refine TabInv.congr rfl (fun i p p' h1 h2 => by rw [h1] at h2; cases h2; rfl) ht ?_
        refine TabInv.add_other hp (fun k s' hs' hm => ?_) ih.tab
        rw [hs] at hs'; cases hs'
        rw [not_isMem hb] at hm; cases hm
      · refine TabInv.congr rfl (fun i p p' h1 h2 => by rw [h1] at h2; cases h2; rfl) ht ?_
        refine TabInv.add_other hp (fun k' s' hs' hm => ?_) ih.tab
        rw [hs] at hs'; cases hs'
        have := (isMem_key hk).1 hm
        subst this
        rw [Nat.pos_iff_ne_zero]
        exact fun hz => hne ((ih.tab k').1 hz)
      · -- a new entry
        have hss := ih.srcs
        have hat : (ps.map (·.src))[a]? = some (some s) := by rw [src_at hp, hs]
        have hz : cnt (ps.map (·.src)) k a = 0 := by
          by_contra hpos
          obtain ⟨f, s', hf, hfs⟩ := exists_first (Nat.pos_iff_ne_zero.2 hpos)
          have h2 := ((ih.tab k).2 f s' hf hfs)
          by_cases hlt' : cnt (ps.map (·.src)) k d < s'.nlink
          · obtain ⟨e, he, -⟩ := h2.2 hlt'
            rw [hnone] at he; cases he
          · -- all links of this inode have already been removed: there can't be another one
            have h3 := cnt_succ hat k
            rw [memb_some, hk] at h3
            simp only [if_true] at h3
            have h4 : cnt (ps.map (·.src)) k d ≤ cnt (ps.map (·.src)) k a := cnt_mono (Nat.le_trans ih.le.1 ih.le.2.1)
            have h5 := cnt_le_total (ps.map (·.src)) k (a + 1)
            have h6 : (ps.map (·.src)).countP (memb k) ≤ s'.nlink := by
              rw [hss]
              refine hc.count s' k ?_ hfs.2.1
              rw [← hss]
              exact mem_of_at hfs.1
            omega
        have hfirst : First (ps.map (·.src)) k a s := ⟨hat, hk, hz⟩
        intro k'
        obtain ⟨h1, h2⟩ := ih.tab k'
        rw [ht]
        by_cases hkk : k' = k
        · subst hkk
          rw [set_self]
          have hc1 := cnt_succ hat k'
          rw [memb_some, hk] at hc1
          simp only [if_true] at hc1
          have hd0 : cnt (ps.map (·.src)) k' d = 0 := by
            have : cnt (ps.map (·.src)) k' d ≤ cnt (ps.map (·.src)) k' a := cnt_mono (Nat.le_trans ih.le.1 ih.le.2.1)
            omega
          have hn := (Rorp.isMem_iff.1 hk).2.1
          refine ⟨fun hz' => absurd hz' (by omega), fun f s' hf hfs => ?_⟩
          obtain ⟨rfl, rfl⟩ := hfs.unique hfirst
          refine ⟨fun hle => absurd hle (by omega), fun _ => ⟨_, rfl, rfl, by simp [hd0], p, dk, hp, hdk', .inl ⟨rfl, rfl⟩⟩⟩
        · rw [set_ne _ _ hkk]
          have hc1 := cnt_succ hat k'
          have hnm : s.isMem k' = false := by rw [Bool.eq_false_iff]; exact fun hm => hkk ((isMem_key hk).1 hm)
          rw [memb_some, hnm] at hc1
          simp only [Bool.false_eq_true, if_false, Nat.add_zero] at hc1
          refine ⟨fun hz' => h1 (by omega), fun f s' hf hfs => ?_⟩
          have hfa : f ≠ a := by
            rintro rfl
            have := hfs.1
            rw [hat] at this
            simp only [Option.some.injEq] at this
            subst this
            exact absurd hfs.2.1 (by simp [hnm])
          exact h2 f s' (by omega) hfs
  | @addOld ps a q d t out r t' p hrun hp hs hd hadd ih =>
    refine ⟨ih.srcs, ih.sames, ih.dests, fun i hi => ih.untouched i (by omega), ?_, ?_⟩
    · have := (List.getElem?_eq_some_iff.1 hp).1
      exact ⟨ih.le.1, by have := ih.le; omega, by omega⟩
    · refine TabInv.congr rfl (fun i p p' h1 h2 => by rw [h1] at h2; cases h2; rfl) (addOld_tab hadd) ?_
      exact TabInv.add_other hp (fun k s hs' => by rw [hs] at hs'; cases hs') ih.tab
  | @pass ps a q d t out p hrun hp hs ih =>
    refine ⟨ih.srcs, ih.sames, ih.dests, fun i hi => ih.untouched i (by omega), ?_, ?_⟩
    · have := (List.getElem?_eq_some_iff.1 hp).1
      exact ⟨ih.le.1, by have := ih.le; omega, by omega⟩
    · exact TabInv.add_other hp (fun k s hs' => by rw [hs] at hs'; cases hs') ih.tab
  | @decide ps a q d t out x t' p hrun hp hlt hdec ih =>
    refine ⟨ih.srcs, ih.sames, ih.dests, ih.untouched, ⟨by have := ih.le; omega, by omega, ih.le.2.2⟩, ?_⟩
    rcases decideOn_tab hdec with rfl | ⟨k, e, he, hna, ht⟩
    · exact ih.tab
    · intro k'
      obtain ⟨h1, h2⟩ := ih.tab k'
      rw [ht]
      by_cases hkk : k' = k
      · subst hkk
        rw [set_self]
        refine ⟨fun hz => absurd (h1 hz) (by simp [he]), fun f s hf hfs => ⟨fun hle => absurd ((h2 f s hf hfs).1 hle) (by simp [he]), fun hl => ?_⟩⟩
        obtain ⟨e', he', h3, h4, p', dk, hp', hdk, h5⟩ := (h2 f s hf hfs).2 hl
        rw [he] at he'
        cases he'
        refine ⟨_, rfl, h3, h4, p', dk, hp', hdk, .inr ⟨?_, rfl⟩⟩
        rcases h5 with h5 | h5
        · rw [← h5.1, hna]
        · exact h5.1
      · rw [set_ne _ _ hkk]; exact ⟨h1, h2⟩
  | @del ps a q d t out s t' p hrun hp hlt hs hdel ih =>
    have hss := ih.srcs
    refine ⟨ih.srcs, ih.sames, ih.dests, ih.untouched, ⟨by omega, ih.le.2⟩, ?_⟩
    have hat : (ps.map (·.src))[d]? = some (some s) := by rw [src_at hp, hs]
    intro k'
    obtain ⟨h1, h2⟩ := ih.tab k'
    have hcs := cnt_succ hat k'
    rw [memb_some] at hcs
    rcases del_tab hdel with ⟨hb, ht⟩ | ⟨k, hk, hrest⟩
    · rw [not_isMem hb] at hcs
      simp only [Bool.false_eq_true, if_false, Nat.add_zero] at hcs
      rw [ht, hcs]
      exact ⟨h1, h2⟩
    · by_cases hkk : k' = k
      · subst hkk
        rw [hk] at hcs
        simp only [if_true] at hcs
        obtain ⟨f, s', hf, hfs⟩ := exists_first (cnt_pos_iff.2 ⟨d, s, Nat.lt_succ_self d, hat, hk⟩)
        have hfa : f < a := by have := ih.le; omega
        have hn : cnt (ps.map (·.src)) k' (d + 1) ≤ s'.nlink := by
          refine Nat.le_trans (cnt_le_total _ _ _) ?_
          rw [hss]
          refine hc.count s' k' ?_ hfs.2.1
          rw [← hss]
          exact mem_of_at hfs.1
        obtain ⟨e, he, hidx, hrem, hdest⟩ := (h2 f s' hfa hfs).2 (by omega)
        refine ⟨fun hz => absurd (h1 hz) (by simp [he]), fun f2 s2 hf2 hfs2 => ?_⟩
        obtain ⟨rfl, rfl⟩ := hfs2.unique hfs
        rcases hrest with ⟨hnone, -⟩ | ⟨e', he', ⟨h3, ht⟩ | ⟨h3, ht⟩⟩
        · rw [he] at hnone; cases hnone
        · rw [he] at he'; cases he'
          rw [ht, set_self]
          refine ⟨fun _ => rfl, fun hlt' => absurd hlt' (by omega)⟩
        · rw [he] at he'; cases he'
          rw [ht, set_self]
          refine ⟨fun hle => absurd hle (by omega), fun _ => ⟨_, rfl, hidx, ?_, hdest⟩⟩
          simp only [hrem]; omega
      · have hnm : s.isMem k' = false := by rw [Bool.eq_false_iff]; exact fun hm => hkk ((isMem_key hk).1 hm)
        rw [hnm] at hcs
        simp only [Bool.false_eq_true, if_false, Nat.add_zero] at hcs
        have : t'.tab k' = t.tab k' := by
          rcases hrest with ⟨-, ht⟩ | ⟨e', he', ⟨h3, ht⟩ | ⟨h3, ht⟩⟩
          · rw [ht]
          · rw [ht, set_ne _ _ hkk]
          · rw [ht, set_ne _ _ hkk]
        rw [this, hcs]
        exact ⟨h1, h2⟩
  | @skip ps a q d t out p hrun hp hlt hs ih =>
    refine ⟨ih.srcs, ih.sames, ih.dests, ih.untouched, ⟨by omega, ih.le.2⟩, ?_⟩
    intro k
    obtain ⟨h1, h2⟩ := ih.tab k
    have hcs := cnt_succ (src_at hp) k
    rw [hs] at hcs
    simp only [memb, Option.any_none, Bool.false_eq_true, if_false, Nat.add_zero] at hcs
    rw [hcs]
    exact ⟨h1, h2⟩

/-- at the time of each decision -/
theorem run_out {ps0 ps : List (Pair I K D)} {a q d : Nat} {t : Tab I K D} {out : List (Decision I)} (hc : Consistent (ps0.map (·.src)))
    (hr : Run ps0 ps a q d t out) : out.length = q ∧ ∀ (i : Nat) x, out[i]? = some x →
      ∃ ps' a' d' t' t'' p, RInv ps0 ps' a' i d' t' ∧ i < a' ∧ ps'[i]? = some p ∧ decideOn t' p = some (x, t'') := by
  induction hr with
  | init => exact ⟨rfl, fun i x h => by simp at h⟩
  | @decide ps a q d t out x t' p hrun hp hlt hdec ih =>
    refine ⟨by simp [ih.1], fun i y h => ?_⟩
    rw [List.getElem?_append] at h
    split at h
    · exact ih.2 i y h
    · rw [ih.1] at h
      have : i = q := by
        by_contra hne
        have : ([x] : List (Decision I)).length ≤ i - q := by
          have := ih.1; simp only [List.length_cons, List.length_nil]; omega
        rw [List.getElem?_eq_none this] at h
        cases h
      subst this
      simp only [Nat.sub_self, List.getElem?_cons_zero, Option.some.injEq] at h
      subst h
      exact ⟨ps, a, d, t, t', p, run_inv hc hrun, hlt, hp, hdec⟩
  | add _ _ _ _ ih => exact ih
  | addOld _ _ _ _ _ ih => exact ih
  | pass _ _ _ ih => exact ih
  | del _ _ _ _ _ ih => exact ih
  | skip _ _ _ _ ih => exact ih

end Verif.Hardlinks
