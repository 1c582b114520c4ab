import Verif.Spec.Cache
import Verif.Proof.RepoRep
import Verif.Proof.Index
import Mathlib.Data.List.Infix
import Mathlib.Tactic.Push
/- Invariants of the bounded cache. -/
namespace Verif.Cache
set_option linter.unusedSectionVars false

section
variable {α V W H : Type} [LinearOrder α] {sdir : V → Bool} {ddir : W → Bool}

/-- what is in the list of parents after the pairs `l` -/
def Stack (sdir : V → Bool) (ddir : W → Bool) (l : List (Pair α V W)) (parents : List (Pair α V W)) : Prop :=
  match (l.filter (isd sdir ddir)).getLast? with
  | none => parents = []
  | some d => parents.map (·.1) = (List.range (d.1.length + 1)).map d.1.take

theorem Pairs.inj {ps : List (Pair α V W)} (h : Pairs sdir ddir ps) {p q : Pair α V W} (hp : p ∈ ps) (hq : q ∈ ps)
    (e : p.1 = q.1) : p = q := by
  by_contra hne
  rcases List.pairwise_iff_getElem.mp h.sorted with h'
  obtain ⟨i, hi, rfl⟩ := List.getElem_of_mem hp
  obtain ⟨j, hj, rfl⟩ := List.getElem_of_mem hq
  rcases Nat.lt_trichotomy i j with hij | hij | hij
  · have := h' i j hi hj hij; rw [e] at this; exact lt_irrefl _ this
  · subst hij; exact hne rfl
  · have := h' j i hj hi hij; rw [e] at this; exact lt_irrefl _ this

/-- what comes before in the order comes before in the list -/
theorem Pairs.mem_take {ps : List (Pair α V W)} (h : Pairs sdir ddir ps) {m : Nat} {p q : Pair α V W}
    (hp : ps[m]? = some p) (hq : q ∈ ps) (hlt : q.1 < p.1) : q ∈ ps.take m := by
  obtain ⟨j, hj, rfl⟩ := List.getElem_of_mem hq
  obtain ⟨hm, rfl⟩ := List.getElem?_eq_some_iff.mp hp
  have h' := List.pairwise_iff_getElem.mp h.sorted
  have hjm : j < m := by
    by_contra hc
    rcases Nat.lt_or_eq_of_le (Nat.not_lt.mp hc) with h1 | h1
    · exact lt_asymm hlt (h' m j hm hj h1)
    · subst h1; exact lt_irrefl _ hlt
  exact List.mem_take_iff_getElem.mpr ⟨j, by omega, rfl⟩

theorem Pairs.take_lt {ps : List (Pair α V W)} (h : Pairs sdir ddir ps) {m : Nat} {p q : Pair α V W}
    (hp : ps[m]? = some p) (hq : q ∈ ps.take m) : q.1 < p.1 := by
  obtain ⟨j, hj, rfl⟩ := List.mem_take_iff_getElem.mp hq
  obtain ⟨hm, rfl⟩ := List.getElem?_eq_some_iff.mp hp
  exact List.pairwise_iff_getElem.mp h.sorted j m (by omega) hm (by omega)

/-- the last element of a sorted list is the greatest -/
theorem le_getLast {l : List (Pair α V W)} (h : l.Pairwise (fun x y => x.1 < y.1)) {d q : Pair α V W}
    (hd : l.getLast? = some d) (hq : q ∈ l) : q.1 ≤ d.1 := by
  obtain ⟨l', rfl⟩ := List.getLast?_eq_some_iff.mp hd
  rcases List.mem_append.mp hq with hq | hq
  · exact le_of_lt ((List.pairwise_append.mp h).2.2 q hq d (by simp))
  · simp only [List.mem_singleton] at hq; rw [hq]

theorem stack_step {ps : List (Pair α V W)} (h : Pairs sdir ddir ps) {m : Nat} {p : Pair α V W} {parents}
    (hp : ps[m]? = some p) (hs : Stack sdir ddir (ps.take m) parents) :
    ∃ parents', updateParents sdir ddir parents p = some parents' ∧ Stack sdir ddir (ps.take (m + 1)) parents' ∧
      ∀ q ∈ parents', q ∈ parents ∨ q = p := by
  have htake : ps.take (m + 1) = ps.take m ++ [p] := by
    rw [List.take_add_one, hp]; rfl
  have hsorted : ((ps.take m).filter (isd sdir ddir)).Pairwise (fun x y => x.1 < y.1) :=
    (h.sorted.sublist (List.take_sublist _ _)).sublist List.filter_sublist
  have hpm : p ∈ ps := List.mem_of_getElem? hp
  by_cases hd : isd sdir ddir p = true
  · have hd' : (!(p.2.1.any sdir || p.2.2.any ddir)) = false := by
      rw [show (p.2.1.any sdir || p.2.2.any ddir) = true from hd]; rfl
    have hlast : ((ps.take (m + 1)).filter (isd sdir ddir)).getLast? = some p := by
      rw [htake, List.filter_append, List.filter_singleton, hd, List.getLast?_append]; rfl
    simp only [updateParents, hd', Stack, hlast]
    simp only [Stack] at hs
    cases hg : ((ps.take m).filter (isd sdir ddir)).getLast? with
    | none =>
      rw [hg] at hs
      subst hs
      have hnil : p.1 = [] := by
        by_contra hne
        obtain ⟨q, hq, hq1, hq2⟩ := h.closed p hpm hne
        have hlt : q.1 < p.1 := by
          rw [hq1]
          exact lt_of_le_of_ne (prefix_le (List.dropLast_prefix _))
            (fun e => by have := congrArg List.length e; have := List.length_pos_iff.mpr hne; simp at *; omega)
        have := h.mem_take hp hq hlt
        have hm : q ∈ (ps.take m).filter (isd sdir ddir) := List.mem_filter.mpr ⟨this, hq2⟩
        rw [List.getLast?_eq_none_iff.mp hg] at hm; cases hm
      refine ⟨[p], by simp [hnil], by simp [hnil], fun q hq => .inr (by simpa using hq)⟩
    | some d =>
      rw [hg] at hs
      have hdm : d ∈ (ps.take m).filter (isd sdir ddir) := List.mem_of_getLast? hg
      have hdp : d.1 < p.1 := h.take_lt hp (List.mem_filter.mp hdm).1
      have hne : p.1 ≠ [] := by intro e; rw [e] at hdp; exact absurd hdp (by simp)
      obtain ⟨q, hq, hq1, hq2⟩ := h.closed p hpm hne
      have hqlt : q.1 < p.1 := by
        rw [hq1]
        exact lt_of_le_of_ne (prefix_le (List.dropLast_prefix _))
          (fun e => by have := congrArg List.length e; have := List.length_pos_iff.mpr hne; simp at *; omega)
      have hqm : q ∈ (ps.take m).filter (isd sdir ddir) := List.mem_filter.mpr ⟨h.mem_take hp hq hqlt, hq2⟩
      have hpre : p.1.dropLast <+: d.1 := by
        rw [← hq1]
        exact prefix_convex (b := q.1) (a := q.1) (c := p.1) List.prefix_rfl (by rw [hq1]; exact List.dropLast_prefix _)
          (le_getLast hsorted hg hqm) (le_of_lt hdp)
      have hlen := hpre.length_le
      rw [List.length_dropLast] at hlen
      have hpos := List.length_pos_iff.mpr hne
      have hdl : p.1.dropLast = d.1.take (p.1.length - 1) := by
        have := List.prefix_iff_eq_take.mp hpre
        rwa [List.length_dropLast] at this
      have htk : ∀ j, j < p.1.length → d.1.take j = p.1.take j := by
        intro j hj
        have h1 : p.1.take j = (p.1.dropLast).take j := by rw [List.dropLast_eq_take, List.take_take]; congr 1; omega
        rw [h1, hdl, List.take_take]; congr 1; omega
      have hpl : parents.length = d.1.length + 1 := by
        have := congrArg List.length hs; simpa using this
      have hplast : ∃ l, parents.getLast? = some l ∧ l.1 = d.1 := by
        have h1 : (parents.map (·.1)).getLast? = some d.1 := by
          rw [hs, List.range_succ, List.map_append, List.getLast?_append]; simp
        rw [List.getLast?_map] at h1
        cases hl : parents.getLast? with
        | none => rw [hl] at h1; cases h1
        | some l => rw [hl] at h1; exact ⟨l, rfl, by simpa using h1⟩
      obtain ⟨l, hl1, hl2⟩ := hplast
      simp only [hl1, hl2]
      have hc1 : p.1.length ≤ d.1.length + 1 := by omega
      simp only [Bool.false_eq_true, if_false, hc1, if_true]
      by_cases hc2 : p.1.length ≤ d.1.length
      · have hup : upTo d.1 p.1.length = p.1.dropLast := by simp [upTo, show p.1.length ≠ 0 by omega, hdl]
        refine ⟨parents.take p.1.length ++ [p], by simp [hc2, hup], ?_, ?_⟩
        · rw [List.map_append, List.map_take, hs, ← List.map_take, List.take_range, List.range_succ, List.map_append,
            Nat.min_eq_left (by omega)]
          congr 1
          · apply List.map_congr_left
            intro j hj
            exact htk j (by simpa using hj)
          · simp
        · intro x hx
          rcases List.mem_append.mp hx with hx | hx
          · exact .inl (List.mem_of_mem_take hx)
          · exact .inr (by simpa using hx)
      · refine ⟨parents ++ [p], by simp [hc2], ?_, ?_⟩
        · have : p.1.length = d.1.length + 1 := by omega
          rw [List.map_append, hs, List.range_succ (n := p.1.length), List.map_append, this]
          congr 1
          · apply List.map_congr_left
            intro j hj
            exact htk j (by simp at hj; omega)
          · simp [← this]
        · intro x hx
          rcases List.mem_append.mp hx with hx | hx
          · exact .inl hx
          · exact .inr (by simpa using hx)
  · have hd' : (!(p.2.1.any sdir || p.2.2.any ddir)) = true := by simpa [isd] using hd
    refine ⟨parents, by simp only [updateParents, hd', if_true], ?_, fun q hq => .inl hq⟩
    have : (ps.take (m + 1)).filter (isd sdir ddir) = (ps.take m).filter (isd sdir ddir) := by
      rw [htake, List.filter_append, List.filter_singleton, show isd sdir ddir p = false by simpa using hd]; exact List.append_nil _
    simp only [Stack, this]; exact hs

/-! ### the invariant -/

/-- `n` pairs have been read, `m` of them are no longer in the cache -/
structure Inv (sdir : V → Bool) (ddir : W → Bool) (ps : List (Pair α V W)) (n m : Nat) (s : Ccpp α V W H) : Prop where
  le : m ≤ n
  len : n ≤ ps.length
  out : s.out.map Entry.key = ps.take m
  items : s.items.map Entry.key = (ps.take n).drop m
  stack : Stack sdir ddir (ps.take m) s.parents
  mem : ∀ q ∈ s.parents, q ∈ ps.take m

variable {ps : List (Pair α V W)} {n m N : Nat} {s : Ccpp α V W H}

theorem inv_empty : Inv sdir ddir ps 0 0 (Ccpp.empty N : Ccpp α V W H) :=
  ⟨le_refl _, by simp, by simp [Ccpp.empty], by simp [Ccpp.empty], by simp [Stack, Ccpp.empty], by simp [Ccpp.empty]⟩

theorem Inv.items_length (h : Inv sdir ddir ps n m s) : s.items.length = n - m := by
  have := congrArg List.length h.items
  have := h.len
  simp at *; omega

theorem Inv.shorten (hps : Pairs sdir ddir ps) (h : Inv sdir ddir ps n m s) (hlt : m < n) :
    ∃ e rest ps', s.items = e :: rest ∧ updateParents sdir ddir s.parents e.key = some ps' ∧
      s.shorten sdir ddir = some { s with items := rest, parents := ps', out := s.out ++ [e] } ∧
      Inv sdir ddir ps n (m + 1) { s with items := rest, parents := ps', out := s.out ++ [e] } := by
  have hlen := h.len
  cases hi : s.items with
  | nil => have := h.items_length; rw [hi] at this; simp at this; omega
  | cons e rest =>
    have hk := h.items
    rw [hi, List.map_cons, List.drop_eq_getElem_cons (by simp; omega)] at hk
    have hk1 := (List.cons_eq_cons.mp hk).1
    have hk2 := (List.cons_eq_cons.mp hk).2
    have hkey : ps[m]? = some e.key := by
      rw [hk1, List.getElem_take, ← List.getElem?_eq_getElem]
    obtain ⟨ps', hp1, hp2, hp3⟩ := stack_step hps hkey h.stack
    have htake : ps.take (m + 1) = ps.take m ++ [e.key] := by rw [List.take_add_one, hkey]; rfl
    refine ⟨e, rest, ps', rfl, hp1, ?_, ⟨by omega, h.len, ?_, ?_, hp2, ?_⟩⟩
    · simp only [Ccpp.shorten, hi, hp1, Option.map_some]
    · simp only [List.map_append, h.out, htake, List.map_cons, List.map_nil]
    · exact hk2
    · intro q hq
      rw [htake]
      rcases hp3 q hq with hq | hq
      · exact List.mem_append_left _ (h.mem q hq)
      · exact List.mem_append_right _ (by simp [hq])

/-- reading a pair: nothing leaves the cache, or its first entry does -/
theorem Inv.next (hps : Pairs sdir ddir ps) (h : Inv sdir ddir ps n (n - N) s) (hN : s.size = N) {p : Pair α V W}
    (hp : ps[n]? = some p) :
    ∃ s', s.next sdir ddir p = some s' ∧ s'.size = N ∧ Inv sdir ddir ps (n + 1) (n + 1 - N) s' ∧
      ((n < N ∧ s'.out = s.out ∧ s'.items = s.items ++ [fresh p]) ∨
       (N ≤ n ∧ ∃ e, s'.out = s.out ++ [e] ∧ s.items ++ [fresh p] = e :: s'.items ∧ ps[n - N]? = some e.key)) := by
  have hnl : n < ps.length := by
    by_contra hc; rw [List.getElem?_eq_none (by omega)] at hp; cases hp
  have htake : ps.take (n + 1) = ps.take n ++ [p] := by rw [List.take_add_one, hp]; rfl
  have h1 : Inv sdir ddir ps (n + 1) (n - N) { s with items := s.items ++ [fresh p] } := by
    refine ⟨by omega, by omega, h.out, ?_, h.stack, h.mem⟩
    simp only [List.map_append, h.items, List.map_cons, List.map_nil, htake]
    rw [List.drop_append_of_le_length (by simp; omega)]
    rfl
  have hl := h1.items_length
  by_cases hc : n < N
  · refine ⟨{ s with items := s.items ++ [fresh p] }, ?_, hN, ?_, .inl ⟨hc, rfl, rfl⟩⟩
    · unfold Ccpp.next
      have : ¬ (s.items ++ [fresh (H := H) p]).length > s.size := by rw [hl, hN]; omega
      simp only [this, if_false]
    · have e1 : n - N = 0 := by omega
      have e2 : n + 1 - N = 0 := by omega
      rw [e2]; rwa [e1] at h1
  · obtain ⟨e, rest, ps', hr1, hr2, hr3, hr4⟩ := h1.shorten hps (by omega)
    refine ⟨⟨s.size, rest, ps', s.out ++ [e]⟩, ?_, hN, ?_, .inr ⟨by omega, e, rfl, ?_, ?_⟩⟩
    · unfold Ccpp.next
      have : (s.items ++ [fresh (H := H) p]).length > s.size := by rw [hl, hN]; omega
      simp only [this, if_true]
      exact hr3
    · have e2 : n + 1 - N = n - N + 1 := by omega
      rw [e2]; exact hr4
    · simpa using hr1
    · have ho := hr4.out
      simp only [List.map_append, List.map_cons, List.map_nil, h.out] at ho
      rw [List.take_add_one] at ho
      have := List.append_cancel_left ho
      cases hx : ps[n - N]? with
      | none => rw [hx] at this; cases this
      | some y => rw [hx] at this; simp at this; rw [this]

theorem foldlM_shorten (hps : Pairs sdir ddir ps) (l : List (Entry α V W H)) : ∀ (m : Nat) (s : Ccpp α V W H),
    Inv sdir ddir ps n m s → l.length = s.items.length →
    ∃ s', l.foldlM (fun s _ => s.shorten sdir ddir) s = some s' ∧ s'.out = s.out ++ s.items ∧ Inv sdir ddir ps n n s' := by
  induction l with
  | nil =>
    intro m s h hl
    have h0 : s.items = [] := List.length_eq_zero_iff.mp (by simpa using hl.symm)
    have := h.items_length
    have h3 := h.le
    rw [h0] at this
    have : m = n := by simp at this; omega
    subst this
    exact ⟨s, rfl, by rw [h0, List.append_nil], h⟩
  | cons x l ih =>
    intro m s h hl
    have h3 := h.items_length
    obtain ⟨e, rest, ps', hr1, hr2, hr3, hr4⟩ := h.shorten hps (by simp at hl; omega)
    obtain ⟨s', hs1, hs2, hs3⟩ := ih (m + 1) _ hr4 (by rw [hr1] at hl; simpa using hl)
    refine ⟨s', ?_, ?_, hs3⟩
    · rw [List.foldlM_cons, hr3]; exact hs1
    · rw [hs2, hr1]; simp

theorem Inv.close (hps : Pairs sdir ddir ps) (h : Inv sdir ddir ps n m s) :
    ∃ s', s.close sdir ddir = some s' ∧ s'.out = s.out ++ s.items ∧ Inv sdir ddir ps n n s' :=
  foldlM_shorten hps s.items m s h rfl

/-! ### looking up -/

theorem Inv.find (hps : Pairs sdir ddir ps) (h : Inv sdir ddir ps n m s) {k : Pair α V W} (hk : k ∈ (ps.take n).drop m) :
    ∃ e, s.find k.1 = some e ∧ e ∈ s.items ∧ e.key = k := by
  rw [← h.items] at hk
  obtain ⟨e, he, rfl⟩ := List.mem_map.mp hk
  cases hf : s.find e.key.1 with
  | none =>
    have := List.find?_eq_none.mp hf e he
    simp [Entry.key] at this
  | some e' =>
    have h1 := List.mem_of_find?_eq_some hf
    have h2 := List.find?_some hf
    refine ⟨e', rfl, h1, ?_⟩
    have hm : ∀ x ∈ s.items, x.key ∈ ps := fun x hx =>
      List.mem_of_mem_take (List.mem_of_mem_drop (h.items ▸ List.mem_map_of_mem hx))
    exact hps.inj (hm _ h1) (hm _ he) (of_decide_eq_true h2)

theorem Inv.find_none (hps : Pairs sdir ddir ps) (h : Inv sdir ddir ps n m s) {k : Pair α V W} (hk : k ∈ ps.take m) :
    s.find k.1 = none := by
  by_contra hc
  obtain ⟨e, he⟩ := Option.ne_none_iff_exists'.mp hc
  have h1 := List.mem_of_find?_eq_some he
  have h2 : e.idx = k.1 := by simpa using List.find?_some he
  have hx : e.key ∈ (ps.take n).drop m := h.items ▸ List.mem_map_of_mem h1
  have hx' : e.key ∈ ps := List.mem_of_mem_take (List.mem_of_mem_drop hx)
  have he := hps.inj hx' (List.mem_of_mem_take hk) h2
  rw [he] at hx
  obtain ⟨i, hi, hki⟩ := List.mem_take_iff_getElem.mp hk
  obtain ⟨j, hj, hkj⟩ := List.mem_drop_iff_getElem.mp hx
  have hle := h.len
  simp only [List.getElem_take] at hkj
  simp only [List.length_take] at hj
  have hlt := List.pairwise_iff_getElem.mp hps.sorted i (m + j) (by omega) (by omega) (by omega)
  rw [hki, hkj] at hlt
  exact lt_irrefl _ hlt

/-- every entry in the cache is found -/
theorem Inv.rorps (hps : Pairs sdir ddir ps) (h : Inv sdir ddir ps n m s) {k : Pair α V W} (hk : k ∈ (ps.take n).drop m) :
    s.rorps k.1 = some k.2 ∧ s.inCache k.1 = true ∧ s.source k.1 = some k.2.1 := by
  obtain ⟨e, he1, he2, rfl⟩ := h.find hps hk
  have hr : s.rorps e.key.1 = some e.key.2 := by simp only [Ccpp.rorps, he1]; rfl
  refine ⟨hr, by simp [Ccpp.inCache, he1], ?_⟩
  unfold Ccpp.source
  cases hi : s.items with
  | nil => rw [hi] at he2; cases he2
  | cons e0 rest =>
    have hle : ¬ e.key.1 < e0.idx := by
      rw [hi] at he2
      rcases List.mem_cons.mp he2 with rfl | he2
      · exact lt_irrefl _
      · have hso : ((ps.take n).drop m).Pairwise (fun x y => x.1 < y.1) :=
          (hps.sorted.sublist (List.take_sublist _ _)).sublist (List.drop_sublist _ _)
        rw [← h.items, hi, List.map_cons, List.pairwise_cons] at hso
        exact lt_asymm (hso.1 _ (List.mem_map_of_mem he2))
    simp only [hle, if_false, hr, Option.map_some]

/-- a directory on the way to an entry is found even if it has left the cache -/
theorem Inv.rorps_parent (hps : Pairs sdir ddir ps) (h : Inv sdir ddir ps n m s) {k j : Pair α V W} (hj : j ∈ (ps.take n).drop m)
    (hk : k ∈ ps) (hpre : k.1 <+: j.1) (hd : isd sdir ddir k = true) :
    s.rorps k.1 = some k.2 := by
  have hjp : j ∈ ps := List.mem_of_mem_take (List.mem_of_mem_drop hj)
  by_cases hin : k ∈ (ps.take n).drop m
  · exact (h.rorps hps hin).1
  -- it has left
  have hlen := h.len
  have hle := h.le
  have hkm : k ∈ ps.take m := by
    obtain ⟨a, ha, rfl⟩ := List.getElem_of_mem hk
    obtain ⟨b, hb, rfl⟩ := List.mem_drop_iff_getElem.mp hj
    simp only [List.getElem_take] at hpre ⊢
    simp only [List.length_take] at hb
    have hab : a ≤ m + b := by
      by_contra hc
      have := List.pairwise_iff_getElem.mp hps.sorted (m + b) a (by omega) ha (by omega)
      exact absurd (prefix_le hpre) (not_le.mpr this)
    by_contra hc
    apply hin
    refine List.mem_drop_iff_getElem.mpr ⟨a - m, ?_, ?_⟩
    · have : m ≤ a := by
        by_contra hm
        exact hc (List.mem_take_iff_getElem.mpr ⟨a, by omega, rfl⟩)
      simp; omega
    · have : m ≤ a := by
        by_contra hm
        exact hc (List.mem_take_iff_getElem.mpr ⟨a, by omega, rfl⟩)
      simp only [List.getElem_take]
      congr 1; omega
  have hnone := h.find_none hps hkm
  have hst := h.stack
  unfold Stack at hst
  have hkf : k ∈ (ps.take m).filter (isd sdir ddir) := List.mem_filter.mpr ⟨hkm, hd⟩
  cases hg : ((ps.take m).filter (isd sdir ddir)).getLast? with
  | none => rw [List.getLast?_eq_none_iff.mp hg] at hkf; cases hkf
  | some d =>
    rw [hg] at hst
    have hdm := List.mem_of_getLast? hg
    have hsorted : ((ps.take m).filter (isd sdir ddir)).Pairwise (fun x y => x.1 < y.1) :=
      (hps.sorted.sublist (List.take_sublist _ _)).sublist List.filter_sublist
    have hkd := le_getLast hsorted hg hkf
    have hdj : d.1 ≤ j.1 := by
      obtain ⟨a, ha, ha'⟩ := List.mem_take_iff_getElem.mp (List.mem_filter.mp hdm).1
      obtain ⟨b, hb, rfl⟩ := List.mem_drop_iff_getElem.mp hj
      simp only [List.getElem_take]
      simp only [List.length_take] at hb
      rw [← ha']
      exact le_of_lt (List.pairwise_iff_getElem.mp hps.sorted a (m + b) (by omega) (by omega) (by omega))
    have hpd : k.1 <+: d.1 := prefix_convex List.prefix_rfl hpre hkd hdj
    have hmem : k.1 ∈ s.parents.map (·.1) := by
      rw [hst]
      refine List.mem_map.mpr ⟨k.1.length, ?_, (List.prefix_iff_eq_take.mp hpd).symm⟩
      have := hpd.length_le
      simp; omega
    obtain ⟨q, hq, hqk⟩ := List.mem_map.mp hmem
    simp only [Ccpp.rorps, hnone, Ccpp.parentRorps]
    cases hf : s.parents.find? (fun p => decide (p.1 = k.1)) with
    | none => have := List.find?_eq_none.mp hf q hq; simp [hqk] at this
    | some x =>
      have hx1 := h.mem x (List.mem_of_find?_eq_some hf)
      have hx2 : x.1 = k.1 := by simpa using List.find?_some hf
      rw [hps.inj (List.mem_of_mem_take hx1) hk hx2]; rfl

/-! ### changing flags -/

/-- the entry of an index changed -/
def upd (s : Ccpp α V W H) (i : List α) (f : Entry α V W H → Entry α V W H) : Ccpp α V W H :=
  { s with items := s.items.map fun e => if e.idx = i then f e else e }

/-- a change of flags only -/
def Keeps (f : Entry α V W H → Entry α V W H) : Prop := ∀ e, (f e).key = e.key

theorem Keeps.idx {f : Entry α V W H → Entry α V W H} (h : Keeps f) (e : Entry α V W H) : (f e).idx = e.idx :=
  congrArg Prod.fst (h e)

theorem upd_find {f : Entry α V W H → Entry α V W H} (h : Keeps f) (s : Ccpp α V W H) (i j : List α) :
    (upd s i f).find j = (s.find j).map fun e => if e.idx = i then f e else e := by
  unfold Ccpp.find upd
  simp only [List.find?_map]
  congr 1
  congr 1
  funext e
  simp only [Function.comp]
  by_cases he : e.idx = i
  · simp [he, h.idx]
  · simp [he]

theorem upd_inCache {f : Entry α V W H → Entry α V W H} (h : Keeps f) (s : Ccpp α V W H) (i j : List α) :
    (upd s i f).inCache j = s.inCache j := by
  simp [Ccpp.inCache, upd_find h]

theorem upd_rorps {f : Entry α V W H → Entry α V W H} (h : Keeps f) (s : Ccpp α V W H) (i j : List α) :
    (upd s i f).rorps j = s.rorps j := by
  unfold Ccpp.rorps
  rw [upd_find h]
  cases s.find j with
  | none => rfl
  | some e =>
    by_cases he : e.idx = i
    · have := h e
      simp only [Entry.key, Prod.mk.injEq] at this
      simp [he, this.2.1, this.2.2]
    · simp [he]

theorem upd_source {f : Entry α V W H → Entry α V W H} (h : Keeps f) (s : Ccpp α V W H) (i j : List α) :
    (upd s i f).source j = s.source j := by
  unfold Ccpp.source
  rw [upd_rorps h]
  simp only [upd]
  cases s.items with
  | nil => rfl
  | cons e rest =>
    simp only [List.map_cons]
    by_cases he : e.idx = i
    · simp [he, h.idx]
    · simp [he]

theorem upd_mirror {f : Entry α V W H → Entry α V W H} (h : Keeps f) (s : Ccpp α V W H) (i j : List α) :
    (upd s i f).mirror j = s.mirror j := by
  simp only [Ccpp.mirror, upd_rorps h]

theorem upd_upd {f g : Entry α V W H → Entry α V W H} (h : Keeps f) (s : Ccpp α V W H) (i : List α) :
    upd (upd s i f) i g = upd s i (fun e => g (f e)) := by
  simp only [upd, List.map_map]
  congr 1
  apply List.map_congr_left
  intro e _
  simp only [Function.comp]
  by_cases he : e.idx = i
  · simp [he, h.idx]
  · simp [he]

theorem modify_eq (s : Ccpp α V W H) {i : List α} (f : Entry α V W H → Entry α V W H) (h : s.inCache i = true) :
    s.modify i f = some (upd s i f) := by simp [Ccpp.modify, h, upd]

theorem Inv.upd (h : Inv sdir ddir ps n m s) {f : Entry α V W H → Entry α V W H} (hf : Keeps f) (i : List α) :
    Inv sdir ddir ps n m (upd s i f) := by
  refine ⟨h.le, h.len, h.out, ?_, h.stack, h.mem⟩
  rw [← h.items]
  simp only [Cache.upd, List.map_map]
  apply List.map_congr_left
  intro e _
  simp only [Function.comp]
  by_cases he : e.idx = i
  · simp [he, hf e]
  · simp [he]

end
end Verif.Cache
