import Verif.Proof.CacheSched
import Mathlib.Data.List.Induction
/- The cache at the source. -/
namespace Verif.Cache
open Verif.Repo
set_option linter.unusedSectionVars false

section
variable {α X : Type} [LinearOrder α]

theorem srcReads_items (size : Nat) (xs : List (List α × X)) :
    (SrcCache.reads size xs).items = xs.drop (xs.length - size) ∧ (SrcCache.reads size xs).size = size := by
  induction xs using List.reverseRecOn with
  | nil => simp [SrcCache.reads]
  | append_singleton xs x ih =>
    obtain ⟨h1, h2⟩ := ih
    have e : SrcCache.reads size (xs ++ [x]) = (SrcCache.reads size xs).next x := by simp [SrcCache.reads, List.foldl_append]
    rw [e]
    unfold SrcCache.next
    rw [h1, h2]
    simp only [List.length_append, List.length_drop, List.length_cons, List.length_nil]
    by_cases hc : xs.length - (xs.length - size) + (0 + 1) > size
    · rw [if_pos hc]
      refine ⟨?_, rfl⟩
      simp only
      rw [← List.drop_append_of_le_length (by omega), List.drop_drop]
      congr 1; omega
    · rw [if_neg hc]
      refine ⟨?_, rfl⟩
      simp only
      rw [← List.drop_append_of_le_length (by omega)]
      congr 1; omega

theorem srcGet_found {size j : Nat} {xs : List (List α × X)} (hs : xs.Pairwise (fun x y => x.1 < y.1)) {x : List α × X}
    (hj : xs[j]? = some x) (hl : xs.length ≤ j + size) : (SrcCache.reads size xs).get x.1 = some (some x.2) := by
  have hit := (srcReads_items size xs).1
  have hjl : j < xs.length := by
    by_contra hc; rw [List.getElem?_eq_none (by omega)] at hj; cases hj
  have hm : x ∈ (SrcCache.reads size xs).items := by
    rw [hit]
    refine List.mem_iff_getElem?.mpr ⟨j - (xs.length - size), ?_⟩
    rw [List.getElem?_drop, show xs.length - size + (j - (xs.length - size)) = j by omega]
    exact hj
  have hf : (SrcCache.reads size xs).items.find? (fun y => y.1 = x.1) = some x := by
    cases hy : (SrcCache.reads size xs).items.find? (fun y => y.1 = x.1) with
    | none =>
      have := List.find?_eq_none.mp hy x hm
      simp at this
    | some y =>
      have h1 := List.mem_of_find?_eq_some hy
      have h2 : y.1 = x.1 := by simpa using List.find?_some hy
      rw [hit] at h1 hm
      have h1 := List.mem_of_mem_drop h1
      have h3 := List.mem_of_mem_drop hm
      obtain ⟨a, ha⟩ := List.mem_iff_getElem?.mp h1
      obtain ⟨b, hb⟩ := List.mem_iff_getElem?.mp h3
      rcases Nat.lt_trichotomy a b with h | h | h
      · exact absurd h2 (ne_of_lt (getElem_pairwise hs ha hb h))
      · subst h; rw [ha] at hb; rw [hb]
      · exact absurd h2.symm (ne_of_lt (getElem_pairwise hs hb ha h))
  simp only [SrcCache.get, hf]

theorem srcGet_absent {size q : Nat} {xs : List (List α × X)} (hs : xs.Pairwise (fun x y => x.1 < y.1)) {i : List α}
    (hi : i ∉ xs.map Prod.fst) {y : List α × X} (hq : xs[q]? = some y) (hy : y.1 < i) (hl : xs.length ≤ q + size) :
    (SrcCache.reads size xs).get i = some none := by
  have hit := (srcReads_items size xs).1
  have hql : q < xs.length := by
    by_contra hc; rw [List.getElem?_eq_none (by omega)] at hq; cases hq
  have hf : (SrcCache.reads size xs).items.find? (fun y => y.1 = i) = none := by
    rw [List.find?_eq_none]
    intro z hz hzi
    rw [hit] at hz
    exact hi (List.mem_map.mpr ⟨z, List.mem_of_mem_drop hz, by simpa using hzi⟩)
  simp only [SrcCache.get, hf]
  have hfirst : (SrcCache.reads size xs).items[0]? = xs[xs.length - size]? := by rw [hit, List.getElem?_drop]; rfl
  have hlt : xs.length - size < xs.length := by omega
  rw [List.getElem?_eq_getElem hlt] at hfirst
  cases hi2 : (SrcCache.reads size xs).items with
  | nil => rw [hi2] at hfirst; cases hfirst
  | cons e rest =>
    rw [hi2] at hfirst
    simp only [List.getElem?_cons_zero, Option.some.injEq] at hfirst
    have : e.1 ≤ i := by
      rcases Nat.lt_or_eq_of_le (show xs.length - size ≤ q by omega) with h | h
      · have := getElem_pairwise hs (List.getElem?_eq_getElem hlt) hq h
        rw [← hfirst] at this
        exact le_of_lt (lt_trans this hy)
      · have : y = e := by
          rw [← h, List.getElem?_eq_getElem hlt] at hq
          rw [hfirst]; exact (Option.some.inj hq).symm
        rw [← this]; exact le_of_lt hy
    simp only [this, if_true]

end

section
variable {α A C S H Δ L : Type} [LinearOrder α] [DecidableEq A] [DecidableEq S] [DecidableEq H] [DecidableEq L]
variable {o : Ops A C H Δ L} {c : Ctx α A C S H Δ}

theorem sorted_ext {Y : Type} {l : List (List α × Y)} : ∀ {l' : List (List α × Y)}, l.Pairwise (fun x y => x.1 < y.1) →
    l'.Pairwise (fun x y => x.1 < y.1) → (∀ x, x ∈ l ↔ x ∈ l') → l = l' := by
  induction l with
  | nil =>
    intro l' _ _ hm
    cases l' with
    | nil => rfl
    | cons b l' => exact absurd ((hm b).mpr (by simp)) (by simp)
  | cons a l ih =>
    intro l' h h' hm
    cases l' with
    | nil => exact absurd ((hm a).mp (by simp)) (by simp)
    | cons b l' =>
      obtain ⟨h1, h2⟩ := List.pairwise_cons.mp h
      obtain ⟨g1, g2⟩ := List.pairwise_cons.mp h'
      have hab : a = b := by
        rcases List.mem_cons.mp ((hm a).mp (by simp)) with h | h
        · exact h
        · rcases List.mem_cons.mp ((hm b).mpr (by simp)) with h' | h'
          · exact h'.symm
          · exact absurd (g1 a h) (lt_asymm (h1 b h'))
      subst hab
      congr 1
      refine ih h2 g2 ?_
      intro x
      constructor
      · intro hx
        rcases List.mem_cons.mp ((hm x).mp (by simp [hx])) with h | h
        · subst h; exact absurd (h1 x hx) (lt_irrefl _)
        · exact h
      · intro hx
        rcases List.mem_cons.mp ((hm x).mpr (by simp [hx])) with h | h
        · subst h; exact absurd (g1 x hx) (lt_irrefl _)
        · exact h

theorem srcAmong_all (hs : Sorted c) : c.s.src = c.pairs.filterMap fun p => p.2.1.map fun v => (p.1, v) := by
  obtain ⟨ks, h1, h2, h3⟩ := hs.pairs
  have e : (c.pairs.filterMap fun p => p.2.1.map fun v => (p.1, v)) = ks.filterMap fun k => (c.src k).map fun v => (k, v) := by
    rw [h3, List.filterMap_map]; rfl
  rw [e]
  have hso : (ks.filterMap fun k => (c.src k).map fun v => (k, v)).Pairwise (fun x y => x.1 < y.1) := by
    rw [List.pairwise_filterMap]
    refine h1.imp ?_
    intro a b hab x hx y hy
    obtain ⟨v, -, rfl⟩ := Option.map_eq_some_iff.mp hx
    obtain ⟨w, -, rfl⟩ := Option.map_eq_some_iff.mp hy
    exact hab
  refine sorted_ext hs.src hso ?_
  intro x
  rw [List.mem_filterMap]
  constructor
  · intro hx
    have : c.src x.1 = some x.2 := (get_mem hs.src x.1 x.2).mpr hx
    exact ⟨x.1, (h2 _).mpr (.inl (by rw [this]; rfl)), by rw [this]; rfl⟩
  · rintro ⟨k, hk, hkx⟩
    obtain ⟨v, hv, rfl⟩ := Option.map_eq_some_iff.mp hkx
    exact (get_mem hs.src k v).mp hv

theorem srcAmong_take (hs : Sorted c) (n : Nat) : srcAmong c n <+: c.s.src := by
  conv_rhs => rw [srcAmong_all hs, ← List.take_append_drop n c.pairs, List.filterMap_append]
  exact List.prefix_append _ _

theorem srcAmong_le (n d : Nat) : (srcAmong c (n + d)).length ≤ (srcAmong c n).length + d := by
  have : c.pairs.take (n + d) = c.pairs.take n ++ (c.pairs.drop n).take d := List.take_add
  simp only [srcAmong, this, List.filterMap_append, List.length_append]
  refine Nat.add_le_add_left (le_trans (List.length_filterMap_le _ _) (List.length_take_le d _)) _

/-- The cache at the source when the signature of pair `p` arrives: `n` pairs have been read at the destination, at most `B` more
source files at the source. -/
theorem source_get (hs : Sorted c) (hroot : (c.src []).isSome = true) {size W B R n p : Nat} (hsize : W + B ≤ size)
    {x : Pair α (Node A C S) (MRec A S H)} (hp : c.pairs[p]? = some x) (hn : p < n) (hnW : n ≤ p + W)
    (hR1 : (srcAmong c n).length ≤ R) (hR2 : R ≤ (srcAmong c n).length + B) (hR3 : R ≤ c.s.src.length) :
    (SrcCache.reads size (c.s.src.take R)).get x.1 = some (c.src x.1) := by
  have hso : c.s.src.Pairwise (fun x y => x.1 < y.1) := hs.src
  have hsoR := hso.sublist (List.take_sublist R _)
  obtain ⟨hx1, -⟩ := (mem_pairs hs x).mp (List.mem_of_getElem? hp)
  have hx2 : x.2.1 = c.src x.1 := by rw [hx1]
  have hlen : (c.s.src.take R).length = R := by simp; omega
  have hstep : srcAmong c (p + 1) = srcAmong c p ++ ((c.src x.1).map fun v => (x.1, v)).toList := by
    simp only [srcAmong, List.take_add_one, hp, List.filterMap_append, Option.toList, List.filterMap_cons, List.filterMap_nil, hx2]
    cases c.src x.1 <;> rfl
  have hle : (srcAmong c n).length ≤ (srcAmong c (p + 1)).length + (n - p - 1) := by
    have := srcAmong_le (c := c) (p + 1) (n - p - 1)
    rwa [show p + 1 + (n - p - 1) = n by omega] at this
  have hmono : (srcAmong c (p + 1)).length ≤ (srcAmong c n).length := by
    have : c.pairs.take n = c.pairs.take (p + 1) ++ (c.pairs.drop (p + 1)).take (n - (p + 1)) := by
      rw [← List.take_add]; congr 1; omega
    simp only [srcAmong, this, List.filterMap_append, List.length_append]; omega
  cases hsrc : c.src x.1 with
  | some v =>
    rw [hsrc] at hstep
    simp only [Option.map_some, Option.toList] at hstep
    have hl1 : (srcAmong c (p + 1)).length = (srcAmong c p).length + 1 := by rw [hstep]; simp
    obtain ⟨tail, ht⟩ := srcAmong_take hs (p + 1)
    have hj : (c.s.src.take R)[(srcAmong c p).length]? = some (x.1, v) := by
      rw [List.getElem?_take_of_lt (by omega), ← ht, hstep]
      simp
    exact srcGet_found hsoR hj (by omega)
  | none =>
    have hno : x.1 ∉ (c.s.src.take R).map Prod.fst := by
      intro h
      obtain ⟨y, hy, hyx⟩ := List.mem_map.mp h
      have : c.src y.1 = some y.2 := (get_mem hs.src y.1 y.2).mpr (List.mem_of_mem_take hy)
      rw [hyx, hsrc] at this; cases this
    -- the root
    obtain ⟨v0, hv0⟩ := Option.isSome_iff_exists.mp hroot
    have hr : (([], c.src [], c.dst []) : Pair α (Node A C S) (MRec A S H)) ∈ c.pairs := (mem_pairs hs _).mpr ⟨rfl, .inl hroot⟩
    obtain ⟨r, hr⟩ := List.mem_iff_getElem?.mp hr
    have hne : x.1 ≠ [] := fun e => by rw [e, hv0] at hsrc; cases hsrc
    have hrp : r < p := pos_lt hs hr hp (by
      cases hx : x.1 with
      | nil => exact absurd hx hne
      | cons a b => exact List.nil_lt_cons a b)
    have hpos : 0 < (srcAmong c p).length := by
      refine List.length_pos_of_mem (a := ([], v0)) ?_
      simp only [srcAmong, List.mem_filterMap]
      refine ⟨([], c.src [], c.dst []), List.mem_iff_getElem?.mpr ⟨r, ?_⟩, by simp [hv0]⟩
      rw [List.getElem?_take_of_lt hrp, hr]
    have hl1 : (srcAmong c (p + 1)).length = (srcAmong c p).length := by rw [hstep, hsrc]; simp
    obtain ⟨tail, ht⟩ := srcAmong_take hs p
    have hq : (srcAmong c p).length - 1 < (srcAmong c p).length := by omega
    have hmem : (srcAmong c p)[(srcAmong c p).length - 1] ∈ srcAmong c p := List.getElem_mem _
    refine srcGet_absent hsoR hno (q := (srcAmong c p).length - 1) (y := (srcAmong c p)[(srcAmong c p).length - 1]) ?_ ?_ (by omega)
    · rw [List.getElem?_take_of_lt (by omega)]
      conv_lhs => rw [← ht, List.getElem?_append_left hq]
      exact List.getElem?_eq_getElem hq
    · generalize (srcAmong c p)[(srcAmong c p).length - 1] = y at hmem
      simp only [srcAmong, List.mem_filterMap] at hmem
      obtain ⟨z, hz, hzy⟩ := hmem
      obtain ⟨w, hw, rfl⟩ := Option.map_eq_some_iff.mp hzy
      obtain ⟨a, ha⟩ := List.mem_iff_getElem?.mp hz
      have hap : a < p := by
        by_contra hc
        rw [List.getElem?_eq_none (by simp; omega)] at ha; cases ha
      rw [List.getElem?_take_of_lt hap] at ha
      obtain ⟨ks, h1, h2, h3⟩ := hs.pairs
      have hsp : c.pairs.Pairwise (fun x y => x.1 < y.1) := by rw [h3, List.pairwise_map]; exact h1
      exact getElem_pairwise hsp ha hp hap
end
end Verif.Cache
