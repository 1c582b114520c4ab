import Verif.Proof.Pipeline
/- The schedules of a local and of a remote session are timely. -/
namespace Verif.Cache
open Verif.Repo
set_option linter.unusedSectionVars false

/-- every changed pair has its signature -/
theorem tokens_sig (thr : Nat) : ∀ (bs : List Bool) (seen pos q : Nat), bs[q]? = some true →
    Tok.sig (pos + q) ∈ tokens thr seen pos bs := by
  intro bs
  induction bs with
  | nil => intro seen pos q h; simp at h
  | cons b bs ih =>
    intro seen pos q h
    have hgen : ∀ seen', Tok.sig (pos + q) ∈ (if b then [Tok.sig pos] else []) ++ tokens thr seen' (pos + 1) bs := by
      intro seen'
      cases q with
      | zero =>
        simp only [List.getElem?_cons_zero, Option.some.injEq] at h
        subst h; simp
      | succ q =>
        have := ih seen' (pos + 1) q (by simpa using h)
        rw [show pos + 1 + q = pos + (q + 1) by omega] at this
        exact List.mem_append_right _ this
    unfold tokens
    by_cases hs : seen + 1 > thr
    · simp only [hs, if_true]; exact List.mem_cons_of_mem _ (hgen 0)
    · simp only [hs, if_false]; exact hgen _

theorem getElem_pairwise {X : Type} {R : X → X → Prop} {l : List X} (h : l.Pairwise R) {i j : Nat} {x y : X}
    (hi : l[i]? = some x) (hj : l[j]? = some y) (hij : i < j) : R x y := by
  obtain ⟨h1, rfl⟩ := List.getElem?_eq_some_iff.mp hi
  obtain ⟨h2, rfl⟩ := List.getElem?_eq_some_iff.mp hj
  exact List.pairwise_iff_getElem.mp h i j h1 h2 hij

section
variable {α A C S H Δ L : Type} [LinearOrder α] [DecidableEq A] [DecidableEq S] [DecidableEq H] [DecidableEq L]
variable {o : Ops A C H Δ L} {c : Ctx α A C S H Δ}

theorem posOf_eq (hs : Sorted c) {p : Nat} {x : Pair α (Node A C S) (MRec A S H)} (h : c.pairs[p]? = some x) : posOf c x.1 = p := by
  obtain ⟨ks, h1, h2, h3⟩ := hs.pairs
  have hso : c.pairs.Pairwise (fun x y => x.1 < y.1) := by rw [h3, List.pairwise_map]; exact h1
  have hl : p < c.pairs.length := by
    by_contra hc; rw [List.getElem?_eq_none (by omega)] at h; cases h
  have hx : c.pairs[p] = x := by rw [List.getElem?_eq_getElem hl] at h; exact Option.some.inj h
  unfold posOf
  rw [List.findIdx_eq hl]
  refine ⟨by simp [hx], ?_⟩
  intro j hj
  have := List.pairwise_iff_getElem.mp hso j p (by omega) hl hj
  rw [hx] at this
  simpa using ne_of_lt this

theorem changed_pos (hs : Sorted c) {i : List α} (h : i ∈ c.changed o) : ∃ p x, c.pairs[p]? = some x ∧ x.1 = i ∧ posOf c i = p ∧
    (c.pairs.map fun p => changedPair o p.2.1 p.2.2)[p]? = some true := by
  obtain ⟨h1, h2⟩ := (hs.changed.2 i).mp h
  have hm : ((i, c.src i, c.dst i) : Pair α (Node A C S) (MRec A S H)) ∈ c.pairs := (mem_pairs hs _).mpr ⟨rfl, h1⟩
  obtain ⟨p, hp⟩ := List.mem_iff_getElem?.mp hm
  exact ⟨p, _, hp, rfl, posOf_eq hs hp, by rw [List.getElem?_map, hp]; simp [h2]⟩

theorem pos_lt (hs : Sorted c) {p q : Nat} {x y : Pair α (Node A C S) (MRec A S H)} (hp : c.pairs[p]? = some x) (hq : c.pairs[q]? = some y)
    (h : x.1 < y.1) : p < q := by
  obtain ⟨ks, h1, h2, h3⟩ := hs.pairs
  have hso : c.pairs.Pairwise (fun x y => x.1 < y.1) := by rw [h3, List.pairwise_map]; exact h1
  have hlp : p < c.pairs.length := by
    by_contra hc; rw [List.getElem?_eq_none (by omega)] at hp; cases hp
  have hlq : q < c.pairs.length := by
    by_contra hc; rw [List.getElem?_eq_none (by omega)] at hq; cases hq
  have hx : c.pairs[p] = x := by rw [List.getElem?_eq_getElem hlp] at hp; exact Option.some.inj hp
  have hy : c.pairs[q] = y := by rw [List.getElem?_eq_getElem hlq] at hq; exact Option.some.inj hq
  by_contra hc
  rcases Nat.lt_or_eq_of_le (show q ≤ p by omega) with hc | hc
  · have := List.pairwise_iff_getElem.mp hso q p hlq hlp hc
    rw [hx, hy] at this
    exact lt_asymm h this
  · subst hc; rw [hx] at hy; subst hy; exact lt_irrefl _ h

theorem timely_local (hs : Sorted c) {N : Nat} (hN : 1 ≤ N) : Timely o c N (localSched c) := by
  constructor
  · intro i hi j hj hij
    obtain ⟨p, x, h1, rfl, h3, -⟩ := changed_pos hs hi
    obtain ⟨q, y, g1, rfl, g3, -⟩ := changed_pos hs hj
    have := pos_lt hs h1 g1 hij
    simp only [localSched, h3, g3]; omega
  · intro p x hp _
    simp only [localSched, posOf_eq hs hp]; omega

theorem timely_remote (hs : Sorted c) {N thr : Nat} (hN : thr + 2 ≤ N) (fullSig fullDiff : List Tok → Bool) :
    Timely o c N (remoteSched o c thr fullSig fullDiff) := by
  have key : ∀ i ∈ c.changed o, (sessionTokens o c thr)[(sessionTokens o c thr).idxOf (.sig (posOf c i))]? = some (.sig (posOf c i)) := by
    intro i hi
    obtain ⟨p, x, h1, rfl, h3, h4⟩ := changed_pos hs hi
    rw [h3]
    have hm := tokens_sig thr _ 0 0 p h4
    rw [Nat.zero_add] at hm
    have hlt : (sessionTokens o c thr).idxOf (.sig p) < (sessionTokens o c thr).length := List.idxOf_lt_length_of_mem hm
    rw [List.getElem?_eq_getElem hlt, List.getElem_idxOf hlt]
  have hlen : c.pairs.length = (c.pairs.map fun p => changedPair o p.2.1 p.2.2).length := by simp
  constructor
  · intro i hi j hj hij
    have ki := key i hi
    have kj := key j hj
    obtain ⟨p, x, h1, rfl, h3, -⟩ := changed_pos hs hi
    obtain ⟨q, y, g1, rfl, g3, -⟩ := changed_pos hs hj
    have hpq := pos_lt hs h1 g1 hij
    rw [h3] at ki
    rw [g3] at kj
    simp only [remoteSched, h3, g3]
    rw [hlen]
    refine (readWhen_spec thr fullSig fullDiff _ ki).2.2 _ _ ?_ kj
    by_contra hc
    obtain ⟨t1, -⟩ := tokens_read thr (c.pairs.map fun p => changedPair o p.2.1 p.2.2) 0 0
    have hle := getElem_pairwise t1 kj ki (by omega)
    simp only [Tok.read] at hle
    omega
  · intro p x hp hi
    have ki := key _ hi
    rw [posOf_eq hs hp] at ki
    simp only [remoteSched, posOf_eq hs hp]
    obtain ⟨h1, h2, -⟩ := readWhen_spec thr fullSig fullDiff _ ki
    rw [hlen]
    exact ⟨h1, le_trans h2 (by omega)⟩
end
end Verif.Cache
