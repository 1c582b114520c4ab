import Verif.Proof.CacheRun
/- How far the reading is ahead of the processing when a session runs over a connection. -/
namespace Verif.Cache
open Verif.Repo
set_option linter.unusedSectionVars false

/-! ### blocks -/

theorem blockLen_spec (full : List Tok → Bool) : ∀ (ts buf : List Tok), ts ≠ [] →
    1 ≤ blockLen full buf ts ∧ blockLen full buf ts ≤ ts.length ∧
    ∀ j t, ts[j]? = some t → t.isFlush = true → blockLen full buf ts ≤ j + 1 := by
  intro ts
  induction ts with
  | nil => intro buf h; exact absurd rfl h
  | cons t ts ih =>
    intro buf _
    unfold blockLen
    by_cases h1 : t.isFlush = true
    · simp [h1]
    · by_cases h2 : full (buf ++ [t]) = true
      · simp [h1, h2]
      · simp only [h1, h2, Bool.false_eq_true, if_false]
        by_cases hts : ts = []
        · subst hts
          refine ⟨by omega, by simp [blockLen], ?_⟩
          intro j t' hj hf
          simp [blockLen]
        · obtain ⟨g1, g2, g3⟩ := ih (buf ++ [t]) hts
          refine ⟨by omega, by simp; omega, ?_⟩
          intro j t' hj hf
          cases j with
          | zero => simp at hj; subst hj; exact absurd hf h1
          | succ j => have := g3 j t' (by simpa using hj) hf; omega

/-- the ends of the blocks: increasing, up to the end, and after every flush marker -/
theorem blockEnds_spec (full : List Tok → Bool) : ∀ (fuel k : Nat) (ts : List Tok), ts.length ≤ fuel →
    (blockEnds full fuel k ts).Pairwise (· < ·) ∧ (∀ e ∈ blockEnds full fuel k ts, k < e ∧ e ≤ k + ts.length) ∧
    (∀ j t, ts[j]? = some t → t.isFlush = true → k + j + 1 ∈ blockEnds full fuel k ts) ∧
    (ts ≠ [] → k + ts.length ∈ blockEnds full fuel k ts) := by
  intro fuel
  induction fuel with
  | zero =>
    intro k ts h
    have : ts = [] := List.length_eq_zero_iff.mp (by omega)
    subst this
    simp [blockEnds]
  | succ fuel ih =>
    intro k ts h
    cases hts : ts with
    | nil => simp [blockEnds]
    | cons t0 rest =>
      have hne : ts ≠ [] := by rw [hts]; simp
      have e0 : blockEnds full (fuel + 1) k (t0 :: rest) =
          (k + blockLen full [] ts) :: blockEnds full fuel (k + blockLen full [] ts) (ts.drop (blockLen full [] ts)) := by
        rw [hts]; simp only [blockEnds]
      obtain ⟨g1, g2, g3⟩ := blockLen_spec full ts [] hne
      rw [e0, ← hts]
      generalize hn : blockLen full [] ts = n at g1 g2 g3
      obtain ⟨i1, i2, i3, i4⟩ := ih (k + n) (ts.drop n) (by simp; omega)
      refine ⟨?_, ?_, ?_, ?_⟩
      · exact List.pairwise_cons.mpr ⟨fun e he => (i2 e he).1, i1⟩
      · intro e he
        rcases List.mem_cons.mp he with rfl | he
        · omega
        · have := i2 e he
          simp only [List.length_drop] at this
          omega
      · intro j t hj hf
        have hjn := g3 j t hj hf
        by_cases hlt : j + 1 = n
        · exact List.mem_cons.mpr (.inl (by omega))
        · refine List.mem_cons_of_mem _ ?_
          have := i3 (j - n) t (by rw [List.getElem?_drop]; rw [show n + (j - n) = j by omega]; exact hj) hf
          rw [show k + n + (j - n) + 1 = k + j + 1 by omega] at this
          exact this
      · intro _
        by_cases hlt : n = ts.length
        · exact List.mem_cons.mpr (.inl (by omega))
        · refine List.mem_cons_of_mem _ ?_
          have := i4 (fun e => by have := congrArg List.length e; simp at this; omega)
          rw [List.length_drop, show k + n + (ts.length - n) = k + ts.length by omega] at this
          exact this

theorem endFor_spec {E : List Nat} (h : E.Pairwise (· < ·)) (k : Nat) :
    (∀ e, endFor E k = some e → e ∈ E ∧ k ≤ e ∧ ∀ y ∈ E, k ≤ y → e ≤ y) ∧ (∀ y ∈ E, k ≤ y → (endFor E k).isSome = true) := by
  induction E with
  | nil => simp [endFor]
  | cons x E ih =>
    obtain ⟨h1, h2⟩ := List.pairwise_cons.mp h
    obtain ⟨i1, i2⟩ := ih h2
    unfold endFor at *
    by_cases hx : k ≤ x
    · simp only [List.find?_cons, hx, decide_true]
      refine ⟨?_, fun _ _ _ => rfl⟩
      intro e he
      simp only [Option.some.injEq] at he
      subst he
      refine ⟨by simp, hx, ?_⟩
      intro y hy _
      rcases List.mem_cons.mp hy with rfl | hy
      · exact le_refl _
      · exact le_of_lt (h1 y hy)
    · simp only [List.find?_cons, hx, decide_false]
      refine ⟨?_, ?_⟩
      · intro e he
        obtain ⟨j1, j2, j3⟩ := i1 e he
        refine ⟨List.mem_cons_of_mem _ j1, j2, ?_⟩
        intro y hy hk
        rcases List.mem_cons.mp hy with rfl | hy
        · exact absurd hk hx
        · exact j3 y hy hk
      · intro y hy hk
        rcases List.mem_cons.mp hy with rfl | hy
        · exact absurd hk hx
        · exact i2 y hy hk

/-! ### the signatures -/

/-- the number of pairs read is increasing, and at most all -/
theorem tokens_read (thr : Nat) : ∀ (bs : List Bool) (seen pos : Nat),
    (tokens thr seen pos bs).Pairwise (fun x y => x.read ≤ y.read) ∧
    ∀ t ∈ tokens thr seen pos bs, pos + 1 ≤ t.read ∧ t.read ≤ pos + bs.length := by
  intro bs
  induction bs with
  | nil => intro seen pos; simp [tokens]
  | cons b bs ih =>
    intro seen pos
    have hsig : ∀ (seen' : Nat), ((if b then [Tok.sig pos] else []) ++ tokens thr seen' (pos + 1) bs).Pairwise (fun x y => x.read ≤ y.read) ∧
        ∀ t ∈ (if b then [Tok.sig pos] else []) ++ tokens thr seen' (pos + 1) bs, pos + 1 ≤ t.read ∧ t.read ≤ pos + (b :: bs).length := by
      intro seen'
      obtain ⟨i1, i2⟩ := ih seen' (pos + 1)
      have i2' : ∀ t ∈ tokens thr seen' (pos + 1) bs, pos + 1 ≤ t.read ∧ t.read ≤ pos + (b :: bs).length := by
        intro t ht
        have := i2 t ht
        simp only [List.length_cons]; omega
      cases b with
      | false => simpa using ⟨i1, i2'⟩
      | true =>
        simp only [if_true, List.singleton_append]
        refine ⟨List.pairwise_cons.mpr ⟨fun t ht => (i2' t ht).1, i1⟩, ?_⟩
        intro t ht
        rcases List.mem_cons.mp ht with rfl | ht
        · simp [Tok.read]
        · exact i2' t ht
    unfold tokens
    by_cases h : seen + 1 > thr
    · simp only [h, if_true]
      obtain ⟨j1, j2⟩ := hsig 0
      refine ⟨List.pairwise_cons.mpr ⟨fun t ht => (j2 t ht).1, j1⟩, ?_⟩
      intro t ht
      rcases List.mem_cons.mp ht with rfl | ht
      · simp [Tok.read]
      · exact j2 t ht
    · simp only [h, if_false]
      exact hsig _

/-- a flush marker comes soon, unless everything has been read -/
theorem tokens_flush (thr : Nat) : ∀ (bs : List Bool) (seen pos : Nat), seen ≤ thr →
    (∃ t ∈ tokens thr seen pos bs, t.isFlush = true ∧ t.read ≤ pos + (thr - seen) + 1) ∨ pos + bs.length ≤ pos + (thr - seen) := by
  intro bs
  induction bs with
  | nil => intro seen pos h; right; simp
  | cons b bs ih =>
    intro seen pos h
    unfold tokens
    by_cases hs : seen + 1 > thr
    · left
      simp only [hs, if_true]
      exact ⟨.flush (pos + 1), by simp, rfl, by simp [Tok.read]⟩
    · simp only [hs, if_false]
      rcases ih (seen + 1) (pos + 1) (by omega) with ⟨t, ht, h1, h2⟩ | h1
      · left
        exact ⟨t, List.mem_append_right _ ht, h1, by omega⟩
      · right; simp only [List.length_cons]; omega

/-- after the signature of pair `p`: a flush marker before `thr + 2` further pairs have been read, or everything has been read -/
theorem tokens_ahead (thr : Nat) : ∀ (bs : List Bool) (seen pos k p : Nat),
    (tokens thr seen pos bs)[k]? = some (.sig p) →
    (∃ f t, k < f ∧ (tokens thr seen pos bs)[f]? = some t ∧ t.isFlush = true ∧ t.read ≤ p + thr + 2) ∨ pos + bs.length ≤ p + thr + 1 := by
  intro bs
  induction bs with
  | nil => intro seen pos k p h; simp [tokens] at h
  | cons b bs ih =>
    intro seen pos k p h
    have hgen : ∀ (seen' k : Nat), seen' ≤ thr → ((if b then [Tok.sig pos] else []) ++ tokens thr seen' (pos + 1) bs)[k]? = some (.sig p) →
        (∃ f t, k < f ∧ ((if b then [Tok.sig pos] else []) ++ tokens thr seen' (pos + 1) bs)[f]? = some t ∧ t.isFlush = true ∧
          t.read ≤ p + thr + 2) ∨ pos + (b :: bs).length ≤ p + thr + 1 := by
      intro seen' k hle hk
      cases b with
      | false =>
        simp only [Bool.false_eq_true, if_false, List.nil_append] at hk ⊢
        rcases ih seen' (pos + 1) k p hk with h1 | h1
        · exact .inl h1
        · right; simp only [List.length_cons]; omega
      | true =>
        simp only [if_true, List.singleton_append] at hk ⊢
        cases k with
        | zero =>
          simp only [List.getElem?_cons_zero, Option.some.injEq, Tok.sig.injEq] at hk
          subst hk
          rcases tokens_flush thr bs seen' (pos + 1) hle with ⟨t, ht, h1, h2⟩ | h1
          · left
            obtain ⟨f, hf⟩ := List.mem_iff_getElem?.mp ht
            exact ⟨f + 1, t, by omega, by simpa using hf, h1, by omega⟩
          · right; simp only [List.length_cons]; omega
        | succ k =>
          simp only [List.getElem?_cons_succ] at hk
          rcases ih seen' (pos + 1) k p hk with ⟨f, t, h1, h2, h3, h4⟩ | h1
          · exact .inl ⟨f + 1, t, by omega, by simpa using h2, h3, h4⟩
          · right; simp only [List.length_cons]; omega
    unfold tokens at h ⊢
    by_cases hs : seen + 1 > thr
    · simp only [hs, if_true] at h ⊢
      cases k with
      | zero => simp at h
      | succ k =>
        simp only [List.getElem?_cons_succ] at h
        rcases hgen 0 k (Nat.zero_le _) h with ⟨f, t, h1, h2, h3, h4⟩ | h1
        · exact .inl ⟨f + 1, t, by omega, by simpa using h2, h3, h4⟩
        · exact .inr h1
    · simp only [hs, if_false] at h ⊢
      exact hgen _ k (by omega) h

/-! ### reading and processing -/

theorem readAt_mono (thr : Nat) (bs : List Bool) {e e' : Nat} (h0 : 0 < e) (h : e ≤ e') (he : e' ≤ (tokens thr 0 0 bs).length) :
    readAt (tokens thr 0 0 bs) bs.length e ≤ readAt (tokens thr 0 0 bs) bs.length e' := by
  obtain ⟨t1, t2⟩ := tokens_read thr bs 0 0
  by_cases heq : e = e'
  · rw [heq]
  have hlt : e < (tokens thr 0 0 bs).length := by omega
  have ht2 : ∀ t ∈ tokens thr 0 0 bs, t.read ≤ bs.length := fun t ht => by have := t2 t ht; omega
  generalize hts : tokens thr 0 0 bs = ts at *
  have g1 : ts[e - 1]? = some ts[e - 1] := List.getElem?_eq_getElem (by omega)
  have g2 : ts[e' - 1]? = some ts[e' - 1] := List.getElem?_eq_getElem (by omega)
  have hle : ts[e - 1].read ≤ ts[e' - 1].read := List.pairwise_iff_getElem.mp t1 (e - 1) (e' - 1) (by omega) (by omega) (by omega)
  have hb := ht2 ts[e' - 1] (List.getElem_mem _)
  unfold readAt
  rw [g1, g2]
  cases h1 : ts[e - 1] with
  | flush n =>
    cases h2 : ts[e' - 1] with
    | flush n' => rw [h1, h2] at hle; exact hle
    | sig p' =>
      rw [h1, h2] at hle
      rw [h2] at hb
      simp only [Tok.read] at hle hb ⊢
      by_cases hl : ts.length ≤ e'
      · rw [if_pos hl]; omega
      · rw [if_neg hl]; exact hle
  | sig p =>
    have hl1 : ¬ ts.length ≤ e := by omega
    cases h2 : ts[e' - 1] with
    | flush n' => rw [h1, h2] at hle; simp only [hl1, if_false]; exact hle
    | sig p' =>
      rw [h1, h2] at hle
      rw [h2] at hb
      simp only [Tok.read] at hle hb ⊢
      rw [if_neg hl1]
      by_cases hl : ts.length ≤ e'
      · rw [if_pos hl]; omega
      · rw [if_neg hl]; exact hle

/-- When a diff is processed, its pair has been read, and not many more; later diffs are processed later. -/
theorem readWhen_spec (thr : Nat) (fullSig fullDiff : List Tok → Bool) (bs : List Bool) {k p : Nat}
    (hk : (tokens thr 0 0 bs)[k]? = some (.sig p)) :
    p < readWhen fullSig fullDiff (tokens thr 0 0 bs) bs.length k ∧
    readWhen fullSig fullDiff (tokens thr 0 0 bs) bs.length k ≤ p + thr + 2 ∧
    ∀ k' p', k ≤ k' → (tokens thr 0 0 bs)[k']? = some (.sig p') →
      readWhen fullSig fullDiff (tokens thr 0 0 bs) bs.length k ≤ readWhen fullSig fullDiff (tokens thr 0 0 bs) bs.length k' := by
  have hahead := tokens_ahead thr bs 0 0 k p hk
  obtain ⟨tr1, tr2⟩ := tokens_read thr bs 0 0
  have hmono := @readAt_mono thr bs
  generalize hts : tokens thr 0 0 bs = ts at *
  obtain ⟨d1, d2, d3, d4⟩ := blockEnds_spec fullDiff ts.length 0 ts (le_refl _)
  obtain ⟨s1, s2, s3, s4⟩ := blockEnds_spec fullSig ts.length 0 ts (le_refl _)
  -- where a diff is processed
  have hend : ∀ k, k < ts.length → ∃ e e', readWhen fullSig fullDiff ts bs.length k = readAt ts bs.length e' ∧
      k + 1 ≤ e ∧ e ≤ e' ∧ e' ≤ ts.length ∧ e ∈ blockEnds fullDiff ts.length 0 ts ∧ e' ∈ blockEnds fullSig ts.length 0 ts ∧
      (∀ y ∈ blockEnds fullDiff ts.length 0 ts, k + 1 ≤ y → e ≤ y) ∧ (∀ y ∈ blockEnds fullSig ts.length 0 ts, e ≤ y → e' ≤ y) := by
    intro k hk
    have hne : ts ≠ [] := by intro h; rw [h] at hk; simp at hk
    obtain ⟨e, he⟩ := Option.isSome_iff_exists.mp ((endFor_spec d1 (k + 1)).2 _ (d4 hne) (by omega))
    obtain ⟨a1, a2, a3⟩ := (endFor_spec d1 (k + 1)).1 e he
    have hel := (d2 e a1).2
    obtain ⟨e', he'⟩ := Option.isSome_iff_exists.mp ((endFor_spec s1 e).2 _ (s4 hne) (by omega))
    obtain ⟨b1, b2, b3⟩ := (endFor_spec s1 e).1 e' he'
    have := (s2 e' b1).2
    exact ⟨e, e', by simp only [readWhen, he, Option.bind_some, he'], a2, b2, by omega, a1, b1, a3, b3⟩
  have hkl : k < ts.length := by
    by_contra hc
    rw [List.getElem?_eq_none (by omega)] at hk; cases hk
  obtain ⟨e, e', hr, h1, h2, h3, he1, he2, h4, h5⟩ := hend k hkl
  have htk : ts[k] = .sig p := by
    have := List.getElem?_eq_getElem hkl
    rw [hk] at this; exact (Option.some.inj this).symm
  have hrange : ∀ t ∈ ts, t.read ≤ bs.length := fun t ht => by have := tr2 t ht; omega
  have hge : e' - 1 < ts.length := by omega
  have g : ts[e' - 1]? = some ts[e' - 1] := List.getElem?_eq_getElem hge
  have hle : ts[k].read ≤ ts[e' - 1].read := by
    rcases Nat.lt_or_eq_of_le (show k ≤ e' - 1 by omega) with hx | hx
    · exact List.pairwise_iff_getElem.mp tr1 k (e' - 1) hkl hge hx
    · subst hx; exact le_refl _
  have hb := hrange ts[e' - 1] (List.getElem_mem _)
  rw [htk] at hle
  refine ⟨?_, ?_, ?_⟩
  · rw [hr]; unfold readAt; rw [g]
    cases hx : ts[e' - 1] with
    | flush n => rw [hx] at hle; simp only [Tok.read] at hle ⊢; omega
    | sig q =>
      rw [hx] at hle hb
      simp only [Tok.read] at hle hb ⊢
      by_cases hl : ts.length ≤ e'
      · rw [if_pos hl]; omega
      · rw [if_neg hl]; omega
  · rw [hr]
    rcases hahead with ⟨f, t, hf1, hf2, hf3, hf4⟩ | hall
    · -- a flush marker ends the block of diffs and the block of signatures
      have hfl : f < ts.length := by
        by_contra hc
        rw [List.getElem?_eq_none (by omega)] at hf2; cases hf2
      have q1 : e ≤ f + 1 := by
        have := h4 (0 + f + 1) (d3 f t hf2 hf3) (by omega); omega
      have q2 : e' ≤ f + 1 := by
        have := h5 (0 + f + 1) (s3 f t hf2 hf3) (by omega); omega
      have htf : ts[f] = t := by
        have := List.getElem?_eq_getElem hfl
        rw [hf2] at this; exact (Option.some.inj this).symm
      have hle2 : ts[e' - 1].read ≤ t.read := by
        rw [← htf]
        rcases Nat.lt_or_eq_of_le (show e' - 1 ≤ f by omega) with hx | hx
        · exact List.pairwise_iff_getElem.mp tr1 (e' - 1) f hge hfl hx
        · subst hx; exact le_refl _
      unfold readAt; rw [g]
      cases hx : ts[e' - 1] with
      | flush n => rw [hx] at hle2; simp only [show (Tok.flush n).read = n from rfl] at hle2 ⊢; omega
      | sig q =>
        have hne : e' - 1 ≠ f := by
          intro hx'; subst hx'
          rw [hx] at htf; rw [← htf] at hf3; cases hf3
        have hl : ¬ ts.length ≤ e' := by omega
        rw [hx] at hle2
        simp only [show (Tok.sig q).read = q + 1 from rfl, hl, if_false] at hle2 ⊢; omega
    · have : readAt ts bs.length e' ≤ bs.length := by
        unfold readAt; rw [g]
        cases hx : ts[e' - 1] with
        | flush n => rw [hx] at hb; exact hb
        | sig q =>
          rw [hx] at hb
          simp only [Tok.read] at hb ⊢
          by_cases hl : ts.length ≤ e'
          · rw [if_pos hl]
          · rw [if_neg hl]; exact hb
      omega
  · intro k' p' hkk hk'
    have hkl' : k' < ts.length := by
      by_contra hc
      rw [List.getElem?_eq_none (by omega)] at hk'; cases hk'
    obtain ⟨f, f', hr', j1, j2, j3, hf1, hf2, j4, j5⟩ := hend k' hkl'
    rw [hr, hr']
    have hef : e ≤ f := h4 f hf1 (by omega)
    have hef' : e' ≤ f' := h5 f' hf2 (by omega)
    exact hmono (by omega) hef' j3
end Verif.Cache
