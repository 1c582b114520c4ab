import Verif.Spec.Security
import Verif.Proof.Glob
import Mathlib.Data.List.Infix
import Mathlib.Order.MinMax
/- Lemmas about paths for C46. -/
namespace Verif.Security
open Verif.Quoting Verif.Glob Verif.Spec.Security

/-- the components that matter -/
def keep (cs : List Bytes) : List Bytes := cs.filter fun x => x ≠ [] && x ≠ [46]

theorem kept_eq (p : Bytes) : kept p = keep (split p) := rfl

theorem keep_append (a b : List Bytes) : keep (a ++ b) = keep a ++ keep b := List.filter_append ..

theorem keep_keep (a : List Bytes) : keep (keep a) = keep a := by simp [keep]

theorem walk_keep (cur cs : List Bytes) : walk cur (keep cs) = walk cur cs := by
  induction cs generalizing cur with
  | nil => rfl
  | cons c cs ih =>
    by_cases h : c = [] ∨ c = [46]
    · have : keep (c :: cs) = keep cs := by rcases h with h | h <;> simp [keep, h]
      rw [this, ih, walk, if_pos h]
    · have : keep (c :: cs) = c :: keep cs := by
        push Not at h
        simp [keep, h.1, h.2]
      rw [this, walk, walk, ih]

theorem walk_noup {cur cs : List Bytes} (h : [46, 46] ∉ cs) : walk cur cs = cur ++ keep cs := by
  induction cs generalizing cur with
  | nil => simp [walk, keep]
  | cons c cs ih =>
    have h1 : c ≠ [46, 46] := fun e => h (by simp [e])
    have h2 : [46, 46] ∉ cs := fun e => h (List.mem_cons_of_mem _ e)
    rw [walk, ih h2]
    by_cases h3 : c = [] ∨ c = [46]
    · rw [if_pos h3]
      have : keep (c :: cs) = keep cs := by rcases h3 with h | h <;> simp [keep, h]
      rw [this]
    · rw [if_neg h3, if_neg h1]
      push Not at h3
      simp [keep, h3.1, h3.2]

theorem split_noslash {c : Bytes} (h : 47 ∉ c) : split c = [c] := by
  induction c with
  | nil => rfl
  | cons a c ih =>
    rw [split, if_neg (fun e => h (by simp [e])), ih (fun e => h (List.mem_cons_of_mem _ e))]

theorem noslash_of_split {p c : Bytes} (h : c ∈ split p) : 47 ∉ c := by
  induction p generalizing c with
  | nil => simp [split] at h; simp [h]
  | cons a p ih =>
    rw [split] at h
    split at h
    · rcases List.mem_cons.mp h with h | h
      · simp [h]
      · exact ih h
    · next ha =>
      cases hs : split p with
      | nil => exact absurd hs (split_ne_nil p)
      | cons q qs =>
        rw [hs] at h
        rcases List.mem_cons.mp h with h | h
        · rw [h]
          intro h'
          rcases List.mem_cons.mp h' with h' | h'
          · exact ha h'.symm
          · exact ih (by rw [hs]; exact List.mem_cons_self) h'
        · exact ih (by rw [hs]; exact List.mem_cons_of_mem _ h)

theorem split_join {cs : List Bytes} (h : ∀ c ∈ cs, 47 ∉ c) (hne : cs ≠ []) : split (join cs) = cs := by
  induction cs with
  | nil => exact absurd rfl hne
  | cons a r ih =>
    cases r with
    | nil => exact split_noslash (h a List.mem_cons_self)
    | cons b r =>
      rw [join, split_append, split_noslash (h a List.mem_cons_self), ih (fun c hc => h c (List.mem_cons_of_mem _ hc)) (by simp)]
      · rfl
      · simp

/-- names -/
theorem kept_plain {p c : Bytes} (h : c ∈ kept p) : Plain c := by
  have h' := List.mem_filter.mp h
  refine ⟨fun e => ?_, noslash_of_split h'.1⟩
  simp [e] at h'

theorem joinOne_plain {a c : Bytes} (hc : Plain c) (ha : a ≠ []) (hl : a.getLast? ≠ some 47) : joinOne a c = a ++ 47 :: c := by
  rw [joinOne, if_neg, if_neg]
  · simp [ha, hl]
  · intro e
    obtain ⟨r, hr⟩ := List.head?_eq_some_iff.mp e
    exact hc.2 (by rw [hr]; exact List.mem_cons_self)

theorem last_of_plain {a c : Bytes} (hc : Plain c) : (a ++ c).getLast? ≠ some 47 := by
  intro e
  obtain ⟨r, hr⟩ := List.getLast?_eq_some_iff.mp e
  have h1 : (a ++ c).getLast (by simp [hc.1]) = 47 := by simp [hr]
  rw [List.getLast_append_of_ne_nil _ hc.1] at h1
  exact hc.2 (h1 ▸ List.getLast_mem hc.1)

theorem foldl_joinOne {a : Bytes} {cs : List Bytes} (h : ∀ c ∈ cs, Plain c) (ha : a ≠ []) (hl : a.getLast? ≠ some 47) :
    cs.foldl joinOne a = join (a :: cs) := by
  induction cs generalizing a with
  | nil => rfl
  | cons c cs ih =>
    have hc := h c List.mem_cons_self
    rw [List.foldl_cons, joinOne_plain hc ha hl, ih (fun x hx => h x (List.mem_cons_of_mem _ hx)) (by simp)]
    · cases cs with
      | nil => rfl
      | cons d cs => simp [join]
    · have := last_of_plain (a := a ++ [47]) hc
      simpa using this

theorem pathJoin_nil {cs : List Bytes} (h : ∀ c ∈ cs, Plain c) : pathJoin [] cs = join cs := by
  cases cs with
  | nil => rfl
  | cons c cs =>
    have hc := h c List.mem_cons_self
    have : joinOne [] c = c := by
      rw [joinOne]
      split
      · rfl
      · simp
    rw [pathJoin, List.foldl_cons, this]
    exact foldl_joinOne (fun x hx => h x (List.mem_cons_of_mem _ hx)) hc.1 (by simpa using last_of_plain (a := []) hc)

/-- The path with the kept components only -/
theorem keep_split_join {p : Bytes} : keep (split (pathJoin [] (kept p))) = kept p := by
  rw [pathJoin_nil (fun c hc => kept_plain hc)]
  by_cases h : kept p = []
  · rw [h]; rfl
  · rw [split_join (fun c hc => (kept_plain hc).2) h, kept_eq, keep_keep]

theorem split_slash (p : Bytes) : split (47 :: p) = [] :: split p := by rw [split, if_pos rfl]

theorem kept_normalize (p : Bytes) : kept (normalize p) = kept p := by
  rw [kept_eq (normalize p), normalize]
  split
  · split
    · rw [split_slash, split_slash]
      show keep (split _) = _
      exact keep_split_join
    · rw [split_slash]
      show keep (split _) = _
      exact keep_split_join
  · split
    · next h =>
      have : kept p = [] := by
        rw [← keep_split_join, h]; rfl
      rw [this]; rfl
    · exact keep_split_join

/-- absolute paths -/
def isAbs (p : Bytes) : Prop := p.head? = some 47

theorem abs_iff {p : Bytes} : p.head? = some 47 ↔ ∃ x xs, split p = [] :: x :: xs := by
  cases p with
  | nil => simp [split]
  | cons a p =>
    by_cases h : a = 47
    · subst h
      rw [split_slash]
      cases hs : split p with
      | nil => exact absurd hs (split_ne_nil p)
      | cons q qs => simp
    · rw [split, if_neg h]
      cases hs : split p with
      | nil => exact absurd hs (split_ne_nil p)
      | cons q qs => simp [h]

theorem join_head {cs : List Bytes} (h : ∀ c ∈ cs, Plain c) : (join cs).head? ≠ some 47 := by
  cases cs with
  | nil => simp [join]
  | cons c cs =>
    have hc := h c List.mem_cons_self
    obtain ⟨b, c', rfl⟩ := List.exists_cons_of_ne_nil hc.1
    have : b ≠ 47 := fun e => hc.2 (by simp [e])
    cases cs with
    | nil => simpa [join] using this
    | cons d cs => simpa [join] using this

theorem head_normalize (p : Bytes) : (normalize p).head? = some 47 ↔ p.head? = some 47 := by
  rw [normalize]
  split
  · next h => split <;> simp [h]
  · next h =>
    split
    · simp [h]
    · simp only [h, iff_false]
      rw [pathJoin_nil (fun c hc => kept_plain hc)]
      exact join_head (fun c hc => kept_plain hc)

theorem up_normalize (p : Bytes) : [46, 46] ∈ split (normalize p) ↔ [46, 46] ∈ split p := by
  have e : ∀ cs : List Bytes, [46, 46] ∈ cs ↔ [46, 46] ∈ keep cs := by
    intro cs
    simp [keep, List.mem_filter]
  rw [e, e (split p)]
  exact Iff.of_eq (congrArg _ (kept_normalize p))

theorem resolve_keep (cwd : List Bytes) (p : Bytes) : resolve cwd p = walk (if p.head? = some 47 then [] else cwd) (kept p) := by
  rw [resolve, kept_eq, walk_keep]

theorem resolve_noup (cwd : List Bytes) {p : Bytes} (h : [46, 46] ∉ split p) :
    resolve cwd p = (if p.head? = some 47 then [] else cwd) ++ kept p := by
  rw [resolve, walk_noup h]; rfl

theorem resolve_normalize (cwd : List Bytes) (p : Bytes) : resolve cwd (normalize p) = resolve cwd p := by
  rw [resolve_keep, resolve_keep, kept_normalize]
  by_cases h : p.head? = some 47
  · rw [if_pos h, if_pos ((head_normalize p).mpr h)]
  · rw [if_neg h, if_neg (fun e => h ((head_normalize p).mp e))]

theorem normalize_ne_nil (p : Bytes) : normalize p ≠ [] := by
  rw [normalize]
  split
  · split <;> simp
  · split
    · simp
    · assumption

/-- What the check of a path means -/
theorem vetPath_cases {r p : Bytes} (h : vetPath (normalize r) p = true) :
    [46, 46] ∉ split p ∧ ((r.head? = some 47 ∧ kept r = []) ∨
      ([46, 46] ∉ split r ∧ (r.head? = some 47 ↔ p.head? = some 47) ∧ kept r <+: kept p)) := by
  rw [vetPath] at h
  split at h
  · cases h
  · next hup =>
    refine ⟨fun e => hup ((up_normalize p).mpr e), ?_⟩
    split at h
    · next hr =>
      left
      constructor
      · rw [← head_normalize, hr]; rfl
      · rw [← kept_normalize, hr]; rfl
    · right
      simp only [decide_eq_true_eq] at h
      have hpre : split (normalize r) <+: split (normalize p) := by rw [← h]; exact List.take_prefix _ _
      refine ⟨fun e => hup (hpre.subset ((up_normalize r).mpr e)), ?_, ?_⟩
      · rw [← head_normalize r, ← head_normalize p]
        obtain ⟨t, ht⟩ := hpre
        rw [abs_iff, abs_iff]
        constructor
        · rintro ⟨x, xs, e⟩
          exact ⟨x, xs ++ t, by rw [← ht, e]; rfl⟩
        · rintro ⟨x, xs, e⟩
          rw [← ht] at e
          cases hs : split (normalize r) with
          | nil => exact absurd hs (split_ne_nil _)
          | cons a as =>
            rw [hs] at e
            obtain ⟨rfl, e⟩ := List.cons.inj e
            cases as with
            | nil =>
              exfalso
              apply normalize_ne_nil r
              have := join_split (normalize r)
              rw [hs] at this
              exact this.symm
            | cons b bs => exact ⟨b, bs, rfl⟩
      · obtain ⟨t, ht⟩ := hpre
        rw [← kept_normalize r, ← kept_normalize p, kept_eq, kept_eq, ← ht, keep_append]
        exact List.prefix_append _ _

theorem vetPath_within {cwd : List Bytes} {r p : Bytes} (h : vetPath (normalize r) p = true) : Within cwd r p := by
  obtain ⟨h1, h2 | ⟨h2, h3, h4⟩⟩ := vetPath_cases h
  · have : resolve cwd r = [] := by rw [resolve_keep, if_pos h2.1, h2.2]; rfl
    rw [Within, this]
    exact List.nil_prefix
  · rw [Within, resolve_noup cwd h1, resolve_noup cwd h2]
    by_cases hr : r.head? = some 47
    · rw [if_pos hr, if_pos (h3.mp hr)]; simpa using h4
    · rw [if_neg hr, if_neg (fun e => hr (h3.mpr e))]; exact (List.prefix_append_right_inj _).mpr h4

/-! ### the way up -/

theorem joinOne_prefix {cwd : List Bytes} {x c : Bytes} (hc : Plain c) (hup : [46, 46] ∉ split (joinOne x c)) :
    [46, 46] ∉ split x ∧ Within cwd x (joinOne x c) := by
  have hh : c.head? ≠ some 47 := by
    intro e
    obtain ⟨r, hr⟩ := List.head?_eq_some_iff.mp e
    exact hc.2 (by rw [hr]; exact List.mem_cons_self)
  have key : ∃ t, joinOne x c = x ++ t ∧ (x = [] ∨ ∃ ts, split x <+: split (x ++ t) ∨ split (x ++ t) = (split x).dropLast ++ ts ∧ (split x).getLast? = some []) := by
    rw [joinOne, if_neg hh]
    split
    · next h =>
      refine ⟨c, rfl, ?_⟩
      by_cases hx : x = []
      · exact .inl hx
      · right
        have hl : x.getLast? = some 47 := by simpa [hx] using h
        obtain ⟨y, hy⟩ := List.getLast?_eq_some_iff.mp hl
        refine ⟨split c, .inr ?_⟩
        have e1 : split x = split y ++ [[]] := by
          rw [hy, split_append]; rfl
        rw [e1]
        refine ⟨?_, by simp⟩
        rw [hy, List.append_assoc, List.singleton_append, split_append]; simp
    · exact ⟨47 :: c, rfl, .inr ⟨[], .inl (by rw [split_append]; exact List.prefix_append _ _)⟩⟩
  obtain ⟨t, e, hk⟩ := key
  rw [e] at hup ⊢
  rcases hk with rfl | ⟨ts, hk⟩
  · refine ⟨by simp [split], ?_⟩
    rw [Within, resolve_noup cwd hup]
    have h47 : ([] ++ t : Bytes).head? ≠ some 47 := by
      simp only [joinOne, if_neg hh] at e
      simp at e
      rw [← e]; simpa using hh
    rw [if_neg h47]
    exact List.prefix_append _ _
  · have hx : x.head? = some 47 ↔ (x ++ t).head? = some 47 := by
      cases x with
      | nil =>
        simp only [joinOne, if_neg hh] at e
        simp at e
        rw [← e]; simpa using hh
      | cons a x => simp
    have h1 : [46, 46] ∉ split x := by
      intro hm
      rcases hk with hk | ⟨hk, hl⟩
      · exact hup (hk.subset hm)
      · obtain ⟨ys, hys⟩ := List.getLast?_eq_some_iff.mp hl
        rw [hys] at hm hk
        simp only [List.mem_append, List.mem_singleton, List.cons_ne_nil, or_false] at hm
        apply hup
        rw [hk]
        simp [hm]
    refine ⟨h1, ?_⟩
    rw [Within, resolve_noup cwd hup, resolve_noup cwd h1]
    have : kept x <+: kept (x ++ t) := by
      rw [kept_eq, kept_eq]
      rcases hk with ⟨u, hk⟩ | ⟨hk, hl⟩
      · rw [← hk, keep_append]; exact List.prefix_append _ _
      · obtain ⟨ys, hys⟩ := List.getLast?_eq_some_iff.mp hl
        rw [hk, hys, keep_append, keep_append]
        simp only [List.dropLast_concat]
        have : keep [[]] = [] := rfl
        rw [this, List.append_nil]; exact List.prefix_append _ _
    by_cases hx' : x.head? = some 47
    · rw [if_pos hx', if_pos (hx.mp hx')]; simpa using this
    · rw [if_neg hx', if_neg (fun e => hx' (hx.mpr e))]; exact (List.prefix_append_right_inj _).mpr this

theorem dirname_within {cwd : List Bytes} {p : Bytes} (hup : [46, 46] ∉ split p) :
    [46, 46] ∉ split (if dirname p ≠ [] then dirname p else [47]) ∧ Within cwd (if dirname p ≠ [] then dirname p else [47]) p := by
  have hupn : [46, 46] ∉ split (normalize p) := fun e => hup ((up_normalize p).mp e)
  rw [dirname]
  split
  · next h47 =>
    have hs : ∃ a b cs, split (normalize p) = a :: b :: cs := by
      cases hs : split (normalize p) with
      | nil => exact absurd hs (split_ne_nil _)
      | cons a as =>
        cases as with
        | nil =>
          exfalso
          have := join_split (normalize p)
          rw [hs] at this
          exact noslash_of_split (p := normalize p) (c := a) (by simp [hs]) (by rw [show a = normalize p from this]; exact h47)
        | cons b cs => exact ⟨a, b, cs, rfl⟩
    obtain ⟨a, b, cs, hs⟩ := hs
    have hD : (split (normalize p)).dropLast ≠ [] := by rw [hs]; simp
    have hDs : split (join (split (normalize p)).dropLast) = (split (normalize p)).dropLast :=
      split_join (fun c hc => noslash_of_split (List.mem_of_mem_dropLast hc)) hD
    by_cases hd : join (split (normalize p)).dropLast = []
    · rw [if_neg (by simp [hd])]
      have hD1 : (split (normalize p)).dropLast = [[]] := by rw [← hDs, hd]; rfl
      have habs : p.head? = some 47 := by
        rw [← head_normalize, abs_iff]
        rw [hs] at hD1
        cases cs with
        | nil => simp at hD1; exact ⟨b, [], by rw [hs, hD1]⟩
        | cons c cs => simp at hD1
      refine ⟨by simp [split], ?_⟩
      rw [Within, resolve_noup cwd (p := [47]) (by simp [split])]
      exact List.nil_prefix
    · rw [if_pos hd]
      have hup' : [46, 46] ∉ split (join (split (normalize p)).dropLast) := by
        rw [hDs]; exact fun e => hupn (List.mem_of_mem_dropLast e)
      refine ⟨hup', ?_⟩
      rw [Within, resolve_noup cwd hup', ← resolve_normalize cwd p, resolve_noup cwd hupn]
      have hk : kept (join (split (normalize p)).dropLast) <+: kept (normalize p) := by
        rw [kept_eq, hDs, kept_eq]
        obtain ⟨z, hz⟩ : ∃ z, split (normalize p) = (split (normalize p)).dropLast ++ [z] :=
          ⟨_, (List.dropLast_concat_getLast (split_ne_nil _)).symm⟩
        conv_rhs => rw [hz]
        rw [keep_append]
        exact List.prefix_append _ _
      have ha : (join (split (normalize p)).dropLast).head? = some 47 ↔ (normalize p).head? = some 47 := by
        rw [abs_iff, abs_iff, hDs, hs]
        constructor
        · rintro ⟨x, xs, e⟩
          cases cs with
          | nil => simp at e
          | cons c cs => simp at e; exact ⟨b, c :: cs, by rw [e.1]⟩
        · rintro ⟨x, xs, e⟩
          obtain ⟨rfl, e⟩ := List.cons.inj e
          cases cs with
          | nil =>
            exfalso
            apply hd
            rw [hs]; rfl
          | cons c cs => exact ⟨b, (c :: cs).dropLast, rfl⟩
      by_cases h : (normalize p).head? = some 47
      · rw [if_pos h, if_pos (ha.mpr h)]; simpa using hk
      · rw [if_neg h, if_neg (fun e => h (ha.mp e))]; exact (List.prefix_append_right_inj _).mpr hk
  · next h47 =>
    have hp : p.head? ≠ some 47 := by
      rw [Ne, ← head_normalize]
      intro e
      obtain ⟨r, hr⟩ := List.head?_eq_some_iff.mp e
      exact h47 (by rw [hr]; exact List.mem_cons_self)
    rw [if_pos (by simp)]
    have : resolve cwd [46] = cwd := by simp [resolve, split, walk]
    refine ⟨by simp [split], ?_⟩
    rw [Within, this, resolve_noup cwd hup, if_neg hp]
    exact List.prefix_append _ _

/-- the path of an rpath -/
def pathOf (rp : Bytes × List Bytes) : Bytes := pathJoin rp.1 rp.2

theorem parent_within {cwd : List Bytes} {rp : Bytes × List Bytes} (hi : ∀ c ∈ rp.2, Plain c) (hup : [46, 46] ∉ split (pathOf rp)) :
    (∀ c ∈ (parentRp rp).2, Plain c) ∧ [46, 46] ∉ split (pathOf (parentRp rp)) ∧ Within cwd (pathOf (parentRp rp)) (pathOf rp) := by
  obtain ⟨b, i⟩ := rp
  by_cases h : i = []
  · subst h
    have := dirname_within (cwd := cwd) hup
    rw [parentRp, if_neg (by simp)]
    change _ ∧ [46, 46] ∉ split (pathOf (if dirname (pathOf (b, [])) ≠ [] then _ else _)) ∧ Within cwd (pathOf (if dirname (pathOf (b, [])) ≠ [] then _ else _)) _
    by_cases hd : dirname (pathOf (b, [])) ≠ []
    · rw [if_pos hd] at this ⊢
      refine ⟨?_, this.1, this.2⟩
      show ∀ c ∈ (if dirname (pathOf (b, [])) ≠ [] then (dirname (pathOf (b, [])), []) else ([47], []) : Bytes × List Bytes).2, Plain c
      rw [if_pos hd]; simp
    · rw [if_neg hd] at this ⊢
      refine ⟨?_, this.1, this.2⟩
      show ∀ c ∈ (if dirname (pathOf (b, [])) ≠ [] then (dirname (pathOf (b, [])), []) else ([47], []) : Bytes × List Bytes).2, Plain c
      rw [if_neg hd]; simp
  · have e : i = i.dropLast ++ [i.getLast h] := (List.dropLast_concat_getLast h).symm
    have e2 : pathOf (b, i) = joinOne (pathOf (b, i.dropLast)) (i.getLast h) := by
      show pathJoin b i = _
      conv_lhs => rw [e]
      simp [pathJoin, pathOf]
    have hp : parentRp (b, i) = (b, i.dropLast) := by rw [parentRp, if_pos h]
    rw [hp]
    refine ⟨fun c hc => hi c (List.mem_of_mem_dropLast hc), ?_⟩
    rw [e2] at hup ⊢
    exact joinOne_prefix (hi _ (List.getLast_mem h)) hup

theorem searchUp_within {w : World} {cwd : List Bytes} {r : Bytes}
    (hw : ∀ p, w.isRepo p = true → Within cwd p r → Within cwd r p) {n : Nat} {rp rp' : Bytes × List Bytes}
    (hi : ∀ c ∈ rp.2, Plain c) (hup : [46, 46] ∉ split (pathOf rp)) (hr : Within cwd r (pathOf rp)) (h : searchUp w n rp = some rp') :
    Within cwd r (pathOf rp') := by
  suffices H : ∀ rp, (∀ c ∈ rp.2, Plain c) → [46, 46] ∉ split (pathOf rp) → (∃ q, Within cwd (pathOf rp) q ∧ Within cwd r q) →
      searchUp w n rp = some rp' → Within cwd r (pathOf rp') from H rp hi hup ⟨pathOf rp, List.prefix_rfl, hr⟩ h
  clear hi hup hr h rp
  induction n with
  | zero => intro rp _ _ _ h; cases h
  | succ n ih =>
    intro rp hi hup ⟨q, h1, h2⟩ h
    obtain ⟨hi', hup', hin⟩ := parent_within (cwd := cwd) hi hup
    rw [searchUp] at h
    split at h
    · next hrepo =>
      cases h
      have : Within cwd (pathOf (parentRp rp)) q := hin.trans h1
      rcases List.prefix_or_prefix_of_prefix this h2 with h3 | h3
      · exact hw _ hrepo h3
      · exact h3
    · exact ih (parentRp rp) hi' hup' ⟨q, hin.trans h1, h2⟩ h

theorem prefix_of_no_mem {α : Type*} {a b c : List α} {x : α} (h : a <+: b ++ x :: c) (hx : x ∉ a) : a <+: b := by
  rcases Nat.lt_or_ge b.length a.length with hl | hl
  · exfalso
    have : x ∈ a := by
      have h2 : b ++ [x] <+: a := by
        apply List.prefix_of_prefix_length_le (l₃ := b ++ x :: c) ⟨c, by simp⟩ h
        simp; omega
      exact h2.subset (by simp)
    exact hx this
  · exact List.prefix_of_prefix_length_le h (List.prefix_append _ _) hl

theorem repositoryDir_within {w : World} {cwd : List Bytes} {r : Bytes}
    (hw : ∀ p, w.isRepo p = true → Within cwd p r → Within cwd r p) (hdata : dataName ∉ resolve cwd r) {rp : Bytes × List Bytes}
    (hi : ∀ c ∈ rp.2, Plain c) (hup : [46, 46] ∉ split (pathOf rp)) (hin : Within cwd r (pathOf rp)) : Within cwd r (pathOf (repositoryDir w rp)) := by
  rw [repositoryDir]
  split
  · split
    · next hm =>
      change Within cwd r (join ((split (pathOf rp)).take ((split (pathOf rp)).idxOf dataName)))
      change dataName ∈ split (pathOf rp) at hm
      generalize pathOf rp = p at *
      have hk : (split p).idxOf dataName < (split p).length := List.idxOf_lt_length_iff.mpr hm
      have hsp : split p = (split p).take ((split p).idxOf dataName) ++ dataName :: (split p).drop ((split p).idxOf dataName + 1) := by
        have h5 := List.getElem_idxOf hk
        conv_lhs => rw [← List.take_append_drop ((split p).idxOf dataName) (split p)]
        rw [List.drop_eq_getElem_cons hk, h5]
      generalize (split p).take ((split p).idxOf dataName) = t at *
      have hkr : resolve cwd r <+: (if p.head? = some 47 then [] else cwd) ++ keep t := by
        refine prefix_of_no_mem (c := keep ((split p).drop ((split p).idxOf dataName + 1))) (x := dataName) ?_ hdata
        have e : keep (split p) = keep t ++ dataName :: keep ((split p).drop ((split p).idxOf dataName + 1)) := by
          conv_lhs => rw [hsp]
          rw [keep_append]
          congr 1
        rw [Within, resolve_noup cwd hup, kept_eq, e] at hin
        rw [List.append_assoc]
        exact hin
      by_cases ht : t = [] ∨ t = [[]]
      · have hj : join t = [] := by rcases ht with rfl | rfl <;> rfl
        have hkt : keep t = [] := by rcases ht with rfl | rfl <;> rfl
        rw [hkt, List.append_nil] at hkr
        have : resolve cwd [] = cwd := by simp [resolve, split, walk]
        rw [hj, Within, this]
        split at hkr
        · rw [List.prefix_nil.mp hkr]; exact List.nil_prefix
        · exact hkr
      · push Not at ht
        have hst : split (join t) = t := split_join (fun c hc => noslash_of_split (p := p) (by rw [hsp]; exact List.mem_append_left _ hc)) ht.1
        have hup' : [46, 46] ∉ split (join t) := by
          rw [hst]
          exact fun e => hup (by rw [hsp]; exact List.mem_append_left _ e)
        rw [Within, resolve_noup cwd hup']
        have ha : (join t).head? = some 47 ↔ p.head? = some 47 := by
          rw [abs_iff, abs_iff, hst]
          constructor
          · rintro ⟨x, xs, e⟩
            exact ⟨x, xs ++ dataName :: _, by rw [hsp, e]; rfl⟩
          · rintro ⟨x, xs, e⟩
            rw [hsp] at e
            cases t with
            | nil => exact absurd rfl ht.1
            | cons a t =>
              obtain ⟨rfl, e⟩ := List.cons.inj e
              cases t with
              | nil => exact absurd rfl ht.2
              | cons b t => exact ⟨b, t, rfl⟩
        rw [show kept (join t) = keep t by rw [kept_eq, hst]]
        by_cases hp : p.head? = some 47
        · rw [if_pos (ha.mpr hp)]; rw [if_pos hp] at hkr; exact hkr
        · rw [if_neg (fun e => hp (ha.mp e))]; rw [if_neg hp] at hkr; exact hkr
    · exact hin
  · split
    · exact hin
    · cases hs : searchUp w ((split (pathJoin rp.1 rp.2)).length - 1) rp with
      | none => exact hin
      | some rp' => exact searchUp_within hw hi hup hin hs

end Verif.Security
