import Verif.Model.Location
import Verif.Spec.Location
import Mathlib.Order.MinMax
/-
C45: locations `host::path`.
-/
namespace Verif.C45
open Verif.Quoting Verif.Location

/-! ## The regular expression finds the first double colon that is not escaped -/

def bs (k : Nat) : Bytes := List.replicate k 92

theorem decompose (s : Bytes) : ∃ t, s = bs (run s) ++ t ∧ t.head? ≠ some 92 := by
  refine ⟨s.dropWhile (· = 92), ?_, ?_⟩
  · have h := (List.takeWhile_append_dropWhile (p := fun c : UInt8 => decide (c = 92)) (l := s)).symm
    have e : s.takeWhile (fun c : UInt8 => decide (c = 92)) = bs (run s) := by
      rw [bs, run, List.eq_replicate_iff]
      exact ⟨rfl, fun b hb => by have := List.all_eq_true.mp (List.all_takeWhile (p := fun c : UInt8 => decide (c = 92)) (l := s)) b hb; simpa using this⟩
    rw [e] at h
    exact h
  · intro h
    have := List.head?_dropWhile_not (fun c : UInt8 => decide (c = 92)) s
    rw [h] at this
    simp at this

theorem run_bs (k : Nat) (t : Bytes) (ht : t.head? ≠ some 92) : run (bs k ++ t) = k := by
  have : (bs k ++ t).takeWhile (fun c : UInt8 => decide (c = 92)) = bs k := by
    rw [List.takeWhile_append_of_pos (by simp [bs])]
    cases t with
    | nil => simp
    | cons c t => simp at ht; simp [ht]
  rw [run, this]; simp [bs]

/-- after a backslash, the following backslashes are skipped -/
theorem search_true (k : Nat) (t : Bytes) : search true (bs k ++ t) = (search true t).map fun x => (bs k ++ x.1, x.2.1, x.2.2) := by
  induction k with
  | zero => simp [bs]
  | succ k ih =>
    simp only [bs, List.replicate_succ, List.cons_append] at ih ⊢
    simp only [search, if_true, decide_true, ih]
    cases search true t <;> rfl

theorem search_cons_false (c : UInt8) (r : Bytes) (hc : c ≠ 92) : search false (c :: r) =
    match matchHere (c :: r) with
    | some m => some ([], m.1, m.2)
    | none => (search false r).map fun x => (c :: x.1, x.2.1, x.2.2) := by
  rw [search]; simp only [hc, decide_false, Bool.false_eq_true, if_false]
  cases matchHere (c :: r) <;> rfl

theorem search_cons_true (c : UInt8) (r : Bytes) (hc : c ≠ 92) : search true (c :: r) = (search false r).map fun x => (c :: x.1, x.2.1, x.2.2) := by
  rw [search]; simp only [hc, decide_false, if_true]

theorem matchHere_bs (k : Nat) (t : Bytes) (ht : t.head? ≠ some 92) :
    matchHere (bs k ++ t) = if k % 2 = 0 then (afterSep t).map fun r => (k, r) else none := by
  have : (bs k ++ t).drop k = t := by rw [List.drop_append_of_le_length (by simp [bs])]; simp [bs]
  simp only [matchHere, run_bs k t ht, this]

/-- a run of backslashes with a double colon after it is found -/
theorem search_found (k : Nat) (t r : Bytes) (hk : k % 2 = 0) (ht : afterSep t = some r) : search false (bs k ++ t) = some ([], k, r) := by
  have ht2 : t = 58 :: 58 :: r := by
    simp only [afterSep] at ht
    split at ht
    · cases ht; rfl
    · cases ht
  subst ht2
  have hm := matchHere_bs k (58 :: 58 :: r) (by simp)
  rw [if_pos hk, ht] at hm
  cases k with
  | zero =>
    simp only [bs, List.replicate_zero, List.nil_append] at hm ⊢
    rw [search_cons_false _ _ (by decide), hm]; rfl
  | succ k =>
    have hs : bs (k + 1) ++ 58 :: 58 :: r = 92 :: (bs k ++ 58 :: 58 :: r) := by simp [bs, List.replicate_succ]
    rw [hs] at hm ⊢
    rw [search]
    simp only [Bool.false_eq_true, if_false, hm, Option.map_some]

/-- otherwise the search goes on after the next character -/
theorem search_skip (k : Nat) (c : UInt8) (r : Bytes) (hc : c ≠ 92) (h : k % 2 = 0 → afterSep (c :: r) = none) :
    search false (bs k ++ c :: r) = (search false r).map fun x => (bs k ++ c :: x.1, x.2.1, x.2.2) := by
  have hm : matchHere (bs k ++ c :: r) = none := by
    rw [matchHere_bs k _ (by simpa using hc)]
    split
    · next hk => rw [h hk]; rfl
    · rfl
  cases k with
  | zero =>
    simp only [bs, List.replicate_zero, List.nil_append] at hm ⊢
    rw [search_cons_false c r hc, hm]
  | succ k =>
    have hs : bs (k + 1) ++ c :: r = 92 :: (bs k ++ c :: r) := by simp [bs, List.replicate_succ]
    rw [hs] at hm ⊢
    rw [search]
    simp only [Bool.false_eq_true, if_false, hm, decide_true, search_true]
    rw [search_cons_true c r hc]
    cases search false r with
    | none => rfl
    | some x => simp [bs, List.replicate_succ]

theorem search_only (k : Nat) : search false (bs k) = none := by
  have hm : matchHere (bs k) = none := by
    have := matchHere_bs k [] (by simp)
    rw [List.append_nil] at this
    rw [this]; simp [afterSep]
  cases k with
  | zero => rfl
  | succ k =>
    have hs : bs (k + 1) = 92 :: bs k := by simp [bs, List.replicate_succ]
    have := search_true k []
    rw [List.append_nil] at this
    rw [hs] at hm ⊢
    rw [search]
    simp only [Bool.false_eq_true, if_false, hm, decide_true, this]
    rfl

theorem firstSep_bs (j : Nat) (t : Bytes) : firstSep (bs (2 * j) ++ t) = (firstSep t).map fun x => (bs (2 * j) ++ x.1, x.2) := by
  induction j with
  | zero => simp [bs]
  | succ j ih =>
    have : bs (2 * (j + 1)) = 92 :: 92 :: bs (2 * j) := by
      rw [show 2 * (j + 1) = 2 * j + 1 + 1 by omega]; simp [bs, List.replicate_succ]
    rw [this, List.cons_append, List.cons_append, firstSep, ih]
    cases firstSep t <;> rfl

/-- **C45**: for every string, what is before and after the first match of the regular expression is what is before and after the first double
colon that is not escaped. -/
theorem split_at_first (s : Bytes) : (search false s).map (fun x => (x.1 ++ bs x.2.1, x.2.2)) = firstSep s := by
  induction hn : s.length using Nat.strongRecOn generalizing s with
  | ind n ih =>
    subst hn
    obtain ⟨t, hs, ht⟩ := decompose s
    generalize run s = k at hs
    subst hs
    have rec' : ∀ c r, t = c :: r → (search false r).map (fun x => (x.1 ++ bs x.2.1, x.2.2)) = firstSep r := by
      rintro c r rfl
      exact ih r.length (by simp; omega) r rfl
    have hkk : k = 2 * (k / 2) ∨ k = 2 * (k / 2) + 1 := by omega
    generalize k / 2 = j at hkk
    rcases hkk with rfl | rfl
    · rw [firstSep_bs]
      cases ha : afterSep t with
      | some r =>
        rw [search_found _ t r (by omega) ha]
        simp only [afterSep] at ha
        split at ha
        · cases ha; simp [firstSep]
        · cases ha
      | none =>
        cases t with
        | nil => simp [firstSep, search_only]
        | cons c r =>
          have hc : c ≠ 92 := by simpa using ht
          rw [search_skip _ c r hc (fun _ => ha)]
          have hf : firstSep (c :: r) = (firstSep r).map fun x => (c :: x.1, x.2) := by
            rw [firstSep]
            · intro c' r' e1 e2; exact hc e1
            · intro r' e1 e2; subst e1; subst e2; simp [afterSep] at ha
          rw [hf, ← rec' c r rfl]
          cases search false r with
          | none => rfl
          | some x => simp
    · have hsplit : bs (2 * j + 1) = bs (2 * j) ++ [92] := by simp [bs, List.replicate_succ']
      cases t with
      | nil => rw [List.append_nil, search_only, hsplit, firstSep_bs]; simp [firstSep]
      | cons c r =>
        rw [search_skip _ c r (by simpa using ht) (fun h => by omega), hsplit, List.append_assoc, firstSep_bs]
        simp only [List.cons_append, List.nil_append, firstSep, ← rec' c r rfl]
        cases search false r with
        | none => rfl
        | some x => simp

/-- what is before a match does not end with a backslash -/
theorem search_before {prev : Bool} {s b a : Bytes} {k : Nat} (h : search prev s = some (b, k, a)) :
    (b = [] → prev = false) ∧ b.getLast? ≠ some 92 := by
  induction s generalizing prev b with
  | nil => cases h
  | cons c s ih =>
    simp only [search] at h
    split at h
    · next m hm =>
      cases h
      cases prev with
      | false => simp
      | true => simp at hm
    · obtain ⟨⟨b', k', a'⟩, h1, h2⟩ := Option.map_eq_some_iff.mp h
      cases h2
      obtain ⟨i1, i2⟩ := ih h1
      refine ⟨by simp, ?_⟩
      cases b' with
      | nil =>
        have := i1 rfl
        simpa using this
      | cons x b' => rw [List.getLast?_cons_cons]; exact i2

/-! ## Escaping and parsing -/

theorem firstSep_other {c : UInt8} (r : Bytes) (h1 : c ≠ 92) (h2 : c ≠ 58) : firstSep (c :: r) = (firstSep r).map fun x => (c :: x.1, x.2) := by
  rw [firstSep]
  · intro c' r' e1 _; exact h1 e1
  · intro r' e1 _; exact h2 e1

theorem firstSep_esc (h r : Bytes) : firstSep (esc h ++ 58 :: 58 :: r) = some (esc h, r) := by
  induction h with
  | nil => simp [esc, firstSep]
  | cons c h ih =>
    simp only [esc]
    split
    · simp only [List.cons_append, firstSep, ih, Option.map_some]
    · next hc =>
      simp only [not_or] at hc
      rw [List.cons_append, firstSep_other _ hc.1 hc.2, ih]; rfl

theorem firstSep_esc_none (p : Bytes) : firstSep (esc p) = none := by
  induction p with
  | nil => simp [esc, firstSep]
  | cons c p ih =>
    simp only [esc]
    split
    · simp only [firstSep, ih, Option.map_none]
    · next hc =>
      simp only [not_or] at hc
      rw [firstSep_other _ hc.1 hc.2, ih]; rfl

theorem esc_append (a b : Bytes) : esc (a ++ b) = esc a ++ esc b := by
  induction a with
  | nil => rfl
  | cons c a ih =>
    simp only [List.cons_append, esc, ih]
    split <;> simp

theorem esc_bs (t : Nat) : esc (bs t) = bs (2 * t) := by
  induction t with
  | zero => rfl
  | succ t ih =>
    have : bs (2 * (t + 1)) = 92 :: 92 :: bs (2 * t) := by
      rw [show 2 * (t + 1) = 2 * t + 1 + 1 by omega]; simp [bs, List.replicate_succ]
    rw [this, ← ih]
    simp [bs, List.replicate_succ, esc]

theorem esc_last {h : Bytes} (hl : h.getLast? ≠ some 92) : (esc h).getLast? ≠ some 92 := by
  rcases List.eq_nil_or_concat h with rfl | ⟨l, c, rfl⟩
  · simp [esc]
  · rw [List.concat_eq_append] at hl ⊢
    have hc : c ≠ 92 := by simpa using hl
    rw [esc_append]
    simp only [esc]
    split
    · simp [hc]
    · simp [hc]

theorem bs_unique {a b : Bytes} {j k : Nat} (ha : a.getLast? ≠ some 92) (hb : b.getLast? ≠ some 92) (h : a ++ bs j = b ++ bs k) : a = b ∧ j = k := by
  induction j generalizing k with
  | zero =>
    cases k with
    | zero => simpa [bs] using h
    | succ k =>
      exfalso; apply ha
      have : a = b ++ bs (k + 1) := by simpa [bs] using h
      rw [this]; simp [bs, List.replicate_succ']
  | succ j ih =>
    cases k with
    | zero =>
      exfalso; apply hb
      have : a ++ bs (j + 1) = b := by simpa [bs] using h
      rw [← this]; simp [bs, List.replicate_succ']
    | succ k =>
      have : a ++ bs j = b ++ bs k := by
        have e : ∀ (x : Bytes) (n : Nat), x ++ bs (n + 1) = (x ++ bs n) ++ [92] := by intro x n; simp [bs, List.replicate_succ']
        rw [e, e] at h
        exact List.append_cancel_right h
      obtain ⟨h1, h2⟩ := ih this
      exact ⟨h1, by omega⟩

theorem search_esc (h : Bytes) (t : Nat) (r : Bytes) (hl : h.getLast? ≠ some 92) :
    search false (esc (h ++ bs t) ++ 58 :: 58 :: r) = some (esc h, 2 * t, r) := by
  have h1 := split_at_first (esc (h ++ bs t) ++ 58 :: 58 :: r)
  rw [firstSep_esc] at h1
  obtain ⟨⟨b, k, a⟩, h2, h3⟩ := Option.map_eq_some_iff.mp h1
  simp only [Prod.mk.injEq, esc_append, esc_bs] at h3
  obtain ⟨h3, rfl⟩ := h3
  obtain ⟨rfl, rfl⟩ := bs_unique (search_before h2).2 (esc_last hl) h3
  exact h2

theorem search_esc_none (p : Bytes) : search false (esc p) = none := by
  have h1 := split_at_first (esc p)
  rw [firstSep_esc_none] at h1
  simpa using h1

theorem splitRe_none {s : Bytes} (h : search false s = none) : splitRe s = [s] := by
  rw [splitRe]
  split
  · rfl
  · next h' => rw [h] at h'; cases h'

theorem splitRe_some {s b a : Bytes} {k : Nat} (h : search false s = some (b, k, a)) : splitRe s = (if k = 0 then [b] else [b, [92, 92]]) ++ splitRe a := by
  rw [splitRe]
  split
  · next h' => rw [h] at h'; cases h'
  · next h' => rw [h] at h'; cases h'; rfl

/-! ### Unquoting -/

/-- unquoting from left to right -/
def scan : Bytes → Bytes
  | [] => []
  | 92 :: 92 :: r => 92 :: scan r
  | 92 :: 58 :: r => 58 :: scan r
  | c :: r => c :: scan r

theorem splitDbs_ne (s : Bytes) : splitDbs s ≠ [] := by
  fun_cases splitDbs s <;> simp_all

theorem splitDbs_other {c : UInt8} {r : Bytes} (h : ∀ r', c :: r ≠ 92 :: 92 :: r') {x : Bytes} {xs : List Bytes} (hx : splitDbs r = x :: xs) :
    splitDbs (c :: r) = (c :: x) :: xs := by
  rw [splitDbs]
  · rw [hx]
  · rintro r' rfl rfl; exact h r' rfl

theorem joinSbs_cons (c : UInt8) (x : Bytes) (xs : List Bytes) : joinSbs ((c :: x) :: xs) = c :: joinSbs (x :: xs) := by
  cases xs <;> simp [joinSbs]

theorem replaceColon_other {c : UInt8} {x : Bytes} (h : ∀ x', c :: x ≠ 92 :: 58 :: x') : replaceColon (c :: x) = c :: replaceColon x := by
  rw [replaceColon]
  rintro x' rfl rfl; exact h x' rfl

theorem unquote_eq_scan (s : Bytes) : unquote s = scan s := by
  induction s using scan.induct with
  | case1 => rfl
  | case2 r ih =>
    rw [scan, ← ih]
    simp only [unquote, splitDbs]
    cases h : splitDbs r with
    | nil => exact absurd h (splitDbs_ne r)
    | cons x xs => simp [joinSbs, replaceColon]
  | case3 r ih =>
    rw [scan, ← ih]
    simp only [unquote]
    cases h : splitDbs r with
    | nil => exact absurd h (splitDbs_ne r)
    | cons x xs =>
      rw [splitDbs_other (by simp) (splitDbs_other (by simp) h)]
      simp only [List.map_cons, replaceColon, joinSbs_cons]
  | case4 c r h1 h2 ih =>
    have hs : scan (c :: r) = c :: scan r := by
      rw [scan]
      · intro r' a b; exact h1 r' a b
      · intro r' a b; exact h2 r' a b
    rw [hs, ← ih]
    simp only [unquote]
    cases h : splitDbs r with
    | nil => exact absurd h (splitDbs_ne r)
    | cons x xs =>
      rw [splitDbs_other (fun r' e => by simp only [List.cons.injEq] at e; exact h1 r' e.1 e.2) h]
      rw [List.map_cons, replaceColon_other, joinSbs_cons, List.map_cons]
      intro x' e
      simp only [List.cons.injEq] at e
      obtain ⟨rfl, rfl⟩ := e
      -- then the rest starts with a colon, too
      cases r with
      | nil => simp [splitDbs] at h
      | cons d r =>
        by_cases hd : ∃ r', d :: r = 92 :: 92 :: r'
        · obtain ⟨r', e⟩ := hd; rw [e] at h; simp [splitDbs] at h
        · cases h' : splitDbs r with
          | nil => exact absurd h' (splitDbs_ne r)
          | cons y ys =>
            rw [splitDbs_other (fun r' e => hd ⟨r', e⟩) h'] at h
            simp only [List.cons.injEq] at h
            exact h2 r rfl (by rw [h.1.1])

theorem scan_esc (p s : Bytes) : scan (esc p ++ s) = p ++ scan s := by
  induction p with
  | nil => rfl
  | cons c p ih =>
    simp only [esc]
    split
    · next hc => rcases hc with rfl | rfl <;> simp [scan, ih]
    · next hc =>
      simp only [not_or] at hc
      rw [List.cons_append, scan]
      · simp [ih]
      · intro r e _; exact hc.1 e
      · intro r e _; exact hc.1 e

theorem unquote_esc (p : Bytes) : unquote (esc p) = p := by
  rw [unquote_eq_scan]
  simpa [scan] using scan_esc p []

theorem scan_bs (j : Nat) (s : Bytes) : scan (bs (2 * j) ++ s) = bs j ++ scan s := by
  rw [← esc_bs, scan_esc]

theorem isPairs_esc {p : Bytes} (h : isPairs (esc p) = true) : OnlyBackslashes p := by
  simp only [isPairs, Bool.and_eq_true, decide_eq_true_eq, List.all_eq_true] at h
  obtain ⟨⟨h1, h2⟩, h3⟩ := h
  have key : ∀ q : Bytes, q ≠ [] → q.length % 2 = 0 → (∀ x ∈ q, x = 92) → ∃ n, 0 < n ∧ q = bs (2 * n) := by
    intro q hq hl ha
    refine ⟨q.length / 2, ?_, ?_⟩
    · have := List.length_pos_iff.mpr hq; omega
    · rw [bs, List.eq_replicate_iff]; exact ⟨by omega, ha⟩
  obtain ⟨n, hn, hq⟩ := key _ h1 h2 h3
  split at hq
  · next hl =>
    refine ⟨n, hn, .inr ?_⟩
    have hne : esc p ≠ [] := by intro e; rw [e] at hl; simp at hl
    have e : esc p = bs (2 * n) ++ [10] := by
      rw [← hq]
      have := List.dropLast_concat_getLast hne
      rw [List.getLast?_eq_some_getLast hne, Option.some.injEq] at hl
      rw [hl] at this
      exact this.symm
    have := scan_esc p []
    rw [List.append_nil, e, scan_bs] at this
    simpa [scan, bs] using this.symm
  · refine ⟨n, hn, .inl ?_⟩
    have := scan_esc p []
    rw [List.append_nil, hq] at this
    have e := scan_bs n []
    rw [List.append_nil] at e
    rw [e] at this
    simpa [scan, bs] using this.symm

theorem isPairs_host {h : Bytes} (hn : (10 : UInt8) ∉ h) (hl : h.getLast? ≠ some 92) : isPairs (esc h) = false := by
  cases hp : isPairs (esc h) with
  | false => rfl
  | true =>
    obtain ⟨n, hn0, h1 | h1⟩ := isPairs_esc hp
    · exfalso; apply hl
      obtain ⟨m, rfl⟩ : ∃ m, n = m + 1 := ⟨n - 1, by omega⟩
      rw [h1, List.replicate_succ']; simp
    · exfalso; apply hn; rw [h1]; simp

theorem fixPath_esc (p : Bytes) : fixPath (esc p) = (if isShare p then [47] else []) ++ slashes p := by
  simp only [fixPath, unquote_esc, slashes]
  have : isUnc (esc p) = isShare p := by
    cases p with
    | nil => rfl
    | cons c p =>
      by_cases hc : c = 92
      · subst hc
        cases p with
        | nil => rfl
        | cons d p =>
          by_cases hd : d = 92 ∨ d = 58
          · rcases hd with rfl | rfl <;> simp [esc, isShare, isUnc]
          · simp only [not_or] at hd
            simp [esc, isShare, isUnc, hd]
      · by_cases hc2 : c = 58
        · subst hc2; simp [esc, isShare, isUnc]
        · have h1 : esc (c :: p) = c :: esc p := by simp [esc, hc, hc2]
          rw [h1]
          have : isShare (c :: p) = false := by
            unfold isShare
            split
            · next h => cases h; exact absurd rfl hc
            · rfl
          rw [this]
          unfold isUnc
          split
          · next h => simp only [List.cons.injEq] at h; exact absurd h.1 hc
          · rfl
  rw [this]
  split <;> simp

/-- **C45**: what is made of a location with escaped host and path, in all cases in which both are found: of the backslashes at the end of
the host at most one is left; the path gets slashes for backslashes. -/
theorem parse_location (h : Bytes) (t : Nat) (path : Bytes) (hl : h.getLast? ≠ some 92) (hne : h ++ bs t ≠ []) (hnl : (10 : UInt8) ∉ h)
    (hp : path ≠ []) (hob : ¬ OnlyBackslashes path) :
    parse (location (h ++ bs t) path) = .ok (some (h ++ bs (min t 1)), (if isShare path then [47] else []) ++ slashes path) := by
  have h1 : splitRe (location (h ++ bs t) path) = (if 2 * t = 0 then [esc h] else [esc h, [92, 92]]) ++ [esc path] := by
    rw [location, splitRe_some (search_esc h t (esc path) hl), splitRe_none (search_esc_none path)]
  have h2 : isPairs (esc path) = false := by
    cases e : isPairs (esc path) with
    | false => rfl
    | true => exact absurd (isPairs_esc e) hob
  have h3 := isPairs_host hnl hl
  have h4 : isPairs [92, 92] = true := by decide
  have h5 : stitch (splitRe (location (h ++ bs t) path)) = [esc (h ++ bs (min t 1)), esc path] := by
    rw [h1]
    rcases Nat.eq_zero_or_pos t with rfl | ht
    · simp [stitch, stitchOne, h2, h3, bs]
    · rw [if_neg (by omega), Nat.min_eq_right (by omega), esc_append]
      simp [stitch, stitchOne, h2, h3, h4, bs, esc]
  have h6 : esc (h ++ bs (min t 1)) ≠ [] := by
    intro e
    have := unquote_esc (h ++ bs (min t 1))
    rw [e] at this
    apply hne
    have h7 : h ++ bs (min t 1) = [] := this.symm
    rw [List.append_eq_nil_iff] at h7
    have : min t 1 = 0 := by simpa [bs] using h7.2
    have : t = 0 := by omega
    subst this
    simp [h7.1, bs]
  have h7 : esc path ≠ [] := by
    intro e
    have := unquote_esc path
    rw [e] at this
    exact hp this.symm
  simp only [parse, h5, if_neg h6, if_neg h7, unquote_esc, fixPath_esc]

example : parse (location ([104, 58] ++ bs 3) [92, 97, 92, 58]) = .ok (some ([104, 58] ++ bs 1), [47, 47, 97, 47, 58]) :=
  parse_location _ _ _ (by decide) (by decide) (by decide) (by decide) (by
    rintro ⟨n, hn, h | h⟩
    · have := (List.eq_replicate_iff.mp h).2 97 (by simp)
      revert this; decide
    · have := congrArg List.getLast? h
      simp at this)

theorem slashes_id {p : Bytes} (h : (92 : UInt8) ∉ p) : slashes p = p := by
  unfold slashes
  rw [List.map_congr_left (g := id), List.map_id]
  intro c hc
  have : c ≠ 92 := by rintro rfl; exact h hc
  simp [this]

/-- **C45**, partial: escaping host and path and parsing gives them back, for hosts that don't end with two backslashes and contain no newline, and paths
without backslash. Missing: other hosts, for which it is false (`host_backslash_lost`); paths with backslashes, which are changed to slashes. -/
theorem roundtrip_partial (host path : Bytes) (hh : host ≠ []) (hnl : (10 : UInt8) ∉ host) (hb : ¬ [92, 92] <:+ host) (hp : path ≠ []) (hpb : (92 : UInt8) ∉ path) :
    parse (location host path) = .ok (some host, path) := by
  have hdec : ∃ h t, host = h ++ bs t ∧ h.getLast? ≠ some 92 ∧ t ≤ 1 := by
    by_cases hl : host.getLast? = some 92
    · rcases List.eq_nil_or_concat host with rfl | ⟨l, c, rfl⟩
      · exact absurd rfl hh
      · rw [List.concat_eq_append] at *
        have hc : c = 92 := by simpa using hl
        subst hc
        refine ⟨l, 1, rfl, ?_, by omega⟩
        intro hl2
        rcases List.eq_nil_or_concat l with rfl | ⟨l', d, rfl⟩
        · simp at hl2
        · rw [List.concat_eq_append] at *
          have hd : d = 92 := by simpa using hl2
          subst hd
          exact hb ⟨l', by simp⟩
    · exact ⟨host, 0, by simp [bs], hl, by omega⟩
  obtain ⟨h, t, rfl, hl, ht⟩ := hdec
  have hob : ¬ OnlyBackslashes path := by
    rintro ⟨n, hn, rfl | rfl⟩ <;> exact hpb (by simp; omega)
  have hshare : isShare path = false := by
    unfold isShare
    split
    · simp at hpb
    · rfl
  rw [parse_location h t path hl hh (fun hm => hnl (List.mem_append_left _ hm)) hp hob, Nat.min_eq_left ht, hshare, slashes_id hpb]
  rfl

/-- a user, a host with colons (IPv6), and a path with `::` -/
example : parse (location [117, 64, 58, 58, 49, 92] [47, 97, 58, 58, 98]) = .ok (some [117, 64, 58, 58, 49, 92], [47, 97, 58, 58, 98]) :=
  roundtrip_partial _ _ (by decide) (by decide) (by decide) (by decide) (by decide)

/-- A path without host is not taken for one with a host, whatever it contains. -/
theorem local_roundtrip (path : Bytes) (hob : ¬ OnlyBackslashes path) :
    parse (esc path) = .ok (none, (if isShare path then [47] else []) ++ slashes path) := by
  have h2 : isPairs (esc path) = false := by
    cases e : isPairs (esc path) with
    | false => rfl
    | true => exact absurd (isPairs_esc e) hob
  have : stitch (splitRe (esc path)) = [esc path] := by
    rw [splitRe_none (search_esc_none path)]
    simp [stitch, stitchOne, h2]
  simp only [parse, this, fixPath_esc]

theorem local_roundtrip_partial (path : Bytes) (hpb : (92 : UInt8) ∉ path) : parse (esc path) = .ok (none, path) := by
  have hob : ¬ OnlyBackslashes path := by
    rintro ⟨n, hn, rfl | rfl⟩ <;> exact hpb (by simp; omega)
  have hshare : isShare path = false := by
    unfold isShare
    split
    · simp at hpb
    · rfl
  rw [local_roundtrip path hob, hshare, slashes_id hpb]; rfl

example : parse (esc [97, 58, 58, 98, 58]) = .ok (none, [97, 58, 58, 98, 58]) := local_roundtrip_partial _ (by decide)

/-- A location with two unescaped double colons is refused. -/
theorem too_many_refused (a b c : Bytes) (ha : a.getLast? ≠ some 92) (hb : b.getLast? ≠ some 92) (hna : (10 : UInt8) ∉ a) (hnb : (10 : UInt8) ∉ b)
    (hc : ¬ OnlyBackslashes c) : parse (esc a ++ 58 :: 58 :: (esc b ++ 58 :: 58 :: esc c)) = .error .tooMany := by
  have ea := search_esc a 0 (esc b ++ 58 :: 58 :: esc c) ha
  have eb := search_esc b 0 (esc c) hb
  simp only [bs, List.replicate_zero, List.append_nil, Nat.mul_zero] at ea eb
  have h2 : isPairs (esc c) = false := by
    cases e : isPairs (esc c) with
    | false => rfl
    | true => exact absurd (isPairs_esc e) hc
  have : stitch (splitRe (esc a ++ 58 :: 58 :: (esc b ++ 58 :: 58 :: esc c))) = [esc a, esc b, esc c] := by
    rw [splitRe_some ea, splitRe_some eb, splitRe_none (search_esc_none c)]
    simp [stitch, stitchOne, h2, isPairs_host hna ha, isPairs_host hnb hb]
  simp only [parse, this]

example : parse (esc [97] ++ 58 :: 58 :: (esc [98, 58] ++ 58 :: 58 :: esc [92, 99])) = .error .tooMany :=
  too_many_refused _ _ _ (by decide) (by decide) (by decide) (by decide) (by
    rintro ⟨n, hn, h | h⟩
    · have := List.eq_replicate_iff.mp h.symm.symm
      simp at this
    · obtain ⟨m, rfl⟩ : ∃ m, n = m + 1 := ⟨n - 1, by omega⟩
      cases m with
      | zero => simp at h
      | succ m => simp [List.replicate_succ] at h)

/-! ## Where it fails -/

/-- Of two backslashes at the end of the host, one is lost: `h\\\\::p` (escaped). -/
theorem host_backslash_lost : parse (location [104, 92, 92] [112]) = .ok (some [104, 92], [112]) := by decide +kernel

/-- `h::\\` (host `h`, path `\`) is taken for a local path. -/
theorem host_taken_for_path : parse (location [104] [92]) = .ok (none, [104, 47]) := by decide +kernel

/-- The local path `\` (escaped) can't be parsed. -/
theorem backslash_not_parsed : parse (esc [92]) = .error .nothing := by decide +kernel

/-- The example of the manual, `foo\::\\bar`: `foo::\bar` according to the manual, but `foo::/bar`. -/
theorem manual_example : parse [102, 111, 111, 92, 58, 58, 92, 92, 98, 97, 114] = .ok (none, [102, 111, 111, 58, 58, 47, 98, 97, 114]) := by decide +kernel

end Verif.C45
