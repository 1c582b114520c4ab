import Verif.Proof.TimeStr
import Mathlib.Tactic.Push
/- Lemmas about intervals, sessions and generic time strings. -/
namespace Verif.TimeStr

/-! ### intervals -/

def value (ds : List Char) : Nat := ds.foldl (fun a c => 10 * a + valDig c) 0

/-- the strings and the sum of parts (digits, unit) -/
def concatParts : List (List Char × Char) → List Char
  | [] => []
  | p :: ps => p.1 ++ p.2 :: concatParts ps

def sumParts : List (List Char × Char) → Nat
  | [] => 0
  | p :: ps => value p.1 * (unitSeconds p.2).getD 0 + sumParts ps

theorem loop_total (num : Option Nat) (total : Nat) (s : List Char) :
    intervalLoop num total s = (intervalLoop num 0 s).map (total + ·) := by
  induction s generalizing num total with
  | nil => cases num <;> simp [intervalLoop]
  | cons c r ih =>
    simp only [intervalLoop]
    split
    · exact ih _ _
    · cases num with
      | none => simp
      | some n =>
        cases hu : unitSeconds c with
        | none => simp
        | some u =>
          simp only
          rw [ih none (total + n * u), ih none (0 + n * u)]
          cases intervalLoop none 0 r <;> simp [Nat.add_assoc]

theorem loop_digits (ds : List Char) (h : ds.all isDig = true) (num : Option Nat) (total : Nat) (r : List Char) (hne : ds ≠ []) :
    intervalLoop num total (ds ++ r) = intervalLoop (some (ds.foldl (fun a c => 10 * a + valDig c) (num.getD 0))) total r := by
  induction ds generalizing num with
  | nil => exact absurd rfl hne
  | cons d ds ih =>
    simp only [List.all_cons, Bool.and_eq_true] at h
    simp only [List.cons_append, intervalLoop, h.1, if_true]
    by_cases hds : ds = []
    · subst hds; simp
    · rw [ih h.2 _ hds]; simp

theorem unit_not_dig {c : Char} (h : unitSeconds c ≠ none) : isDig c = false := by
  unfold unitSeconds at h
  split at h <;> first | decide | exact absurd rfl h

theorem unit_not_sep {c : Char} (h : unitSeconds c ≠ none) : ¬ (c = 'T' ∨ c = ':' ∨ c = '-') := by
  rintro (rfl | rfl | rfl) <;> exact h rfl

theorem unit_not_white {c : Char} (h : unitSeconds c ≠ none) : ¬ c.isWhitespace = true := by
  unfold unitSeconds at h
  split at h <;> first | decide | exact absurd rfl h

theorem dig_not_white {c : Char} (h : isDig c = true) : ¬ c.isWhitespace = true := by
  intro hw
  simp only [Char.isWhitespace, Bool.or_eq_true, decide_eq_true_eq] at hw
  rcases hw with ((rfl | rfl) | rfl) | rfl <;> revert h <;> decide

theorem loop_part {ds : List Char} {u : Char} {k : Nat} (hne : ds ≠ []) (hd : ds.all isDig = true) (hu : unitSeconds u = some k)
    (total : Nat) (r : List Char) : intervalLoop none total (ds ++ u :: r) = intervalLoop none (total + value ds * k) r := by
  rw [loop_digits ds hd none total _ hne]
  have := unit_not_dig (c := u) (by rw [hu]; simp)
  simp [intervalLoop, this, hu, value]


/-- the first number, when `num` has been read of it already, is `num` followed by the digits `ds` -/
theorem loop_sound (s : List Char) (num : Option Nat) (total v : Nat) (h : intervalLoop num total s = some v) :
    ∃ parts : List (List Char × Char), (∀ p ∈ parts, p.1 ≠ [] ∧ p.1.all isDig = true ∧ unitSeconds p.2 = some ((unitSeconds p.2).getD 0)) ∧
      (match num with
       | none => s = concatParts parts ∧ v = total + sumParts parts
       | some n => ∃ ds u k, ds.all isDig = true ∧ unitSeconds u = some k ∧ s = ds ++ u :: concatParts parts ∧
          v = total + ds.foldl (fun a c => 10 * a + valDig c) n * k + sumParts parts) := by
  induction s generalizing num total with
  | nil =>
    cases num with
    | none => simp only [intervalLoop, Option.some.injEq] at h; exact ⟨[], by simp, by simp [concatParts], by simp [sumParts, h]⟩
    | some n => simp [intervalLoop] at h
  | cons c r ih =>
    simp only [intervalLoop] at h
    split at h
    · next hc =>
      obtain ⟨parts, hp, ds, u, k, hds, hu, hr, hv⟩ := ih _ _ h
      cases num with
      | none =>
        refine ⟨(c :: ds, u) :: parts, ?_, ?_, ?_⟩
        · intro p hp'
          rcases List.mem_cons.1 hp' with rfl | hp'
          · exact ⟨by simp, by simp [hc]; simpa using hds, by simp [hu]⟩
          · exact hp p hp'
        · rw [hr]; rfl
        · rw [hv]
          simp only [sumParts, value, hu, Option.getD_some, Option.getD_none, List.foldl_cons]
          omega
      | some n =>
        exact ⟨parts, hp, c :: ds, u, k, by simp only [List.all_cons, hc, hds, Bool.and_self], hu, by rw [hr]; rfl, by
          rw [hv]; rfl⟩
    · cases num with
      | none => exact absurd h (by simp)
      | some n =>
        cases hu : unitSeconds c with
        | none => rw [hu] at h; exact absurd h (by simp)
        | some k =>
          rw [hu] at h
          obtain ⟨parts, hp, hr, hv⟩ := ih none _ h
          exact ⟨parts, hp, [], c, k, rfl, hu, by rw [hr]; rfl, by rw [hv]; rfl⟩

/-! ### sessions -/

theorem session_nth {times : List Int} (hs : times.Pairwise (· < ·)) {n : Nat} (hn : n < times.length) :
    ∃ t, timeFromSession n times = some t ∧ t ∈ times ∧ times.countP (fun x => t < x) = n := by
  have hi : times.length - n - 1 < times.length := by omega
  refine ⟨times[times.length - n - 1], ?_, List.getElem_mem _, ?_⟩
  · unfold timeFromSession
    rw [if_neg (by omega), List.getElem?_eq_getElem hi]
  · generalize hk : times.length - n - 1 = k at *
    have hsplit : times = times.take (k + 1) ++ times.drop (k + 1) := (List.take_append_drop _ _).symm
    have hp := List.pairwise_iff_getElem.1 hs
    have h1 : (times.take (k + 1)).countP (fun x => times[k] < x) = 0 := by
      rw [List.countP_eq_zero]
      intro x hx
      obtain ⟨i, hi', rfl⟩ := List.mem_iff_getElem.1 hx
      have hik : i < k + 1 := by simp at hi'; omega
      rw [List.getElem_take]
      simp only [decide_eq_true_eq]
      rcases Nat.lt_or_ge i k with hlt | hge
      · have := hp i k (by omega) hi hlt; omega
      · have : i = k := by omega
        subst this; omega
    have h2 : (times.drop (k + 1)).countP (fun x => times[k] < x) = (times.drop (k + 1)).length := by
      rw [List.countP_eq_length]
      intro x hx
      obtain ⟨i, hi', rfl⟩ := List.mem_iff_getElem.1 hx
      rw [List.getElem_drop]
      simp only [decide_eq_true_eq]
      exact hp k (k + 1 + i) hi (by simp at hi'; omega) (by omega)
    have : times.countP (fun x => times[k] < x) = (times.take (k + 1)).countP (fun x => times[k] < x) +
        (times.drop (k + 1)).countP (fun x => times[k] < x) := by rw [← List.countP_append, ← hsplit]
    rw [this, h1, h2, List.length_drop]
    omega

theorem session_oldest {times : List Int} (hs : times.Pairwise (· < ·)) (hex : times ≠ []) {n : Nat} (hn : times.length ≤ n) :
    ∃ t, timeFromSession n times = some t ∧ t ∈ times ∧ ∀ x ∈ times, t ≤ x := by
  unfold timeFromSession
  rw [if_pos hn]
  cases times with
  | nil => exact absurd rfl hex
  | cons t ts =>
    refine ⟨t, rfl, List.mem_cons_self, ?_⟩
    intro x hx
    rcases List.mem_cons.1 hx with rfl | hx
    · exact Int.le_refl _
    · exact Int.le_of_lt ((List.pairwise_cons.1 hs).1 x hx)

/-! ### generic time strings -/

def isSep (c : Char) : Bool := decide (c = 'T' ∨ c = ':' ∨ c = '-')

theorem splitSep_length (s : List Char) : (splitSep s).length = s.countP isSep + 1 := by
  induction s with
  | nil => rfl
  | cons c r ih =>
    rw [splitSep]
    split
    · next h =>
      rw [List.length_cons, ih, List.countP_cons_of_pos (by simpa [isSep] using h)]
    · next h =>
      have hr : splitSep r ≠ [] := by intro hn; rw [hn] at ih; simp at ih
      obtain ⟨x, xs, hx⟩ := List.exists_cons_of_ne_nil hr
      rw [hx] at ih
      rw [hx, List.countP_cons_of_neg (by simpa [isSep] using h)]
      simpa using ih

theorem stringtotime_seps {s : List Char} (h : s.countP isSep < 5) : stringtotime s = none := by
  have hlen : (splitSep (s.take 19)).length < 6 := by
    rw [splitSep_length]
    have := (List.take_sublist 19 s).countP_le (p := isSep)
    omega
  unfold stringtotime
  split
  · next heq =>
    have := congrArg List.length heq
    simp only [List.length_map, List.length_cons, List.length_nil] at this
    omega
  · rfl


theorem dig_isSep (n : Nat) (h : n < 10) : isSep (dig n) = false := by
  have : ∀ n < 10, isSep (dig n) = false := by decide +kernel
  exact this n h

theorem tzd_count (compat : Bool) (off : Int) : (getTzd compat off).countP isSep ≤ 4 := by
  unfold getTzd pad2
  split
  · decide
  · simp only [List.cons_append, List.nil_append]
    have h1 := dig_isSep (off.natAbs / 60 % 10) (by omega)
    have h2 := dig_isSep (off.natAbs % 60 % 10) (by omega)
    have hc : ∀ (c : Char) (l : List Char), List.countP isSep (c :: l) ≤ List.countP isSep l + 1 := fun c l => by
      rw [List.countP_cons]; split <;> omega
    refine Nat.le_trans (hc _ _) (Nat.succ_le_succ (Nat.le_trans (hc _ _) (Nat.succ_le_succ ?_)))
    rw [List.countP_cons_of_neg (by rw [h1]; simp)]
    refine Nat.le_trans (hc _ _) (Nat.succ_le_succ (Nat.le_trans (hc _ _) (Nat.succ_le_succ ?_)))
    rw [List.countP_cons_of_neg (by rw [h2]; simp)]
    simp

/-- a string without separators is not a date -/
theorem genstr_no_date (compat : Bool) (off : Int) {s : List Char} (h : ∀ c ∈ s, ¬ (c = 'T' ∨ c = ':' ∨ c = '-')) :
    truthy ((truthy (stringtotime s)).or (stringtotime (s ++ getTzd compat off))) = none := by
  have h0 : s.countP isSep = 0 := by
    rw [List.countP_eq_zero]; intro c hc; simpa [isSep] using h c hc
  rw [stringtotime_seps (by omega), stringtotime_seps (by rw [List.countP_append, h0]; have := tzd_count compat off; omega)]
  rfl

theorem genstr_session (pretty : List Char → Option Int) (compat : Bool) (off ref : Int) (times : List Int) {ds : List Char}
    (hne : ds ≠ []) (hd : ds.all isDig = true) :
    genstrtotime pretty compat off ref times (ds ++ ['B']) = timeFromSession (value ds) times := by
  unfold genstrtotime
  rw [if_neg, if_neg, genstr_no_date compat off]
  · simp only
    rw [if_pos]
    · simp only [List.dropLast_concat]
      unfold parseNat
      rw [if_pos ⟨hne, hd⟩]
      rfl
    · refine ⟨?_, by simp, by simpa using hd⟩
      cases ds with
      | nil => exact absurd rfl hne
      | cons => simp
  · intro c hc
    rcases List.mem_append.1 hc with hc | hc
    · exact isDig_not_sep (List.all_eq_true.1 hd c hc)
    · rw [List.mem_singleton.1 hc]; decide
  · rintro ⟨-, h⟩
    have := List.all_eq_true.1 h 'B' (by simp)
    exact absurd this (by decide)
  · intro h
    have := congrArg List.getLast? h
    rw [List.getLast?_concat] at this
    exact absurd this (by decide)

theorem genstr_timestring (pretty : List Char → Option Int) (compat : Bool) (off ref : Int) (times : List Int) (s : List Char) {t : Int}
    (h : stringtotime s = some t) (h0 : t ≠ 0) (hd : ¬ s.all isDig = true) (hnow : s ≠ "now".toList) :
    genstrtotime pretty compat off ref times s = some t := by
  unfold genstrtotime
  rw [if_neg hnow, if_neg (fun hh => hd hh.2), h]
  have : truthy (some t) = some t := by
    unfold truthy
    split
    · next heq => cases heq; exact absurd rfl h0
    · rfl
  simp [this]

end Verif.TimeStr
