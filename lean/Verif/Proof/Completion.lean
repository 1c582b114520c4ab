import Verif.Spec.Completion

namespace Verif.Completion
open Verif.Spec.Completion

theorem subOptions_eq (P : Parser) (words : List Word) (c : Nat) (u : Bool) : subOptions P words c u =
    if words.length = 2 then matching (both P) P.locs words c u
    else match words.findIdx? (fun w => decide (w ∈ P.names)) with
      | none => matching (both P) P.locs words c u
      | some k =>
        if c = k then some [words.getD k []]
        else if k < c then subOptions (P.sub (words.getD k [])) (words.drop k) (c - k) u
        else none := by
  cases P with
  | empty =>
    have h : ∀ l : List Word, l.findIdx? (fun w => decide (w ∈ Parser.empty.names)) = none := by
      intro l; rw [List.findIdx?_eq_none_iff]; intro x _; simp [Parser.names]
    rw [subOptions, h]; simp [both, Parser.opts, Parser.names, Parser.locs]
  | mk => rw [subOptions]; rfl

theorem findIdx_at (p : Word → Bool) (a : List Word) (x : Word) (b : List Word) (ha : ∀ y ∈ a, p y = false) (hx : p x = true) :
    (a ++ x :: b).findIdx? p = some a.length := by
  rw [List.findIdx?_append]
  have : a.findIdx? p = none := by rw [List.findIdx?_eq_none_iff]; exact ha
  simp [this, List.findIdx?_cons, hx]

theorem findIdx_none (p : Word → Bool) (a : List Word) (ha : ∀ y ∈ a, p y = false) : a.findIdx? p = none := by
  rw [List.findIdx?_eq_none_iff]; exact ha

theorem reads_seen {P Q : Parser} {seen ws since : List Word} (h : Reads P seen ws Q since) (h0 : seen ≠ []) (hs : ∀ x ∈ seen, x ∉ P.names) :
    since ≠ [] ∧ ∀ x ∈ since, x ∉ Q.names := by
  induction h with
  | done P seen => exact ⟨h0, hs⟩
  | value _ ho hv _ ih => exact ih (by simp) (by intro x hx; simp at hx; rcases hx with hx | rfl | rfl; exacts [hs x hx, ho, hv])
  | option _ ho => exact ⟨by simp, by intro x hx; simp at hx; rcases hx with hx | rfl; exacts [hs x hx, ho]⟩
  | action _ hw _ ih => exact ih (by simp) (by intro x hx; simp at hx; rw [hx]; exact hw)
  | other hw _ _ ih => exact ih (by simp) (by intro x hx; simp at hx; rcases hx with hx | rfl; exacts [hs x hx, hw])

theorem reads_cases {P Q : Parser} {seen ws since : List Word} (h : Reads P seen ws Q since) :
    (∃ a x b, ws = a ++ x :: b ∧ x ∈ P.names ∧ ∀ y ∈ a, y ∉ P.names) ∨ (Q = P ∧ since = seen ++ ws ∧ ∀ x ∈ ws, x ∉ P.names) := by
  induction h with
  | done P seen => right; simp
  | @value P Q seen ws since o v _ ho hv _ ih =>
    rcases ih with ⟨a, x, b, rfl, h1, h2⟩ | ⟨rfl, rfl, h⟩
    · left; refine ⟨o :: v :: a, x, b, rfl, h1, ?_⟩
      intro y hy; simp at hy; rcases hy with rfl | rfl | hy; exacts [ho, hv, h2 y hy]
    · right; refine ⟨rfl, by simp, ?_⟩
      intro y hy; simp at hy; rcases hy with rfl | rfl | hy; exacts [ho, hv, h y hy]
  | option _ ho => right; exact ⟨rfl, rfl, by simpa using ho⟩
  | @action P Q seen ws since w hw _ _ _ => left; exact ⟨[], w, ws, rfl, hw, by simp⟩
  | @other P Q seen ws since w hw _ _ ih =>
    rcases ih with ⟨a, x, b, rfl, h1, h2⟩ | ⟨rfl, rfl, h⟩
    · left; refine ⟨w :: a, x, b, rfl, h1, ?_⟩
      intro y hy; simp at hy; rcases hy with rfl | hy; exacts [hw, h2 y hy]
    · right; refine ⟨rfl, by simp, ?_⟩
      intro y hy; simp at hy; rcases hy with rfl | hy; exacts [hw, h y hy]

/-- the code follows -/
theorem sub_follows {P Q : Parser} {seen ws since : List Word} (h : Reads P seen ws Q since) (h0 : seen ≠ []) (hs : ∀ x ∈ seen, x ∉ P.names) (w : Word)
    (after : List Word) (u : Bool) :
    subOptions P (seen ++ ws ++ w :: after) (seen ++ ws).length u = subOptions Q (since ++ w :: after) since.length u := by
  induction h with
  | done P seen => simp
  | @value P Q seen ws since o v _ ho hv _ ih =>
    rw [← ih (by simp) (by intro x hx; simp at hx; rcases hx with hx | rfl | rfl; exacts [hs x hx, ho, hv])]
    simp
  | option _ ho => rfl
  | @action P Q seen ws since x hx hn _ ih =>
    rw [← ih (by simp) (by intro y hy; simp at hy; rw [hy]; exact hn), subOptions_eq P]
    have hl : 1 ≤ seen.length := List.length_pos_iff.2 h0
    have hf : (seen ++ x :: ws ++ w :: after).findIdx? (fun w => decide (w ∈ P.names)) = some seen.length := by
      rw [List.append_assoc, List.cons_append]
      exact findIdx_at _ _ _ _ (fun y hy => by simpa using hs y hy) (by simpa using hx)
    rw [hf, if_neg (by simp; omega)]
    simp only
    rw [if_neg (by simp), if_pos (by simp)]
    have hg : (seen ++ x :: ws ++ w :: after).getD seen.length [] = x := by simp
    have hd : (seen ++ x :: ws ++ w :: after).drop seen.length = [x] ++ ws ++ w :: after := by simp
    have hc : (seen ++ x :: ws).length - seen.length = ([x] ++ ws).length := by simp
    rw [hg, hd, hc]
  | @other P Q seen ws since x hx _ _ ih =>
    rw [← ih (by simp) (by intro y hy; simp at hy; rcases hy with hy | rfl; exacts [hs y hy, hx])]
    simp

/-- above the actions it is the same as below, but for an action behind the cursor -/
theorem options_sub (P : Parser) (words : List Word) (c : Nat) (u : Bool) (hl : 2 ≤ words.length) (hc : 0 < c)
    (h : ∀ k, words.findIdx? (fun w => decide (w ∈ P.names)) = some k → k ≤ c) : options P words c u = subOptions P words c u := by
  rw [options, subOptions_eq, if_neg (by omega)]
  by_cases h2 : words.length = 2
  · rw [if_pos h2, if_pos h2]
  · rw [if_neg h2, if_neg h2]
    cases hk : words.findIdx? (fun w => decide (w ∈ P.names)) with
    | none => rfl
    | some k =>
      have := h k hk
      by_cases e : c = k
      · simp only [e, if_true]
      · simp only [if_neg e, if_pos (show k < c by omega)]

theorem follows {P Q : Parser} {prog : Word} {ws since : List Word} (hp : prog ∉ P.names) (h : Reads P [prog] ws Q since) (w : Word) (after : List Word)
    (ha : ∀ x ∈ after, x ∉ Q.names) (u : Bool) :
    options P (prog :: ws ++ w :: after) (prog :: ws).length u = subOptions Q (since ++ w :: after) since.length u := by
  have hs : ∀ x ∈ [prog], x ∉ P.names := by intro x hx; simp at hx; rw [hx]; exact hp
  have := sub_follows h (by simp) hs w after u
  rw [← this]
  refine options_sub P _ _ u (by simp; omega) (by simp) ?_
  intro k hk
  rcases reads_cases h with ⟨a, x, b, rfl, h1, h2⟩ | ⟨rfl, rfl, hn⟩
  · have : (prog :: (a ++ x :: b) ++ w :: after).findIdx? (fun w => decide (w ∈ P.names)) = some (prog :: a).length := by
      have e : prog :: (a ++ x :: b) ++ w :: after = (prog :: a) ++ x :: (b ++ w :: after) := by simp
      rw [e]
      refine findIdx_at _ _ _ _ (fun y hy => ?_) (by simpa using h1)
      simp at hy
      rcases hy with rfl | hy
      · simpa using hp
      · simpa using h2 y hy
    rw [this] at hk
    simp at hk
    simp; omega
  · have hno : ∀ x ∈ prog :: ws, x ∉ Q.names := by intro x hx; simp at hx; rcases hx with rfl | hx; exacts [hp, hn x hx]
    by_cases hw : w ∈ Q.names
    · rw [findIdx_at _ _ _ _ (fun y hy => by simpa using hno y hy) (by simpa using hw)] at hk
      simp at hk ⊢; omega
    · rw [findIdx_none] at hk
      · simp at hk
      · intro y hy
        simp only [List.cons_append, List.mem_cons, List.mem_append] at hy
        rcases hy with rfl | hy | rfl | hy
        · simpa using hp
        · simpa using hn y hy
        · simpa using hw
        · simpa using ha y hy

/-- no action anywhere -/
theorem sub_none (Q : Parser) (words : List Word) (c : Nat) (u : Bool) (h : ∀ x ∈ words, x ∉ Q.names) :
    subOptions Q words c u = matching (both Q) Q.locs words c u := by
  rw [subOptions_eq, findIdx_none _ _ (fun y hy => by simpa using h y hy)]
  simp

theorem sub_at (Q : Parser) (since : List Word) (w : Word) (after : List Word) (u : Bool) (h : ∀ x ∈ since, x ∉ Q.names) (hw : w ∈ Q.names)
    (hl : 2 ≤ since.length + after.length) : subOptions Q (since ++ w :: after) since.length u = some [w] := by
  rw [subOptions_eq, findIdx_at _ _ _ _ (fun y hy => by simpa using h y hy) (by simpa using hw)]
  rw [if_neg (by simp; omega)]
  simp

theorem wantsFile_iff (P : Parser) (since : List Word) (w : Word) (after : List Word) :
    wantsFile P.locs (since ++ w :: after).length since.length = true ↔ Location P after := by
  simp only [wantsFile, Location]
  rcases P.locs with _ | (_ | _ | n)
  · simp
  · simp
  · simp only [List.length_append, List.length_cons, decide_eq_true_eq, ← List.length_eq_zero_iff]; omega
  · simp only [List.length_append, List.length_cons, decide_eq_true_eq]; omega

theorem getD_last (since : List Word) (w : Word) (after : List Word) (p : Word) (h : since.getLast? = some p) :
    (since ++ w :: after).getD (since.length - 1) [] = p := by
  obtain ⟨l, rfl⟩ : ∃ l, since = l ++ [p] := by
    rw [List.getLast?_eq_some_iff] at h; exact h
  simp

theorem key_sorted (l : List Word) : (sorted l).Pairwise fun a b => key a ≤ key b := by
  have := List.pairwise_insertionSort (fun a b : Word => key a ≤ key b) l
  exact this

theorem matching_value (opts : List (Word × Opt)) (locs : Option Nargs) (since : List Word) (w : Word) (after : List Word) (u : Bool) (p : Word)
    (hp : since.getLast? = some p) (o : Opt) (ho : opts.lookup p = some o) (ht : o.typed = true) :
    matching opts locs (since ++ w :: after) since.length u = some (if o.choices ≠ [] then o.choices else if o.file then [fileMark] else []) := by
  simp only [matching, getD_last since w after p hp, ho, Option.bind_some, valueOf, ht, if_true]

theorem matching_options (opts : List (Word × Opt)) (P : Parser) (since : List Word) (w : Word) (after : List Word) (hn : (opts.map (·.1)).Nodup)
    (hp : ∀ p, since.getLast? = some p → ∀ o, opts.lookup p = some o → o.typed = false) (h0 : since ≠ []) :
    ∃ l b, matching opts P.locs (since ++ w :: after) since.length true = some (l ++ if b = true then [fileMark] else []) ∧ l.Nodup ∧
      l.Pairwise (fun a b => key a ≤ key b) ∧ (∀ x, x ∈ l ↔ x ∈ opts.map (·.1) ∧ w <+: x ∧ (x ∉ since ++ w :: after ∨ (w ≠ [] ∧ x = w))) ∧
      (b = true ↔ Location P after ∧ (w = [] ∨ ∀ x ∈ opts.map (·.1), ¬ w <+: x)) := by
  obtain ⟨p, hl⟩ : ∃ p, since.getLast? = some p := by
    cases h : since.getLast? with
    | none => simp at h; exact absurd h h0
    | some p => exact ⟨p, rfl⟩
  have hv : (opts.lookup ((since ++ w :: after).getD (since.length - 1) [])).bind valueOf = none := by
    rw [getD_last since w after p hl]
    cases ho : opts.lookup p with
    | none => rfl
    | some o => simp [valueOf, hp p hl o ho]
  have hw : (since ++ w :: after).getD since.length [] = w := by simp
  let found := if w = [] then opts.map (·.1) else (opts.map (·.1)).filter fun o => w.isPrefixOf o
  have hf : ∀ x, x ∈ found ↔ x ∈ opts.map (·.1) ∧ w <+: x := by
    intro x
    simp only [found]
    split
    · next h => rw [h]; simp
    · simp only [List.mem_filter, List.isPrefixOf_iff_prefix]
  have hfn : found.Nodup := by
    simp only [found]
    split
    · exact hn
    · exact hn.filter _
  refine ⟨sorted (found.filter fun o => decide (o ∉ since ++ w :: after ∨ (w ≠ [] ∧ o = w))),
    !(decide (w ≠ [] ∧ found ≠ [])) && wantsFile P.locs (since ++ w :: after).length since.length, ?_, ?_, key_sorted _, ?_, ?_⟩
  · simp only [matching, hv, hw, if_true, found]
  · exact (List.perm_insertionSort _ _).nodup_iff.2 (hfn.filter _)
  · intro x
    rw [sorted, (List.perm_insertionSort _ _).mem_iff, List.mem_filter, hf]
    simp only [decide_eq_true_eq, and_assoc]
  · rw [Bool.and_eq_true, wantsFile_iff, and_comm]
    refine and_congr_right fun _ => ?_
    simp only [Bool.not_eq_true', decide_eq_false_iff_not, not_and_or, not_not]
    refine or_congr_right ?_
    rw [List.eq_nil_iff_forall_not_mem]
    refine forall_congr' fun x => ?_
    rw [hf]; tauto

theorem both_names (P : Parser) (x : Word) : x ∈ (both P).map (·.1) ↔ x ∈ P.opts.map (·.1) ∨ x ∈ P.names := by
  simp [both, Function.comp_def]

theorem both_nodup (P : Parser) (h : (P.opts.map (·.1) ++ P.names).Nodup) : ((both P).map (·.1)).Nodup := by
  simpa [both, Function.comp_def] using h

theorem lookup_append_none {l l' : List (Word × Opt)} {x : Word} (h : l.lookup x = none) : (l ++ l').lookup x = l'.lookup x := by
  induction l with
  | nil => rfl
  | cons a l ih =>
    obtain ⟨y, o⟩ := a
    simp only [List.lookup_cons, List.cons_append] at h ⊢
    split at h
    · simp at h
    · exact ih h

theorem both_lookup (P : Parser) (x : Word) (o : Opt) (h : (both P).lookup x = some o) : P.opts.lookup x = some o ∨ o.typed = false := by
  cases hx : P.opts.lookup x with
  | some o' =>
    rw [both, List.lookup_append, hx] at h
    left; simpa using h
  | none =>
    rw [both, lookup_append_none hx] at h
    right
    generalize P.names = l at h
    induction l with
    | nil => simp at h
    | cons a l ih =>
      simp only [List.map_cons, List.lookup_cons] at h
      split at h
      · simp at h; rw [← h]
      · exact ih h

theorem run_eq (P : Parser) (words : List Word) (c : Nat) (u : Bool) (h : c < words.length) :
    run P words c u = match options P words c u with | none => .crash | some l => .lines l := by
  have h0 : words ≠ [] := by rintro rfl; simp at h
  have h1 : ¬ (words = [] ∨ (c : Int) < -(words.length : Int) ∨ (words.length : Int) ≤ (c : Int)) := by
    rintro (h2 | h2 | h2)
    · exact h0 h2
    · omega
    · omega
  have h3 : ¬ (c : Int) < 0 := by omega
  simp only [run, if_neg h1, if_neg h3, Int.toNat_natCast]
  rfl

end Verif.Completion
