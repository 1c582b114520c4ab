import Verif.Spec.Prepare
import Mathlib.Order.MinMax
import Mathlib.Data.List.Infix
/-
Lemmas about the preparation of actions (C69).
-/
namespace Verif.Prepare
open Verif.Quoting Verif.FlatFile

theorem look_some {fs : FS} {q : Path} {x : Obj} (hq : q ≠ []) : look fs q = some x → (q, x) ∈ fs := by
  simp only [look, if_neg hq, Option.map_eq_some_iff]
  rintro ⟨⟨a, b⟩, h1, rfl⟩
  have h2 := List.find?_some h1
  simp only [decide_eq_true_eq] at h2
  subst h2
  exact List.mem_of_find?_eq_some h1

theorem look_none {fs : FS} {q : Path} (hq : q ≠ []) : look fs q = none ↔ ∀ x, (q, x) ∉ fs := by
  simp only [look, if_neg hq, Option.map_eq_none_iff, List.find?_eq_none, decide_eq_true_eq]
  constructor
  · intro h x hx; exact h _ hx rfl
  · rintro h ⟨a, b⟩ hx rfl; exact h b hx

theorem look_append {fs : FS} {p : Path} {x : Obj} (h : look fs p = none) (q : Path) : look (fs ++ [(p, x)]) q = if q = p then some x else look fs q := by
  by_cases hq : q = []
  · subst hq
    have : p ≠ [] := by rintro rfl; simp [look] at h
    rw [if_neg (fun e => this e.symm)]
    simp [look]
  · simp only [look, if_neg hq, List.find?_append]
    by_cases e : q = p
    · subst e
      have : fs.find? (fun x => decide (x.1 = q)) = none := by simpa [look, hq] using h
      simp [this]
    · rw [if_neg e]
      have : List.find? (fun x => decide (x.1 = q)) [(p, x)] = none := by simp [Ne.symm e]
      rw [this, Option.or_none]

theorem look_filter {fs : FS} {f : Path → Bool} {q : Path} (hq : q ≠ []) : look (fs.filter fun x => f x.1) q = if f q then look fs q else none := by
  simp only [look, if_neg hq]
  induction fs with
  | nil => simp
  | cons a fs ih =>
    by_cases ha : f a.1 = true
    · rw [List.filter_cons_of_pos (by simpa using ha), List.find?_cons, List.find?_cons]
      by_cases e : a.1 = q
      · subst e; simp [ha]
      · simpa [e] using ih
    · rw [List.filter_cons_of_neg (by simpa using ha), List.find?_cons]
      by_cases e : a.1 = q
      · subst e
        rw [ih]; simp [ha]
      · simpa [e] using ih

theorem look_nil (fs : FS) : look fs [] = some .dir := by simp [look]

theorem mem_names {fs : FS} {p : Path} {n : Bytes} : n ∈ names fs p ↔ look fs (p ++ [n]) ≠ none := by
  rw [Ne, look_none (by simp)]
  simp only [names, List.mem_filterMap, not_forall, not_not]
  constructor
  · rintro ⟨⟨a, b⟩, hx, h⟩
    simp only [Option.ite_none_right_eq_some] at h
    refine ⟨b, ?_⟩
    rw [← h.1]
    obtain ⟨l, m, rfl⟩ : ∃ l m, a = l ++ [m] := by
      cases a using List.reverseRecOn with
      | nil => simp at h
      | append_singleton l m => exact ⟨l, m, rfl⟩
    simp at h
    rw [List.dropLast_concat, ← h.2]
    exact hx
  · rintro ⟨x, hx⟩
    exact ⟨_, hx, by simp⟩

theorem names_nil {fs : FS} {p : Path} : names fs p = [] ↔ ∀ n, look fs (p ++ [n]) = none := by
  rw [List.eq_nil_iff_forall_not_mem]
  refine forall_congr' fun n => ?_
  rw [mem_names, not_not]

theorem mkdir_look {e : Env} {fs fs' : FS} {p : Path} (h : mkdir e fs p = some fs') (q : Path) : look fs' q = if q = p then some .dir else look fs q := by
  simp only [mkdir, Option.ite_none_right_eq_some, Option.some.injEq] at h
  obtain ⟨⟨h1, _⟩, rfl⟩ := h
  exact look_append h1 q

theorem mkdir_none {e : Env} {fs fs' : FS} {p : Path} (h : mkdir e fs p = some fs') : look fs p = none := by
  simp only [mkdir, Option.ite_none_right_eq_some] at h
  exact h.1.1

/-- nothing is lost, and new are only directories which are in a list -/
structure Grows (fs fs' : FS) (l : List Path) : Prop where
  kept : ∀ q x, look fs q = some x → look fs' q = some x
  new : ∀ q, look fs q = none → look fs' q = none ∨ (q ∈ l ∧ look fs' q = some .dir)

theorem Grows.refl (fs : FS) (l : List Path) : Grows fs fs l := ⟨fun _ _ h => h, fun _ h => .inl h⟩

theorem Grows.trans {fs fs' fs'' : FS} {l l' : List Path} (h : Grows fs fs' l) (h' : Grows fs' fs'' l') : Grows fs fs'' (l ++ l') := by
  refine ⟨fun q x hq => h'.kept q x (h.kept q x hq), fun q hq => ?_⟩
  rcases h.new q hq with h1 | ⟨h1, h2⟩
  · rcases h'.new q h1 with h3 | ⟨h3, h4⟩
    · exact .inl h3
    · exact .inr ⟨List.mem_append_right _ h3, h4⟩
  · exact .inr ⟨List.mem_append_left _ h1, h'.kept _ _ h2⟩

theorem Grows.mono {fs fs' : FS} {l l' : List Path} (h : Grows fs fs' l) (hl : ∀ q ∈ l, q ∈ l') : Grows fs fs' l' :=
  ⟨h.kept, fun q hq => (h.new q hq).imp_right fun ⟨a, b⟩ => ⟨hl q a, b⟩⟩

theorem mkdir_grows {e : Env} {fs fs' : FS} {p : Path} (h : mkdir e fs p = some fs') : Grows fs fs' [p] := by
  have hl := mkdir_look h
  have hn := mkdir_none h
  refine ⟨fun q x hq => ?_, fun q hq => ?_⟩
  · rw [hl, if_neg]
    · exact hq
    · rintro rfl; rw [hn] at hq; exact absurd hq (by simp)
  · rw [hl]
    by_cases e : q = p
    · exact .inr ⟨by simp [e], by simp [e]⟩
    · rw [if_neg e]; exact .inl hq

theorem makeAll_grows (e : Env) (ps : List Path) : ∀ fs : FS, Grows fs (makeAll e fs ps).1 ps := by
  induction ps with
  | nil => intro fs; exact Grows.refl _ _
  | cons p ps ih =>
    intro fs
    rw [makeAll]
    split
    · exact (ih fs).mono fun q hq => by simp [hq]
    · split
      · exact Grows.refl _ _
      · next fs' hm => exact (mkdir_grows hm).trans (ih fs')

theorem makeAll_dir (e : Env) (ps : List Path) : ∀ fs : FS, (makeAll e fs ps).2 = true → ∀ p ∈ ps, look (makeAll e fs ps).1 p = some .dir := by
  induction ps with
  | nil => simp
  | cons p ps ih =>
    intro fs h q hq
    rw [makeAll] at h ⊢
    split at h
    · next hd =>
      rw [if_pos hd]
      rcases List.mem_cons.1 hq with rfl | hq
      · exact (makeAll_grows e ps fs).kept _ _ (by simpa [isDir] using hd)
      · exact ih fs h q hq
    · next hd =>
      rw [if_neg hd]
      cases hm : mkdir e fs p with
      | none => rw [hm] at h; simp at h
      | some fs' =>
        rw [hm] at h
        rcases List.mem_cons.1 hq with rfl | hq
        · exact (makeAll_grows e ps fs').kept _ _ (by rw [mkdir_look hm, if_pos rfl])
        · exact ih fs' h q hq

theorem mem_above {p q : Path} : q ∈ above p ↔ q <+: p := by
  simp only [above, List.mem_map, List.mem_range]
  constructor
  · rintro ⟨n, _, rfl⟩; exact List.take_prefix _ _
  · intro h
    refine ⟨q.length, ?_, (List.prefix_iff_eq_take.1 h).symm⟩
    have := h.length_le
    omega

theorem ensure_grows (e : Env) (fs : FS) (p : Path) : Grows fs (ensure e fs p).1 [p] := by
  unfold ensure
  split
  · split
    · exact Grows.refl _ _
    · next fs' hm => exact mkdir_grows hm
  · exact Grows.refl _ _

theorem ensure_there {e : Env} {fs : FS} {p : Path} (h : (ensure e fs p).2 = true) : look (ensure e fs p).1 p ≠ none := by
  unfold ensure at h ⊢
  split
  · next hn =>
    rw [if_pos hn] at h
    cases hm : mkdir e fs p with
    | none => rw [hm] at h; simp at h
    | some fs' => simp [mkdir_look hm]
  · next hn => simpa using hn

/-- making a location: nothing is lost but, with `--force`, something there which isn't a directory -/
theorem create_spec (e : Env) (o : Opts) (fs : FS) (p : Path) :
    (∀ q x, look fs q = some x → look (create e o fs p).1 q = some x ∨ (q = p ∧ o.force = true ∧ x ≠ .dir)) ∧
    (∀ q, look fs q = none → look (create e o fs p).1 q = none ∨ (q <+: p ∧ look (create e o fs p).1 q = some .dir)) ∧
    ((create e o fs p).2 = true → look fs p = some .dir ∨ look fs p = none ∨ o.force = true → look (create e o fs p).1 p = some .dir) ∧
    (o.force = false → Grows fs (create e o fs p).1 (above p)) := by
  have hself : p ∈ above p := mem_above.2 (List.prefix_refl _)
  have rest : ∀ fs : FS, let r := (if (look fs p).isNone then
      if o.createFullPath then makeAll e fs (above p)
      else match mkdir e fs p with
        | none => (fs, false)
        | some fs => (fs, true)
    else (fs, true)); Grows fs r.1 (above p) ∧ (r.2 = true → look fs p = some .dir ∨ look fs p = none → look r.1 p = some .dir) := by
    intro fs
    by_cases hn : (look fs p).isNone
    · simp only [if_pos hn]
      split
      · exact ⟨makeAll_grows _ _ _, fun h _ => makeAll_dir _ _ _ h _ hself⟩
      · cases hm : mkdir e fs p with
        | none => exact ⟨Grows.refl _ _, by simp⟩
        | some fs' => exact ⟨(mkdir_grows hm).mono fun q hq => by rw [List.mem_singleton.1 hq]; exact hself, fun _ _ => by simp [mkdir_look hm]⟩
    · simp only [if_neg hn]
      refine ⟨Grows.refl _ _, fun _ h => ?_⟩
      rcases h with h | h
      · exact h
      · simp [h] at hn
  unfold create
  by_cases hc : ((look fs p).isSome && !isDir fs p && o.force) = true
  · simp only [if_pos hc]
    simp only [Bool.and_eq_true, Bool.not_eq_true'] at hc
    obtain ⟨⟨h1, h2⟩, h3⟩ := hc
    have hp : p ≠ [] := by rintro rfl; simp [isDir, look_nil] at h2
    cases hu : unlink e fs p with
    | none =>
      refine ⟨fun q x h => .inl h, fun q h => .inl h, by simp, fun h => by rw [h3] at h; exact absurd h (by simp)⟩
    | some fs1 =>
      simp only [unlink, Option.ite_none_right_eq_some, Option.some.injEq] at hu
      have hl : ∀ q, look fs1 q = if q = p then none else look fs q := by
        intro q
        by_cases hq : q = []
        · subst hq; rw [if_neg (fun e => hp e.symm)]; simp [look]
        · rw [← hu.2, look_filter (f := fun q => decide (q ≠ p)) hq]
          by_cases e : q = p <;> simp [e]
      obtain ⟨r1, r2⟩ := rest fs1
      refine ⟨fun q x h => ?_, fun q h => ?_, fun h _ => r2 h (.inr (by simp [hl])), fun h => by rw [h3] at h; exact absurd h (by simp)⟩
      · by_cases e : q = p
        · subst e
          refine .inr ⟨rfl, h3, ?_⟩
          rintro rfl
          simp [isDir, h] at h2
        · exact .inl (r1.kept q x (by rw [hl, if_neg e]; exact h))
      · have : look fs1 q = none := by rw [hl]; split <;> simp [h]
        rcases r1.new q this with h4 | ⟨h4, h5⟩
        · exact .inl h4
        · exact .inr ⟨mem_above.1 h4, h5⟩
  · simp only [if_neg hc]
    obtain ⟨r1, r2⟩ := rest fs
    refine ⟨fun q x h => .inl (r1.kept q x h), fun q h => (r1.new q h).imp_right fun ⟨a, b⟩ => ⟨mem_above.1 a, b⟩, fun h h' => r2 h ?_, fun _ => r1⟩
    rcases h' with h' | h' | h'
    · exact .inl h'
    · exact .inr h'
    · simp only [h', Bool.and_true, Bool.and_eq_true, Bool.not_eq_true', not_and, Bool.not_eq_false] at hc
      cases hx : look fs p with
      | none => exact .inr rfl
      | some x =>
        left
        have := hc (by simp [hx])
        simpa [isDir, hx] using this

/-! ### repositories -/

theorem rmtree_look (e : Env) (fs : FS) {p : Path} (hp : p ≠ []) (q : Path) :
    look (rmtree e fs p).1 q = if p <+: q ∧ e.stays q = false then none else look fs q := by
  by_cases hq : q = []
  · subst hq
    rw [if_neg (by simp [hp]), look_nil, look_nil]
  · rw [rmtree, look_filter (f := fun q => !decide (p <+: q) || e.stays q) hq]
    by_cases h : p <+: q <;> cases e.stays q <;> simp [h]

theorem dataDir_ne (r : Path) : dataDir r ≠ [] := by simp [dataDir]
theorem data_prefix (r : Path) : dataDir r <+: incsDir r := List.prefix_append _ _
theorem base_prefix (r : Path) : r <+: incsDir r := (List.prefix_append _ _).trans (data_prefix r)

/-- a completed repository isn't taken for a first backup which failed -/
theorem failed_not_completed {fs : FS} {r : Path} (h : failedInitial fs r = some true) : ¬ Completed fs r := by
  unfold failedInitial at h
  split at h
  · simp at h
  · simp only [Option.some.injEq, Bool.and_eq_true, Bool.not_eq_true', decide_eq_true_eq, List.any_eq_false, List.isPrefixOf_iff_prefix] at h
    obtain ⟨⟨h1, h2⟩, h3⟩ := h
    have two : ∀ s : Bytes, ((names fs (dataDir r)).filter fun n => s.isPrefixOf n).length ≤ 1 → ¬ HasTwo fs r s := by
      rintro s hs ⟨n, m, hne, hn, hm, tn, tm⟩
      have mn : n ∈ (names fs (dataDir r)).filter fun n => s.isPrefixOf n := List.mem_filter.2 ⟨mem_names.2 tn, by simpa using hn⟩
      have mm : m ∈ (names fs (dataDir r)).filter fun n => s.isPrefixOf n := List.mem_filter.2 ⟨mem_names.2 tm, by simpa using hm⟩
      generalize (names fs (dataDir r)).filter (fun n => s.isPrefixOf n) = l at hs mn mm
      match l, hs with
      | [], _ => simp at mn
      | [a], _ => rw [List.mem_singleton] at mn mm; exact hne (mn.trans mm.symm)
    rintro (⟨n, hn, tn⟩ | h | h)
    · exact h1 n (mem_names.2 tn) hn
    · exact two _ h2 h
    · exact two _ h3 h
  · simp at h

theorem completed_kept {fs fs' : FS} {r : Path} (h : ∀ n, There fs (dataDir r ++ [n]) → There fs' (dataDir r ++ [n])) (hc : Completed fs r) : Completed fs' r := by
  rcases hc with ⟨n, hn, t⟩ | ⟨n, m, hne, hn, hm, t, t'⟩ | ⟨n, m, hne, hn, hm, t, t'⟩
  · exact .inl ⟨n, hn, h n t⟩
  · exact .inr (.inl ⟨n, m, hne, hn, hm, h n t, h m t'⟩)
  · exact .inr (.inr ⟨n, m, hne, hn, hm, h n t, h m t'⟩)

/-- the last steps of making a repository -/
def finish (e : Env) (fs : FS) (r : Path) : FS × Bool :=
  match ensure e fs (dataDir r) with
  | (fs, false) => (fs, false)
  | (fs, true) => ensure e fs (incsDir r)

theorem finish_grows (e : Env) (fs : FS) (r : Path) : Grows fs (finish e fs r).1 [dataDir r, incsDir r] := by
  have h1 := ensure_grows e fs (dataDir r)
  unfold finish
  cases h : ensure e fs (dataDir r) with
  | mk fs1 b =>
    rw [h] at h1
    cases b with
    | false => exact h1.mono fun q hq => by simp at hq; simp [hq]
    | true => exact h1.trans (ensure_grows e fs1 (incsDir r))

theorem repoCreate_eq (e : Env) (o : Opts) (fs : FS) (r : Path) : repoCreate e o fs r =
    if (create e o fs r).2 = false then ((create e o fs r).1, false)
    else match failedInitial (create e o fs r).1 r with
      | none => ((create e o fs r).1, false)
      | some false => finish e (create e o fs r).1 r
      | some true =>
        if (look (create e o fs r).1 (lockFile r)).isSome && !o.force then ((create e o fs r).1, false)
        else if (rmtree e (create e o fs r).1 (dataDir r)).2 = false then ((rmtree e (create e o fs r).1 (dataDir r)).1, false)
        else finish e (rmtree e (create e o fs r).1 (dataDir r)).1 r := by
  unfold repoCreate finish
  cases h : create e o fs r with
  | mk fs1 b =>
    cases b with
    | false => simp
    | true =>
      simp only [Bool.true_eq_false, if_false]
      cases hf : failedInitial fs1 r with
      | none => rfl
      | some b =>
        cases b with
        | false => rfl
        | true =>
          simp only []
          split
          · rfl
          · cases hr : rmtree e fs1 (dataDir r) with
            | mk fs2 b =>
              cases b with
              | false => simp
              | true =>
                simp only [Bool.true_eq_false, if_false]
                cases ensure e fs2 (dataDir r) with
                | mk f b => cases b <;> rfl

/-- making a repository: what may be lost, and what is new -/
theorem repoCreate_spec (e : Env) (o : Opts) (fs : FS) (r : Path) :
    (∀ q x, look fs q = some x → look (repoCreate e o fs r).1 q = some x ∨ (q = r ∧ o.force = true ∧ x ≠ .dir) ∨
      (dataDir r <+: q ∧ ¬ Completed fs r ∧ (o.force = true ∨ ¬ There fs (lockFile r)))) ∧
    (∀ q, look fs q = none → look (repoCreate e o fs r).1 q = none ∨ (q <+: incsDir r ∧ look (repoCreate e o fs r).1 q = some .dir)) := by
  obtain ⟨c1, c2, _, _⟩ := create_spec e o fs r
  rw [repoCreate_eq]
  generalize hcr : create e o fs r = cr at c1 c2
  obtain ⟨fs1, b⟩ := cr
  simp only [] at c1 c2 ⊢
  have hsub : ∀ n, There fs (dataDir r ++ [n]) → There fs1 (dataDir r ++ [n]) := by
    intro n hn
    obtain ⟨x, hx⟩ := Option.ne_none_iff_exists'.1 hn
    rcases c1 _ x hx with h | ⟨h, _⟩
    · rw [There, h]; simp
    · exfalso; have := congrArg List.length h; simp [dataDir] at this
  have base : (∀ q x, look fs q = some x → look fs1 q = some x ∨ (q = r ∧ o.force = true ∧ x ≠ .dir) ∨
      (dataDir r <+: q ∧ ¬ Completed fs r ∧ (o.force = true ∨ ¬ There fs (lockFile r)))) ∧
    (∀ q, look fs q = none → look fs1 q = none ∨ (q <+: incsDir r ∧ look fs1 q = some .dir)) :=
    ⟨fun q x h => (c1 q x h).imp_right .inl, fun q h => (c2 q h).imp_right fun ⟨a, b⟩ => ⟨a.trans (base_prefix r), b⟩⟩
  have fin : ∀ fs2 : FS, ((∀ q x, look fs q = some x → look fs2 q = some x ∨ (q = r ∧ o.force = true ∧ x ≠ .dir) ∨
      (dataDir r <+: q ∧ ¬ Completed fs r ∧ (o.force = true ∨ ¬ There fs (lockFile r)))) ∧
      (∀ q, look fs q = none → look fs2 q = none ∨ (q <+: incsDir r ∧ look fs2 q = some .dir))) →
      ((∀ q x, look fs q = some x → look (finish e fs2 r).1 q = some x ∨ (q = r ∧ o.force = true ∧ x ≠ .dir) ∨
      (dataDir r <+: q ∧ ¬ Completed fs r ∧ (o.force = true ∨ ¬ There fs (lockFile r)))) ∧
      (∀ q, look fs q = none → look (finish e fs2 r).1 q = none ∨ (q <+: incsDir r ∧ look (finish e fs2 r).1 q = some .dir))) := by
    rintro fs2 ⟨h1, h2⟩
    have hg := finish_grows e fs2 r
    refine ⟨fun q x h => (h1 q x h).imp_left (hg.kept q x), fun q h => ?_⟩
    rcases h2 q h with h3 | ⟨h3, h4⟩
    · rcases hg.new q h3 with h5 | ⟨h5, h6⟩
      · exact .inl h5
      · refine .inr ⟨?_, h6⟩
        simp only [List.mem_cons, List.not_mem_nil, or_false] at h5
        rcases h5 with rfl | rfl
        · exact data_prefix r
        · exact List.prefix_refl _
    · exact .inr ⟨h3, hg.kept _ _ h4⟩
  split
  · exact base
  · cases hf : failedInitial fs1 r with
    | none => exact base
    | some b' =>
      cases b' with
      | false => exact fin fs1 base
      | true =>
        simp only []
        split
        · exact base
        · next hlock =>
          have hnc : ¬ Completed fs r := fun hc => failed_not_completed hf (completed_kept hsub hc)
          have hl : o.force = true ∨ ¬ There fs (lockFile r) := by
            by_cases hfo : o.force = true
            · exact .inl hfo
            · refine .inr fun ht => hlock ?_
              have : There fs1 (lockFile r) := hsub _ ht
              simp only [Bool.not_eq_true] at hfo
              simp [hfo, Option.isSome_iff_ne_none, There] at this ⊢
              exact this
          have hrm : (∀ q x, look fs q = some x → look (rmtree e fs1 (dataDir r)).1 q = some x ∨ (q = r ∧ o.force = true ∧ x ≠ .dir) ∨
              (dataDir r <+: q ∧ ¬ Completed fs r ∧ (o.force = true ∨ ¬ There fs (lockFile r)))) ∧
              (∀ q, look fs q = none → look (rmtree e fs1 (dataDir r)).1 q = none ∨ (q <+: incsDir r ∧ look (rmtree e fs1 (dataDir r)).1 q = some .dir)) := by
            refine ⟨fun q x h => ?_, fun q h => ?_⟩
            · by_cases hd : dataDir r <+: q
              · exact .inr (.inr ⟨hd, hnc, hl⟩)
              · rw [rmtree_look e fs1 (dataDir_ne r), if_neg (fun h => hd h.1)]
                exact base.1 q x h
            · rw [rmtree_look e fs1 (dataDir_ne r)]
              split
              · exact .inl rfl
              · exact base.2 q h
          split
          · exact hrm
          · exact fin _ hrm

/-- a repository which was made is there -/
theorem repoCreate_there {e : Env} {o : Opts} {fs : FS} {r : Path} (h : (repoCreate e o fs r).2 = true) (hw : isWritable o fs r = true) :
    look (repoCreate e o fs r).1 r = some .dir ∧ look (repoCreate e o fs r).1 (dataDir r) = some .dir ∧ There (repoCreate e o fs r).1 (incsDir r) := by
  obtain ⟨_, _, c3, _⟩ := create_spec e o fs r
  rw [repoCreate_eq] at h ⊢
  generalize hcr : create e o fs r = cr at c3 h
  obtain ⟨fs1, b⟩ := cr
  simp only [] at c3 h ⊢
  have hr : b = true → look fs1 r = some .dir := fun hb => c3 hb (by
    unfold isWritable at hw
    cases hx : look fs r with
    | none => exact .inr (.inl rfl)
    | some x =>
      by_cases hd : isDir fs r = true
      · left; simpa [isDir, hx] using hd
      · rw [hx, if_pos (by simp [hd])] at hw; exact .inr (.inr hw))
  have fin : ∀ fs2 : FS, look fs2 r = some .dir → (look fs2 (dataDir r) = some .dir ∨ look fs2 (dataDir r) = none) → (finish e fs2 r).2 = true →
      look (finish e fs2 r).1 r = some .dir ∧ look (finish e fs2 r).1 (dataDir r) = some .dir ∧ There (finish e fs2 r).1 (incsDir r) := by
    intro fs2 h1 h2 h3
    have hg := finish_grows e fs2 r
    refine ⟨hg.kept _ _ h1, ?_, ?_⟩
    · unfold finish at h3 ⊢
      cases he : ensure e fs2 (dataDir r) with
      | mk fs3 b3 =>
        rw [he] at h3
        cases b3 with
        | false => simp at h3
        | true =>
          refine (ensure_grows e fs3 (incsDir r)).kept _ _ ?_
          have ht := ensure_there (e := e) (fs := fs2) (p := dataDir r) (by rw [he])
          have hg' := ensure_grows e fs2 (dataDir r)
          rw [he] at ht hg'
          rcases h2 with h2 | h2
          · exact hg'.kept _ _ h2
          · rcases hg'.new _ h2 with h5 | h5
            · exact absurd h5 ht
            · exact h5.2
    · unfold finish at h3 ⊢
      cases he : ensure e fs2 (dataDir r) with
      | mk fs3 b3 =>
        rw [he] at h3
        cases b3 with
        | false => simp at h3
        | true => exact ensure_there h3
  cases b with
  | false => simp at h
  | true =>
    simp only [Bool.true_eq_false, if_false] at h ⊢
    cases hf : failedInitial fs1 r with
    | none => rw [hf] at h; simp at h
    | some b' =>
      rw [hf] at h
      have hdata : look fs1 (dataDir r) = some .dir ∨ look fs1 (dataDir r) = none := by
        unfold failedInitial at hf
        split at hf
        · next hn => exact .inr hn
        · next hd => exact .inl hd
        · simp at hf
      cases b' with
      | false => exact fin fs1 (hr rfl) hdata h
      | true =>
        simp only [] at h ⊢
        split
        · next hl => rw [if_pos hl] at h; simp at h
        · next hl =>
          rw [if_neg hl] at h
          split
          · next hrm => rw [if_pos hrm] at h; simp at h
          · next hrm =>
            rw [if_neg hrm] at h
            refine fin _ ?_ ?_ h
            · rw [rmtree_look e fs1 (dataDir_ne r), if_neg]
              · exact hr rfl
              · rintro ⟨hp, _⟩
                have := hp.length_le
                simp [dataDir] at this
                omega
            · rw [rmtree_look e fs1 (dataDir_ne r)]
              split
              · exact .inr rfl
              · exact hdata

theorem lock_look (e : Env) (ex : Bool) (fs : FS) (r q : Path) (h : q ≠ lockFile r ∨ ex = false) : look (lock e ex fs r).1 q = look fs q := by
  unfold lock
  split
  · rfl
  · split
    · rfl
    · split
      · next hex =>
        rcases h with h | h
        · have hl : lockFile r ≠ [] := by simp [lockFile]
          have h1 : look (fs.filter fun x => x.1 ≠ lockFile r) (lockFile r) = none := by
            rw [look_filter (f := fun q => decide (q ≠ lockFile r)) hl]; simp
          rw [look_append h1, if_neg h]
          by_cases hq : q = []
          · subst hq; simp [look]
          · rw [look_filter (f := fun q => decide (q ≠ lockFile r)) hq]; simp [h]
        · rw [h] at hex; simp at hex
      · rfl
end Verif.Prepare
