import Verif.Model.FStats
import Mathlib.Order.MinMax
/-
Lemmas about file statistics: making trees (C68).
-/
set_option linter.unusedSectionVars false

namespace Verif.FStats
open Verif

theorem Vals.ext' {a b : Vals} (h1 : a.changed = b.changed) (h2 : a.source = b.source) (h3 : a.inc = b.inc) : a = b := by
  cases a; cases b; simp_all

@[simp] theorem add_changed (a b : Vals) : (a + b).changed = a.changed + b.changed := rfl
@[simp] theorem add_source (a b : Vals) : (a + b).source = a.source + b.source := rfl
@[simp] theorem add_inc (a b : Vals) : (a + b).inc = a.inc + b.inc := rfl
@[simp] theorem sub_changed (a b : Vals) : (a - b).changed = a.changed - b.changed := rfl
@[simp] theorem sub_source (a b : Vals) : (a - b).source = a.source - b.source := rfl
@[simp] theorem sub_inc (a b : Vals) : (a - b).inc = a.inc - b.inc := rfl

theorem vadd_assoc (a b c : Vals) : a + b + c = a + (b + c) := Vals.ext' (Int.add_assoc ..) (Int.add_assoc ..) (Int.add_assoc ..)
theorem vadd_comm (a b : Vals) : a + b = b + a := Vals.ext' (Int.add_comm ..) (Int.add_comm ..) (Int.add_comm ..)
def zero : Vals := ⟨0, 0, 0⟩
theorem vadd_zero (a : Vals) : a + zero = a := Vals.ext' (Int.add_zero _) (Int.add_zero _) (Int.add_zero _)
theorem vzero_add (a : Vals) : zero + a = a := Vals.ext' (Int.zero_add _) (Int.zero_add _) (Int.zero_add _)

section
variable {α : Type} [DecidableEq α]

/-- the files in the order directories before what is in them, and after it -/
def pre : Forest α → List (FS α)
  | .nil => []
  | .cons a v c r => (a, v) :: (pre c ++ pre r)
def post : Forest α → List (FS α)
  | .nil => []
  | .cons a v c r => post c ++ (a, v) :: post r

/-- the names fit: what is in a directory is called so, and no two files have the same name -/
def WF : List α → Forest α → Prop
  | _, .nil => True
  | p, .cons a _ c r => (∃ n, a = p ++ [n]) ∧ WF a c ∧ WF p r ∧ ∀ x ∈ pre r, ¬ a <+: x.1

/-- values replaced by totals -/
def tot : Forest α → Forest α
  | .nil => .nil
  | .cons a v c r => .cons a (v + (tot c).sum) (tot c) (tot r)

theorem mem_post {F : Forest α} {x : FS α} : x ∈ post F ↔ x ∈ pre F := by
  induction F with
  | nil => rfl
  | cons a v c r ih1 ih2 =>
    simp only [post, pre, List.mem_append, List.mem_cons, ih1, ih2]
    tauto

theorem WF.below {p : List α} {F : Forest α} (h : WF p F) : ∀ x ∈ pre F, ∃ n l, x.1 = p ++ n :: l := by
  induction F generalizing p with
  | nil => simp [pre]
  | cons a v c r ih1 ih2 =>
    obtain ⟨⟨n, rfl⟩, hc, hr, -⟩ := h
    intro x hx
    simp only [pre, List.mem_cons, List.mem_append] at hx
    rcases hx with rfl | hx | hx
    · exact ⟨n, [], rfl⟩
    · obtain ⟨m, l, e⟩ := ih1 hc x hx
      exact ⟨n, m :: l, by rw [e]; simp⟩
    · exact ih2 hr x hx

theorem tot_names {F : Forest α} : (pre (tot F)).map Prod.fst = (pre F).map Prod.fst := by
  induction F with
  | nil => rfl
  | cons a v c r ih1 ih2 => simp [tot, pre, ih1, ih2]

theorem wf_tot {p : List α} {F : Forest α} (h : WF p F) : WF p (tot F) := by
  induction F generalizing p with
  | nil => trivial
  | cons a v c r ih1 ih2 =>
    obtain ⟨ha, hc, hr, hd⟩ := h
    refine ⟨ha, ih1 hc, ih2 hr, fun x hx hp => ?_⟩
    have : x.1 ∈ (pre (tot r)).map Prod.fst := List.mem_map_of_mem hx
    rw [tot_names] at this
    obtain ⟨y, hy, e⟩ := List.mem_map.1 this
    exact hd y hy (e ▸ hp)

/-! ### accumulating -/

theorem isChild_iff {a p : List α} : isChild a p = true ↔ ∃ n, a = p ++ [n] := by
  simp only [isChild, Bool.and_eq_true, decide_eq_true_eq]
  constructor
  · rintro ⟨h1, rfl⟩
    exact ⟨a.getLast h1, (List.dropLast_append_getLast h1).symm⟩
  · rintro ⟨n, rfl⟩
    simp

theorem accLoop_forest (F : Forest α) : ∀ (p : List α) (u : Vals) (stack rest : List (FS α)), WF p F →
    (∀ x, rest.head? = some x → ∀ n l, x.1 ≠ p ++ n :: l) →
    accLoop ((p, u) :: stack) (pre F ++ rest) = post (tot F) ++ accLoop ((p, u + (tot F).sum) :: stack) rest := by
  induction F with
  | nil =>
    intro p u stack rest _ _
    have : u + (⟨0, 0, 0⟩ : Vals) = u := vadd_zero u
    simp [pre, post, tot, Forest.sum, this]
  | cons a v c r ih1 ih2 =>
    intro p u stack rest hw hrest
    obtain ⟨⟨n, ha⟩, hc, hr, hd⟩ := hw
    have hhead : ∀ x, (pre r ++ rest).head? = some x → ∀ m l, x.1 ≠ a ++ m :: l := by
      intro x hx m l e
      cases hp : pre r with
      | nil =>
        rw [hp] at hx
        exact hrest x hx n (m :: l) (by rw [e, ha]; simp)
      | cons y ys =>
        rw [hp] at hx
        cases hx
        exact hd x (by rw [hp]; simp) (e ▸ List.prefix_append _ _)
    simp only [pre, List.cons_append, List.append_assoc]
    rw [accLoop.eq_def]; simp only []; rw [if_pos (isChild_iff.2 ⟨n, ha⟩), ih1 a v _ _ hc hhead]
    have hpop : accLoop ((a, v + (tot c).sum) :: (p, u) :: stack) (pre r ++ rest) =
        (a, v + (tot c).sum) :: accLoop ((p, u + (v + (tot c).sum)) :: stack) (pre r ++ rest) := by
      cases hl : pre r ++ rest with
      | nil => simp only [accLoop]
      | cons x l =>
        rw [accLoop.eq_def]; simp only []; rw [if_neg]
        intro hch
        obtain ⟨m, e⟩ := isChild_iff.1 hch
        exact hhead x (by rw [hl]; rfl) m [] e
    rw [hpop, ih2 p _ _ _ hr hrest]
    simp only [tot, post, Forest.sum, List.append_assoc, List.cons_append, vadd_assoc]

theorem accumulate_eq {v : Vals} {F : Forest α} (h : WF [] F) :
    accumulate (([], v) :: pre F) = some (post (tot F) ++ [([], v + (tot F).sum)]) := by
  have := accLoop_forest F [] v [] [] h (by simp)
  rw [List.append_nil] at this
  simp only [accumulate, ne_eq, not_true_eq_false, if_false, this]
  rw [accLoop]

/-! ### making the tree -/

def Forest.app : Forest α → Forest α → Forest α
  | .nil, g => g
  | .cons a v c r, g => .cons a v c (r.app g)

theorem append_app (acc : Forest α) (n : Node α) (r : Forest α) : (acc.append n).app r = acc.app (.cons n.name n.v n.children r) := by
  induction acc with
  | nil => rfl
  | cons a v c r' _ ih => simp [Forest.append, Forest.app, ih]

theorem app_nil (acc : Forest α) : acc.app .nil = acc := by
  induction acc with
  | nil => rfl
  | cons a v c r' _ ih => simp [Forest.app, ih]

theorem post_head_length {F : Forest α} {q : List α} {v : Vals} {tail : List (FS α)} {n : FS α} {tl : List (FS α)} (hw : WF q F)
    (h : post F ++ (q, v) :: tail = n :: tl) : q.length ≤ n.1.length := by
  cases hp : post F with
  | nil =>
    rw [hp] at h
    cases h
    exact Nat.le_refl _
  | cons x xs =>
    rw [hp] at h
    cases h
    obtain ⟨m, l, e⟩ := hw.below n (mem_post.1 (by rw [hp]; simp))
    rw [e]
    simp

theorem level_forest (F : Forest α) :
    (∀ (p : List α) (u : Vals) (rest : List (FS α)) (f : α) (acc : Forest α) (n : FS α) (tl : List (FS α)) (fuel : Nat), WF p F →
      post F ++ (p, u) :: rest = n :: tl → tl.length + 1 ≤ fuel →
      levelLoop fuel (p ++ [f]) acc ⟨n.1, n.2, .nil⟩ tl = some (⟨p, u, acc.app F⟩, rest)) ∧
    (∀ (q : List α) (v : Vals) (tail : List (FS α)) (p : List α) (f : α) (acc : Forest α) (R : Option (Node α × List (FS α))) (n : FS α) (tl : List (FS α)) (fuel : Nat),
      WF q F → p.length < q.length → post F ++ (q, v) :: tail = n :: tl →
      (∀ fuel, tail.length + 1 ≤ fuel → levelLoop fuel (p ++ [f]) acc ⟨q, v, F⟩ tail = R) → tl.length + 1 ≤ fuel →
      levelLoop fuel (p ++ [f]) acc ⟨n.1, n.2, .nil⟩ tl = R) := by
  induction F with
  | nil =>
    constructor
    · intro p u rest f acc n tl fuel _ h hf
      cases h
      obtain ⟨fuel, rfl⟩ := (⟨fuel - 1, by omega⟩ : ∃ k, fuel = k + 1)
      rw [levelLoop.eq_def]; simp only []; rw [if_pos (isChild_iff.2 ⟨f, rfl⟩), app_nil]
    · intro q v tail p f acc R n tl fuel _ _ h hR hf
      cases h
      exact hR fuel hf
  | cons a v c r ih1 ih2 =>
    constructor
    · intro p u rest f acc n tl fuel hw h hf
      obtain ⟨⟨m, rfl⟩, hc, hr, -⟩ := hw
      refine ih1.2 (p ++ [m]) v (post r ++ (p, u) :: rest) p f acc _ n tl fuel hc (by simp) (by simpa [post] using h) ?_ hf
      intro fuel hfu
      obtain ⟨fuel, rfl⟩ := (⟨fuel - 1, by omega⟩ : ∃ k, fuel = k + 1)
      have h1 : isChild (p ++ [f]) (p ++ [m]) = false := by simp [isChild]
      have h2 : isBrother (p ++ [f]) (p ++ [m]) = true := by simp [isBrother]
      rw [levelLoop.eq_def]; simp only []; rw [h1, h2, if_neg (by simp), if_pos rfl]
      cases hl : post r ++ (p, u) :: rest with
      | nil => simp at hl
      | cons n' tl' =>
        rw [hl] at hfu
        simp only [List.length_cons] at hfu
        have := ih2.1 p u rest f (acc.append ⟨p ++ [m], v, c⟩) n' tl' fuel hr hl (by omega)
        rw [append_app] at this
        exact this
    · intro q w tail p f acc R n tl fuel hw hlen h hR hf
      obtain ⟨⟨m, rfl⟩, hc, hr, -⟩ := hw
      refine ih1.2 (q ++ [m]) v (post r ++ (q, w) :: tail) p f acc R n tl fuel hc (by simp; omega) (by simpa [post] using h) ?_ hf
      intro fuel hfu
      obtain ⟨fuel, rfl⟩ := (⟨fuel - 1, by omega⟩ : ∃ k, fuel = k + 1)
      have h1 : isChild (p ++ [f]) (q ++ [m]) = false := by
        rw [Bool.eq_false_iff]
        intro hch
        obtain ⟨k, e⟩ := isChild_iff.1 hch
        have := congrArg List.length e
        simp at this
        omega
      have h2 : isBrother (p ++ [f]) (q ++ [m]) = false := by
        simp only [isBrother, List.dropLast_concat, Bool.and_eq_false_iff, decide_eq_false_iff_not]
        refine .inr fun e => ?_
        rw [e] at hlen
        omega
      rw [levelLoop.eq_def]; simp only []; rw [h1, h2, if_neg (by simp), if_neg (by simp)]
      cases hl : post r ++ (q, w) :: tail with
      | nil => simp at hl
      | cons n' tl' =>
        have hlt : tail.length ≤ tl'.length := by
          have := congrArg List.length hl
          simp at this
          omega
        rw [hl] at hfu
        simp only [List.length_cons] at hfu
        have := ih2.1 q w tail m (Forest.nil.append ⟨q ++ [m], v, c⟩) n' tl' fuel hr hl (by omega)
        simp only [this]
        exact hR fuel (by omega)

theorem root_forest (F : Forest α) : ∀ (q : List α) (v : Vals) (tail : List (FS α)) (R : Option (Node α)) (n : FS α) (tl : List (FS α)) (fuel : Nat),
    WF q F → post F ++ (q, v) :: tail = n :: tl → (∀ fuel, tail.length + 1 ≤ fuel → rootLoop fuel ⟨q, v, F⟩ tail = R) → tl.length + 1 ≤ fuel →
    rootLoop fuel ⟨n.1, n.2, .nil⟩ tl = R := by
  induction F with
  | nil =>
    intro q v tail R n tl fuel _ h hR hf
    cases h
    exact hR fuel hf
  | cons a v c r ih1 ih2 =>
    intro q w tail R n tl fuel hw h hR hf
    obtain ⟨⟨m, rfl⟩, hc, hr, -⟩ := hw
    refine ih1 (q ++ [m]) v (post r ++ (q, w) :: tail) R n tl fuel hc (by simpa [post] using h) ?_ hf
    intro fuel hfu
    obtain ⟨fuel, rfl⟩ := (⟨fuel - 1, by omega⟩ : ∃ k, fuel = k + 1)
    rw [rootLoop.eq_def]; simp only []; rw [if_neg (by simp)]
    cases hl : post r ++ (q, w) :: tail with
    | nil => simp at hl
    | cons n' tl' =>
      have hlt : tail.length ≤ tl'.length := by
        have := congrArg List.length hl
        simp at this
        omega
      rw [hl] at hfu
      simp only [List.length_cons] at hfu
      have := (level_forest r).1 q w tail m (Forest.nil.append ⟨q ++ [m], v, c⟩) n' tl' (tl'.length + 1) hr hl (Nat.le_refl _)
      simp only [this]
      exact hR fuel (by omega)

theorem makeRoot_eq {F : Forest α} {v : Vals} (h : WF [] F) : makeRoot (post F ++ [([], v)]) = some ⟨[], v, F⟩ := by
  cases hl : post F ++ [([], v)] with
  | nil => simp at hl
  | cons n tl =>
    refine root_forest F [] v [] _ n tl _ h hl ?_ (Nat.le_refl _)
    intro fuel hf
    obtain ⟨fuel, rfl⟩ := (⟨fuel - 1, by simp at hf; omega⟩ : ∃ k, fuel = k + 1)
    rw [rootLoop.eq_def]; simp only []; rw [if_pos trivial]

/-! ### leaving out the small ones -/

def prune (cut : Vals) : Forest α → Forest α
  | .nil => .nil
  | .cons a v c r => if v.ge cut then .cons a v (prune cut c) (prune cut r) else prune cut r

/-- at most as large in all values -/
def Le (a b : Vals) : Prop := a.changed ≤ b.changed ∧ a.source ≤ b.source ∧ a.inc ≤ b.inc

theorem Le.refl (a : Vals) : Le a a := ⟨Int.le_refl _, Int.le_refl _, Int.le_refl _⟩
theorem Le.trans {a b c : Vals} (h : Le a b) (h' : Le b c) : Le a c := ⟨Int.le_trans h.1 h'.1, Int.le_trans h.2.1 h'.2.1, Int.le_trans h.2.2 h'.2.2⟩
theorem Le.ge {a b cut : Vals} (h : Le a b) (hg : a.ge cut = true) : b.ge cut = true := by
  obtain ⟨h1, h2, h3⟩ := h
  simp only [Vals.ge, Bool.or_eq_true, decide_eq_true_eq] at *
  omega

/-- no file or directory has less than what is in it, and values aren't negative -/
def Super : Forest α → Prop
  | .nil => True
  | .cons _ v c r => Le c.sum v ∧ Super c ∧ Super r

theorem Super.nonneg {F : Forest α} (h : Super F) : Le zero F.sum := by
  induction F with
  | nil => exact Le.refl _
  | cons a v c r ih1 ih2 =>
    obtain ⟨h1, h2, h3⟩ := h
    have := (ih1 h2).trans h1
    have := ih2 h3
    obtain ⟨_, _, _⟩ := this
    simp only [Le, Forest.sum, add_changed, add_source, add_inc, zero] at *
    omega

theorem Super.le_sum {F : Forest α} (h : Super F) : ∀ x ∈ pre F, Le x.2 F.sum := by
  induction F with
  | nil => simp [pre]
  | cons a v c r ih1 ih2 =>
    obtain ⟨h1, h2, h3⟩ := h
    have hr := h3.nonneg
    have hc := h2.nonneg
    have hv : Le v (v + r.sum) := by
      simp only [Le, add_changed, add_source, add_inc, zero] at *
      omega
    have hv' : Le r.sum (v + r.sum) := by
      simp only [Le, add_changed, add_source, add_inc, zero] at *
      omega
    intro x hx
    simp only [pre, List.mem_cons, List.mem_append] at hx
    rcases hx with rfl | hx | hx
    · exact hv
    · exact (ih1 h2 x hx).trans (h1.trans hv)
    · exact (ih2 h3 x hx).trans hv'

theorem filter_post {F : Forest α} (h : Super F) (cut : Vals) : (post F).filter (fun x => x.2.ge cut) = post (prune cut F) := by
  induction F with
  | nil => rfl
  | cons a v c r ih1 ih2 =>
    obtain ⟨h1, h2, h3⟩ := h
    simp only [post, prune, List.filter_append, List.filter_cons]
    by_cases hg : v.ge cut = true
    · rw [if_pos hg, if_pos hg, ih1 h2, ih2 h3]; rfl
    · rw [if_neg hg, if_neg hg, ih2 h3]
      have : (post c).filter (fun x => x.2.ge cut) = [] := by
        rw [List.filter_eq_nil_iff]
        intro x hx hx'
        exact hg (((h2.le_sum x (mem_post.1 hx)).trans h1).ge hx')
      rw [this]; rfl

theorem mem_prune {F : Forest α} (h : Super F) (cut : Vals) (x : FS α) : x ∈ pre (prune cut F) ↔ x ∈ pre F ∧ x.2.ge cut = true := by
  rw [← mem_post, ← filter_post h, List.mem_filter, mem_post]

theorem prune_sub {F : Forest α} {cut : Vals} : ∀ x ∈ pre (prune cut F), x ∈ pre F := by
  induction F with
  | nil => simp [prune, pre]
  | cons a v c r ih1 ih2 =>
    intro x hx
    rw [prune] at hx
    split at hx
    · simp only [pre, List.mem_cons, List.mem_append] at hx ⊢
      rcases hx with hx | hx | hx
      · exact .inl hx
      · exact .inr (.inl (ih1 x hx))
      · exact .inr (.inr (ih2 x hx))
    · simp only [pre, List.mem_cons, List.mem_append]
      exact .inr (.inr (ih2 x hx))

theorem wf_prune {p : List α} {F : Forest α} {cut : Vals} (h : WF p F) : WF p (prune cut F) := by
  induction F generalizing p with
  | nil => trivial
  | cons a v c r ih1 ih2 =>
    obtain ⟨ha, hc, hr, hd⟩ := h
    rw [prune]
    split
    · exact ⟨ha, ih1 hc, ih2 hr, fun x hx => hd x (prune_sub x hx)⟩
    · exact ih2 hr

theorem super_prune {F : Forest α} {cut : Vals} (h : Super F) : Super (prune cut F) ∧ Le (prune cut F).sum F.sum := by
  induction F with
  | nil => exact ⟨trivial, Le.refl _⟩
  | cons a v c r ih1 ih2 =>
    obtain ⟨h1, h2, h3⟩ := h
    obtain ⟨i1, i2⟩ := ih1 h2
    obtain ⟨j1, j2⟩ := ih2 h3
    have hv := h2.nonneg.trans h1
    rw [prune]
    split
    · refine ⟨⟨i2.trans h1, i1, j1⟩, ?_⟩
      simp only [Le, Forest.sum, add_changed, add_source, add_inc] at *
      omega
    · refine ⟨j1, ?_⟩
      simp only [Le, Forest.sum, add_changed, add_source, add_inc, zero] at *
      omega

/-! ### totals -/

/-- the values of a list of files, summed up -/
def sumOf (l : List (FS α)) : Vals := l.foldr (fun x a => x.2 + a) zero

theorem sumOf_append (l l' : List (FS α)) : sumOf (l ++ l') = sumOf l + sumOf l' := by
  induction l with
  | nil => exact (vzero_add _).symm
  | cons x l ih => simp only [List.cons_append, sumOf, List.foldr_cons] at *; rw [ih, vadd_assoc]

theorem sum_tot (F : Forest α) : (tot F).sum = sumOf (pre F) := by
  induction F with
  | nil => rfl
  | cons a v c r ih1 ih2 =>
    simp only [tot, Forest.sum, pre, ih1, ih2]
    rw [show sumOf ((a, v) :: (pre c ++ pre r)) = v + sumOf (pre c ++ pre r) from rfl, sumOf_append, vadd_assoc]

theorem sumOf_nonneg {l : List (FS α)} (h : ∀ x ∈ l, Le zero x.2) : Le zero (sumOf l) := by
  induction l with
  | nil => exact Le.refl _
  | cons x l ih =>
    have h1 := h x (by simp)
    have h2 := ih fun y hy => h y (by simp [hy])
    simp only [sumOf, List.foldr_cons] at *
    simp only [Le, add_changed, add_source, add_inc, zero] at *
    omega

theorem super_tot {F : Forest α} (h : ∀ x ∈ pre F, Le zero x.2) : Super (tot F) := by
  induction F with
  | nil => trivial
  | cons a v c r ih1 ih2 =>
    have h0 := h (a, v) (by simp [pre])
    refine ⟨?_, ih1 fun x hx => h x (by simp [pre, hx]), ih2 fun x hx => h x (by simp [pre, hx])⟩
    simp only [Le, add_changed, add_source, add_inc, zero] at *
    omega

/-- what is at or below a directory -/
def below (l : List (FS α)) (d : List α) : List (FS α) := l.filter fun x => decide (d <+: x.1)

theorem below_append (l l' : List (FS α)) (d : List α) : below (l ++ l') d = below l d ++ below l' d := List.filter_append ..

theorem below_none {l : List (FS α)} {d : List α} (h : ∀ x ∈ l, ¬ d <+: x.1) : below l d = [] := by
  rw [below, List.filter_eq_nil_iff]
  intro x hx
  simpa using h x hx

theorem below_all {l : List (FS α)} {d : List α} (h : ∀ x ∈ l, d <+: x.1) : below l d = l := by
  rw [below, List.filter_eq_self]
  intro x hx
  simpa using h x hx

theorem prefix_concat_cons {p : List α} {n m : α} {l : List α} : p ++ [n] <+: p ++ m :: l ↔ n = m := by
  rw [List.prefix_append_right_inj]
  simp [List.cons_prefix_cons]

theorem pre_tot {p : List α} {F : Forest α} (h : WF p F) : pre (tot F) = (pre F).map fun x => (x.1, sumOf (below (pre F) x.1)) := by
  induction F generalizing p with
  | nil => rfl
  | cons a v c r ih1 ih2 =>
    obtain ⟨⟨n, rfl⟩, hc, hr, hd⟩ := h
    have hca : ∀ x ∈ pre c, p ++ [n] <+: x.1 := fun x hx => by
      obtain ⟨m, l, e⟩ := hc.below x hx
      rw [e]; exact List.prefix_append _ _
    simp only [tot, pre, List.map_cons, List.map_append, List.cons.injEq, Prod.mk.injEq, true_and]
    refine ⟨?_, ?_⟩
    · rw [sum_tot]
      have : below ((p ++ [n], v) :: (pre c ++ pre r)) (p ++ [n]) = (p ++ [n], v) :: pre c := by
        rw [← List.singleton_append, below_append, below_append, below_all hca, below_none hd]
        simp [below]
      rw [this]; rfl
    · rw [ih1 hc, ih2 hr]
      congr 1
      · refine List.map_congr_left fun x hx => ?_
        have h1 : below ((p ++ [n], v) :: (pre c ++ pre r)) x.1 = below (pre c) x.1 := by
          obtain ⟨m, l, e⟩ := hc.below x hx
          rw [← List.singleton_append, below_append, below_append, below_none (l := [(p ++ [n], v)]), below_none (l := pre r)]
          · simp
          · exact fun y hy hp => hd y hy ((hca x hx).trans hp)
          · simp only [List.mem_singleton]
            rintro y rfl hp
            have := hp.length_le
            rw [e] at this
            simp at this
        rw [h1]
      · refine List.map_congr_left fun x hx => ?_
        have h1 : below ((p ++ [n], v) :: (pre c ++ pre r)) x.1 = below (pre r) x.1 := by
          obtain ⟨m, l, e⟩ := hr.below x hx
          have hne : n ≠ m := fun hnm => hd x hx (by rw [e, prefix_concat_cons, hnm])
          rw [← List.singleton_append, below_append, below_append, below_none (l := [(p ++ [n], v)]), below_none (l := pre c)]
          · simp
          · intro y hy hp
            obtain ⟨m', l', e'⟩ := hc.below y hy
            rw [e, e', List.append_assoc, List.prefix_append_right_inj, List.singleton_append, List.cons_prefix_cons] at hp
            exact hne hp.1.symm
          · simp only [List.mem_singleton]
            rintro y rfl hp
            rw [e, List.prefix_append_right_inj, List.cons_prefix_cons] at hp
            exact hne hp.1.symm
        rw [h1]

end
end Verif.FStats
