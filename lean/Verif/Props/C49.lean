import Mathlib.Order.MinMax
import Mathlib.Data.List.Perm.Subperm
import Verif.Model.Calls
/-! # C49: nested remote calls return to their callers -/
namespace Verif.C49
open Verif.Calls
variable {V : Type} (F : Bool → Nat → List V → Prog V)

/-- What a program should return: calls are executed by the other side, as if they were local. -/
inductive Eval : Bool → Prog V → V → Prop
  | ret {x v} : Eval x (.ret v) v
  | call {x fn args k w v} : Eval (!x) (F (!x) fn args) w → Eval x (k w) v → Eval x (.call fn args k) v

/-- The same, with the depth of the nesting of calls. -/
inductive EvalD : Bool → Prog V → V → Nat → Prop
  | ret {x v} : EvalD x (.ret v) v 0
  | call {x fn args k w v d e} : EvalD (!x) (F (!x) fn args) w d → EvalD x (k w) v e → EvalD x (.call fn args k) v (max (d + 1) e)

/-- the number of calls which wait for their response -/
def waits : List (Frame V) → Nat
  | [] => 0
  | .waiting _ _ :: st => waits st + 1
  | .answering _ :: st => waits st

/-- an execution of `n` steps -/
inductive Run (p : Prog V) : Nat → Sys V → Prop
  | init : Run p 0 (.init p)
  | step {n g g'} : Run p n g → Step F g g' → Run p (n + 1) g'

/-! ### proof -/

/-- with a bound of the number of steps -/
inductive EvalN : Bool → Prog V → V → Nat → Nat → Prop
  | ret {x v} : EvalN x (.ret v) v 1 0
  | call {x fn args k w v d e n m} : EvalN (!x) (F (!x) fn args) w n d → EvalN x (k w) v m e →
      EvalN x (.call fn args k) v (n + m + 2 * args.length + 10) (max (d + 1) e)

theorem evalN_of {x : Bool} {p : Prog V} {v : V} {d : Nat} (h : EvalD F x p v d) : ∃ n, EvalN F x p v n d := by
  induction h with
  | ret => exact ⟨1, .ret⟩
  | call _ _ ih1 ih2 => obtain ⟨n, h1⟩ := ih1; obtain ⟨m, h2⟩ := ih2; exact ⟨_, .call h1 h2⟩

theorem eval_of {x : Bool} {p : Prog V} {v : V} {n d : Nat} (h : EvalN F x p v n d) : Eval F x p v := by
  induction h with
  | ret => exact .ret
  | call _ _ ih1 ih2 => exact .call ih1 ih2

theorem eval_det {x : Bool} {p : Prog V} {v v' : V} (h : Eval F x p v) (h' : Eval F x p v') : v = v' := by
  induction h generalizing v' with
  | ret => cases h'; rfl
  | call _ _ ih1 ih2 =>
    cases h' with
    | call h1 h2 => have := ih1 h1; subst this; exact ih2 h2

/-- a side which only has to write something has done so -/
def settle (s : Side V) : Side V :=
  match s.mode with
  | .sending _ none => { s with mode := .listening }
  | .sending _ (some r) => { s with mode := .listening, unused := add s.unused r }
  | _ => s

def pending (s : Side V) : List (Nat × Msg V) :=
  match s.mode with
  | .sending ms _ => ms
  | _ => []

def Sys.settle (g : Sys V) : Sys V := ⟨fun y => C49.settle (g.side y), fun y => g.queue y ++ pending (g.side (!y))⟩

/-- the calls which have been made and not been answered, the last one first; `x`: the side which is executing -/
def stk (x y : Bool) : List (Nat × (V → Prog V)) → List (Frame V)
  | [] => []
  | (r, k) :: os => if y = x then .answering r :: stk (!x) y os else .waiting r k :: stk (!x) y os

def free (os : List (Nat × (V → Prog V))) : Nat → Bool := fun r => decide (r < 256 ∧ r ∉ os.map (·.1))

/-- the side which executes, with so many calls outstanding -/
def active : List (Nat × (V → Prog V)) → Bool
  | [] => true
  | _ :: os => !active os

/-- what the whole returns, if the side `x` executes `p` -/
def Result (x : Bool) (p : Prog V) : List (Nat × (V → Prog V)) → V → Prop
  | [], v => Eval F x p v
  | (_, k) :: os, v => ∃ w, Eval F x p w ∧ Result (!x) (k w) os v

def ResultN (x : Bool) (p : Prog V) : List (Nat × (V → Prog V)) → V → Nat → Prop
  | [], v, n => ∃ d, EvalN F x p v n d ∧ d ≤ 256
  | (_, k) :: os, v, n => ∃ w n1 n2 d, EvalN F x p w n1 d ∧ d + (os.length + 1) ≤ 256 ∧ ResultN (!x) (k w) os v n2 ∧ n = n1 + n2 + 4

/-- if the whole terminates, then this does so within what is left -/
def Left (p0 : Prog V) (t : Nat) (x : Bool) (p : Prog V) (os : List (Nat × (V → Prog V))) : Prop :=
  ∀ v N d, EvalN F true p0 v N d → d ≤ 256 → ∃ n, ResultN F x p os v n ∧ t + n ≤ N

structure Nums (os : List (Nat × (V → Prog V))) : Prop where
  nodup : (os.map (·.1)).Nodup
  lt : ∀ o ∈ os, o.1 < 256

inductive Good (p0 : Prog V) (t : Nat) (g : Sys V) : Prop
  | run (os : List (Nat × (V → Prog V))) (p : Prog V) (hn : Nums os) (h1 : g.side (active os) = ⟨.run p, stk (active os) (active os) os, free os⟩)
      (h2 : g.side (!active os) = ⟨.listening, stk (active os) (!active os) os, free os⟩) (h3 : ∀ y, g.queue y = [])
      (hr : ∀ v, Result F (active os) p os v → Eval F true p0 v) (hb : Left F p0 t (active os) p os)
  | request (os : List (Nat × (V → Prog V))) (r : Nat) (k : V → Prog V) (fn : Nat) (args : List V) (hn : Nums ((r, k) :: os))
      (h1 : g.side (active os) = ⟨.listening, .waiting r k :: stk (active os) (active os) os, free ((r, k) :: os)⟩)
      (h2 : g.side (!active os) = ⟨.listening, stk (active os) (!active os) os, free os⟩)
      (h3 : g.queue (!active os) = (r, .req fn args.length) :: args.map fun a => (r, .val a)) (h4 : g.queue (active os) = [])
      (hr : ∀ v, Result F (!active os) (F (!active os) fn args) ((r, k) :: os) v → Eval F true p0 v)
      (hb : Left F p0 (t + args.length + 2) (!active os) (F (!active os) fn args) ((r, k) :: os))
  | collect (os : List (Nat × (V → Prog V))) (r : Nat) (k : V → Prog V) (fn : Nat) (got rest : List V) (hn : Nums ((r, k) :: os))
      (h1 : g.side (active os) = ⟨.listening, .waiting r k :: stk (active os) (active os) os, free ((r, k) :: os)⟩)
      (h2 : g.side (!active os) = ⟨.collecting r fn rest.length got, stk (active os) (!active os) os, free ((r, k) :: os)⟩)
      (h3 : g.queue (!active os) = rest.map fun a => (r, .val a)) (h4 : g.queue (active os) = [])
      (hr : ∀ v, Result F (!active os) (F (!active os) fn (got ++ rest)) ((r, k) :: os) v → Eval F true p0 v)
      (hb : Left F p0 (t + rest.length + 1) (!active os) (F (!active os) fn (got ++ rest)) ((r, k) :: os))
  | reply (os : List (Nat × (V → Prog V))) (r : Nat) (k : V → Prog V) (w : V) (hn : Nums ((r, k) :: os))
      (h1 : g.side (active os) = ⟨.listening, .waiting r k :: stk (active os) (active os) os, free ((r, k) :: os)⟩)
      (h2 : g.side (!active os) = ⟨.listening, stk (active os) (!active os) os, free os⟩)
      (h3 : g.queue (active os) = [(r, .val w)]) (h4 : g.queue (!active os) = [])
      (hr : ∀ v, Result F (active os) (k w) os v → Eval F true p0 v) (hb : Left F p0 (t + 1) (active os) (k w) os)
  | finished (v : V) (h1 : (g.side true).mode = .finished v) (h2 : (g.side false).mode = .listening) (h3 : ∀ y, g.queue y = []) (hr : Eval F true p0 v)
      (hb : ∀ v N d, EvalN F true p0 v N d → d ≤ 256 → t ≤ N)
  | exhausted (os : List (Nat × (V → Prog V))) (hn : Nums os) (hl : os.length = 256) (h1 : (g.side (active os)).mode = .exhausted)
      (h2 : (g.side (!active os)).mode = .listening) (h3 : ∀ y, g.queue y = []) (h4 : ∀ y, (g.side y).stack = stk (active os) y os)
      (hb : ∀ v N d, EvalN F true p0 v N d → d ≤ 256 → False)

/-- the steps which a side needs for what it has to write -/
def weight (s : Side V) : Nat :=
  match s.mode with
  | .sending ms _ => ms.length + 1
  | _ => 0

theorem lstep_append {fns : Nat → List V → Prog V} {s s' : Side V} {q q' sent : List (Nat × Msg V)} (h : LStep fns s q s' q' sent) (t : List (Nat × Msg V)) :
    LStep fns s (q ++ t) s' (q' ++ t) sent := by
  cases h
  case ret => exact .ret
  case finish => exact .finish
  case call r h => exact .call r h
  case exhausted h => exact .exhausted h
  case send => exact .send
  case sent => exact .sent
  case sentAdd => exact .sentAdd
  case response => exact .response
  case badResponse => exact .badResponse
  case request h hu => exact .request h hu
  case badRequest h hu => exact .badRequest h hu
  case notRequest h => exact .notRequest h
  case arg => exact .arg
  case badArg h => exact .badArg h
  case exec => exact .exec

def isSending (s : Side V) : Bool :=
  match s.mode with
  | .sending _ _ => true
  | _ => false

/-- a step of a side which has nothing to write, as seen after writing -/
def upd' (g : Sys V) (x : Bool) (s : Side V) (q : List (Nat × Msg V)) : Sys V :=
  ⟨fun y => if y = x then C49.settle s else g.side y, fun y => if y = x then q else g.queue y ++ pending s⟩

theorem free_take {r : Nat} {k : V → Prog V} {os : List (Nat × (V → Prog V))} : take (free os) r = free ((r, k) :: os) := by
  funext i
  simp only [take, free, List.map_cons, List.mem_cons]
  by_cases h : i = r <;> simp [h]

theorem free_add {r : Nat} {k : V → Prog V} {os : List (Nat × (V → Prog V))} (hn : Nums ((r, k) :: os)) :
    add (free ((r, k) :: os)) r = free os := by
  have h1 := hn.lt (r, k) (by simp)
  have h2 := hn.nodup
  simp only [List.map_cons, List.nodup_cons] at h2
  funext i
  simp only [add, free, List.map_cons, List.mem_cons]
  by_cases h : i = r
  · subst h; simp only [if_true]; symm; simp only [decide_eq_true_eq]; exact ⟨h1, h2.1⟩
  · simp [h]

theorem Nums.tail {o : Nat × (V → Prog V)} {os : List (Nat × (V → Prog V))} (h : Nums (o :: os)) : Nums os :=
  ⟨(List.nodup_cons.mp h.nodup).2, fun o' ho => h.lt o' (List.mem_cons_of_mem _ ho)⟩

theorem free_iff {os : List (Nat × (V → Prog V))} {r : Nat} : free os r = true ↔ r < 256 ∧ r ∉ os.map (·.1) := by simp [free]

theorem length_of_none_free {os : List (Nat × (V → Prog V))} (hn : Nums os) (h : ∀ r, free os r = false) : os.length = 256 := by
  have hsub : List.range 256 ⊆ os.map (·.1) := by
    intro r hr
    have := h r
    by_contra hc
    have h2 := (free_iff (os := os) (r := r)).mpr ⟨List.mem_range.mp hr, hc⟩
    rw [this] at h2; cases h2
  have hsup : os.map (·.1) ⊆ List.range 256 := by
    intro r hr
    obtain ⟨o, ho, rfl⟩ := List.mem_map.mp hr
    exact List.mem_range.mpr (hn.lt o ho)
  have h1 := (List.subperm_of_subset (List.nodup_range (n := 256)) hsub).length_le
  have h2 := (List.subperm_of_subset hn.nodup hsup).length_le
  simp only [List.length_range, List.length_map] at h1 h2
  omega

theorem desired_stk (x : Bool) (os : List (Nat × (V → Prog V))) : ∀ r, desired (stk x x os) ≠ some r := by
  intro r
  cases os with
  | nil => simp [stk, desired]
  | cons o os => obtain ⟨r', k⟩ := o; simp [stk, desired]

theorem desired_other (x : Bool) (os : List (Nat × (V → Prog V))) : ∀ r, desired (stk x (!x) os) = some r → r ∈ os.map (·.1) := by
  intro r
  cases os with
  | nil => simp [stk, desired]
  | cons o os => obtain ⟨r', k⟩ := o; cases x <;> (simp [stk, desired]; intro h; exact .inl h.symm)

theorem stk_cons_self {x : Bool} {r : Nat} {k : V → Prog V} {os : List (Nat × (V → Prog V))} :
    stk (!x) (!x) ((r, k) :: os) = .answering r :: stk x (!x) os := by cases x <;> simp [stk]

theorem stk_cons_other {x : Bool} {r : Nat} {k : V → Prog V} {os : List (Nat × (V → Prog V))} :
    stk (!x) x ((r, k) :: os) = .waiting r k :: stk x x os := by cases x <;> simp [stk]

theorem good_step {p0 : Prog V} {t : Nat} {g : Sys V} (hg : Good F p0 t g) {x : Bool} {s : Side V} {q : List (Nat × Msg V)}
    (h : LStep (F x) (g.side x) (g.queue x) s q []) (hx : isSending (g.side x) = false) : Good F p0 (t + 1 + weight s) (upd' g x s q) := by
  cases hg with
  | run os p hn h1 h2 h3 hr hb =>
    by_cases hxa : x = active os
    · subst hxa
      rw [h1, h3] at h
      have hne : (!active os) ≠ active os := by cases active os <;> simp
      cases p with
      | ret v =>
        cases os with
        | nil =>
          simp only [stk] at h
          cases h
          refine .finished v (by simp [upd', active, settle]) ?_ ?_ (hr v .ret) ?hb
          · have : (g.side false) = _ := h2
            simp [upd', active, this]
          · intro y; simp [upd', pending, h3]
          case hb =>
            intro v' N d hv hd
            obtain ⟨n, ⟨d', hn1, _⟩, hn2⟩ := hb v' N d hv hd
            cases hn1
            simpa [weight] using hn2
        | cons o os =>
          obtain ⟨r, k⟩ := o
          simp only [active] at *
          rw [stk_cons_self] at h
          cases h
          rw [Bool.not_not, stk_cons_other] at h2
          refine .reply os r k v hn ?_ ?_ ?_ ?_ ?_ ?hb
          · simp [upd', h2]
          · simp [upd', settle, free_add hn]
          · simp [upd', pending, h3]
          · simp [upd']
          · intro v' hv'
            refine hr v' ⟨v, .ret, ?_⟩
            simpa using hv'
          case hb =>
            intro v' N d hv hd
            obtain ⟨n, ⟨w, n1, n2, d', hw, hd', hr2, rfl⟩, hn2⟩ := hb v' N d hv hd
            cases hw
            rw [Bool.not_not] at hr2
            refine ⟨n2, hr2, ?_⟩
            simp only [weight, List.length_singleton]; omega
      | call fn args k =>
        cases h with
        | call r hu =>
          obtain ⟨hu1, hu2⟩ := free_iff.mp hu
          refine .request os r k fn args ⟨List.nodup_cons.mpr ⟨hu2, hn.nodup⟩, ?_⟩ ?_ ?_ ?_ ?_ ?_ ?hb
          · intro o ho
            rcases List.mem_cons.mp ho with rfl | ho
            · exact hu1
            · exact hn.lt o ho
          · simp [upd', settle, free_take (k := k)]
          · simp [upd', h2]
          · simp [upd', pending, h3]
          · simp [upd']
          · intro v ⟨w, hw, hv⟩
            refine hr v ?_
            rw [Bool.not_not] at hv
            revert hv
            cases os with
            | nil => exact fun hv => Eval.call hw hv
            | cons o os => exact fun ⟨w', hw', hv'⟩ => ⟨w', Eval.call hw hw', hv'⟩
          case hb =>
            intro v N d hv hd
            obtain ⟨n, hn1, hn2⟩ := hb v N d hv hd
            simp only [weight, List.length_cons, List.length_map]
            cases os with
            | nil =>
              obtain ⟨d', he, hd'⟩ := hn1
              cases he with
              | call he1 he2 =>
                rename_i w d e n m
                refine ⟨n + m + 4, ⟨w, n, m, d, he1, ?_, ⟨e, ?_, ?_⟩, rfl⟩, ?_⟩
                · simp only [List.length_nil]; omega
                · rw [Bool.not_not]; exact he2
                · omega
                · omega
            | cons o os =>
              obtain ⟨w', n1, n2, d', he, hd', hr2, rfl⟩ := hn1
              cases he with
              | call he1 he2 =>
                rename_i w d e n m
                refine ⟨n + (m + n2 + 4) + 4, ⟨w, n, m + n2 + 4, d, he1, ?_, ⟨w', m, n2, e, ?_, ?_, ?_, rfl⟩, rfl⟩, ?_⟩
                · simp only [List.length_cons]; omega
                · rw [Bool.not_not]; exact he2
                · omega
                · rw [Bool.not_not]; exact hr2
                · omega
        | exhausted hu =>
          refine .exhausted os hn (length_of_none_free hn hu) (by simp [upd', settle]) (by simp [upd', h2]) ?_ ?_ ?_
          · intro y; simp [upd', pending, h3]
          · intro y
            by_cases hy : y = active os
            · simp [upd', hy, settle]
            · have : y = !active os := by cases y <;> cases ha : active os <;> simp_all
              simp [upd', this, h2]
          · intro v N d hv hd
            obtain ⟨n, hn1, hn2⟩ := hb v N d hv hd
            have hl := length_of_none_free hn hu
            cases os with
            | nil => simp at hl
            | cons o os =>
              obtain ⟨w', n1, n2, d', he, hd', hr2, rfl⟩ := hn1
              simp only [List.length_cons] at hl
              cases he; omega
    · have hxe : x = !active os := by cases x <;> cases ha : active os <;> simp_all
      subst hxe
      rw [h2, h3] at h
      generalize stk (active os) (!active os) os = st at h
      cases h
  | request os r k fn args hn h1 h2 h3 h4 hr hb =>
    by_cases hxa : x = active os
    · subst hxa; rw [h1, h4] at h; cases h
    · have hxe : x = !active os := by cases x <;> cases ha : active os <;> simp_all
      subst hxe
      have hne : ¬ (active os = !active os) := by cases active os <;> simp
      have hfree : free os r = true := by
        refine free_iff.mpr ⟨hn.lt (r, k) (by simp), ?_⟩
        have := hn.nodup; simp only [List.map_cons, List.nodup_cons] at this; exact this.1
      have hd : desired (stk (active os) (!active os) os) ≠ some r := fun hd => by
        have := desired_other _ _ _ hd
        exact (free_iff.mp hfree).2 this
      rw [h2, h3] at h
      generalize hst : stk (active os) (!active os) os = st at *
      generalize hms : (args.map fun a => ((r, .val a) : Nat × Msg V)) = ms at *
      generalize hfr : free os = fr at *
      generalize hln : args.length = n at *
      cases h with
      | badResponse => exact absurd rfl hd
      | request h hu =>
        subst hfr; subst hst; subst hms; subst hln
        refine .collect os r k fn [] args hn ?_ ?_ ?_ ?_ ?_ ?hb
        · simp [upd', hne, h1]
        · simp [upd', settle, free_take (k := k)]
        · simp [upd']
        · simp [upd', hne, h4, pending]
        · simpa using hr
        case hb =>
          intro v N d hv hd
          obtain ⟨n, hn1, hn2⟩ := hb v N d hv hd
          exact ⟨n, hn1, by simp only [weight]; omega⟩
      | badRequest h hu => rw [hfree] at hu; cases hu
  | collect os r k fn got rest hn h1 h2 h3 h4 hr hb =>
    by_cases hxa : x = active os
    · subst hxa; rw [h1, h4] at h; cases h
    · have hxe : x = !active os := by cases x <;> cases ha : active os <;> simp_all
      subst hxe
      have hne : ¬ (active os = !active os) := by cases active os <;> simp
      rw [h2, h3] at h
      cases rest with
      | nil =>
        simp only [List.length_nil, List.map_nil] at h
        cases h
        refine .run ((r, k) :: os) (F (!active os) fn got) hn ?_ ?_ ?_ ?_ ?hb
        · show (upd' g _ _ _).side (!active os) = ⟨_, stk (!active os) (!active os) ((r, k) :: os), _⟩
          rw [stk_cons_self]; simp [upd', settle]
        · show (upd' g _ _ _).side (!!active os) = ⟨_, stk (!active os) (!!active os) ((r, k) :: os), _⟩
          rw [Bool.not_not, stk_cons_other]; simp [upd', hne, h1]
        · intro y
          by_cases hy : y = !active os
          · simp [upd', hy]
          · have : y = active os := by cases y <;> cases ha : active os <;> simp_all
            simp [upd', this, hne, h4, pending]
        · simpa [active] using hr
        case hb =>
          intro v N d hv hd
          obtain ⟨n, hn1, hn2⟩ := hb v N d hv hd
          rw [List.append_nil] at hn1
          exact ⟨n, hn1, by simp only [weight, List.length_nil] at hn2 ⊢; omega⟩
      | cons a rest =>
        simp only [List.length_cons, List.map_cons] at h
        generalize hst : stk (active os) (!active os) os = st at *
        generalize hms : (rest.map fun a => ((r, .val a) : Nat × Msg V)) = ms at *
        generalize hfr : free ((r, k) :: os) = fr at *
        generalize hln : rest.length = n at *
        cases h with
        | arg =>
          subst hfr; subst hst; subst hms; subst hln
          refine .collect os r k fn (got ++ [a]) rest hn ?_ ?_ ?_ ?_ ?_ ?hb
          · simp [upd', hne, h1]
          · simp [upd', settle]
          · simp [upd']
          · simp [upd', hne, h4, pending]
          · simpa using hr
          case hb =>
            intro v N d hv hd
            obtain ⟨n, hn1, hn2⟩ := hb v N d hv hd
            refine ⟨n, by rw [List.append_assoc]; exact hn1, by simp only [weight, List.length_cons] at hn2 ⊢; omega⟩
        | badArg h =>
          rcases h with h | ⟨_, _, h⟩
          · exact absurd rfl h
          · cases h
  | reply os r k w hn h1 h2 h3 h4 hr hb =>
    by_cases hxa : x = active os
    · subst hxa
      rw [h1, h3] at h
      have hne : ¬ ((!active os) = active os) := by cases active os <;> simp
      generalize hst : stk (active os) (active os) os = st at *
      generalize hfr : free ((r, k) :: os) = fr at *
      cases h with
      | response =>
        subst hfr; subst hst
        refine .run os (k w) hn.tail ?_ ?_ ?_ hr ?hb
        · simp [upd', settle, free_add hn]
        · simp [upd', h2]
        · intro y
          by_cases hy : y = active os
          · simp [upd', hy]
          · have : y = !active os := by cases y <;> cases ha : active os <;> simp_all
            simp [upd', this, h4, pending]
        case hb =>
          intro v N d hv hd
          obtain ⟨n, hn1, hn2⟩ := hb v N d hv hd
          exact ⟨n, hn1, by simp only [weight]; omega⟩
      | notRequest h => exact absurd rfl h
    · have hxe : x = !active os := by cases x <;> cases ha : active os <;> simp_all
      subst hxe
      rw [h2, h4] at h
      generalize stk (active os) (!active os) os = st at h
      cases h
  | finished v h1 h2 h3 hr hb =>
    exfalso
    rw [h3] at h
    cases x
    · generalize g.side false = s0 at *
      cases h <;> simp at h2
    · generalize g.side true = s0 at *
      cases h <;> simp at h1
  | exhausted os hn hl h1 h2 h3 h4 hb =>
    exfalso
    rw [h3] at h
    by_cases hxa : x = active os
    · subst hxa
      generalize g.side (active os) = s0 at *
      cases h <;> simp at h1
    · have hxe : x = !active os := by cases x <;> cases ha : active os <;> simp_all
      subst hxe
      generalize g.side (!active os) = s0 at *
      cases h <;> simp at h2

theorem settle_of_not {s : Side V} (h : isSending s = false) : C49.settle s = s ∧ pending s = [] := by
  obtain ⟨m, st, un⟩ := s
  cases m <;> simp_all [isSending, settle, pending]

theorem good_init (p0 : Prog V) : Good F p0 0 (Sys.settle (.init p0)) := by
  have hf : free ([] : List (Nat × (V → Prog V))) = allUnused := by funext i; simp [free, allUnused]
  refine .run [] p0 ⟨by simp, by simp⟩ ?_ ?_ ?_ (fun v h => h) (fun v N d h hd => ⟨N, ⟨d, h, hd⟩, by omega⟩)
  · simp [Sys.settle, settle, Sys.init, active, stk, hf]
  · simp [Sys.settle, settle, Sys.init, active, stk, hf]
  · intro y; cases y <;> simp [Sys.settle, pending, Sys.init]

theorem sent_nil {fns : Nat → List V → Prog V} {s s' : Side V} {q q' sent : List (Nat × Msg V)} (h : LStep fns s q s' q' sent)
    (hs : isSending s = false) : sent = [] := by
  cases h <;> simp [isSending] at hs ⊢

theorem sending_step {fns : Nat → List V → Prog V} {s s' : Side V} {q q' sent : List (Nat × Msg V)} (h : LStep fns s q s' q' sent)
    (hs : isSending s = true) : C49.settle s' = C49.settle s ∧ sent ++ pending s' = pending s ∧ q' = q := by
  cases h <;> simp [isSending] at hs <;> simp only [settle, pending] <;> try simp
  case send => rename_i a _ _; cases a <;> rfl

theorem sending_weight {fns : Nat → List V → Prog V} {s s' : Side V} {q q' sent : List (Nat × Msg V)} (h : LStep fns s q s' q' sent)
    (hs : isSending s = true) : weight s' + 1 = weight s := by
  cases h <;> simp [isSending] at hs <;> simp [weight]

theorem weight_of_not {s : Side V} (hs : isSending s = false) : weight s = 0 := by
  obtain ⟨m, st, un⟩ := s
  cases m <;> simp_all [isSending, weight]

def total (n : Nat) (g : Sys V) : Nat := n + weight (g.side true) + weight (g.side false)

theorem good_run {p0 : Prog V} {n : Nat} {g : Sys V} (h : Run F p0 n g) : Good F p0 (total n g) (Sys.settle g) := by
  induction h with
  | init => exact good_init F p0
  | @step n g g' hr hs ih =>
    obtain ⟨x, h⟩ := hs
    rename_i s q sent
    by_cases hx : isSending (g.side x) = true
    · obtain ⟨h1, h2, h3⟩ := sending_step h hx
      have hw := sending_weight h hx
      have : Sys.settle (g.upd x s q sent) = Sys.settle g := by
        simp only [Sys.settle, Sys.upd, Sys.mk.injEq]
        constructor
        · funext y; by_cases hy : y = x
          · subst hy; simp [h1]
          · simp [hy]
        · funext y; by_cases hy : y = x
          · subst hy; simp [h3]
          · have : (!y) = x := by cases x <;> cases y <;> simp_all
            simp [hy, this, ← h2]
      have ht : total (n + 1) (g.upd x s q sent) = total n g := by
        cases x <;> simp [total, Sys.upd] <;> omega
      rw [this, ht]; exact ih
    · have hx : isSending (g.side x) = false := by simpa using hx
      obtain ⟨h1, h2⟩ := settle_of_not hx
      have hsn := sent_nil h hx
      subst hsn
      have hl : LStep (F x) ((Sys.settle g).side x) ((Sys.settle g).queue x) s (q ++ pending (g.side (!x))) [] := by
        simp only [Sys.settle, h1]
        exact lstep_append h _
      have hg := good_step F ih hl (by simp only [Sys.settle, h1]; exact hx)
      have : Sys.settle (g.upd x s q []) = upd' (Sys.settle g) x s (q ++ pending (g.side (!x))) := by
        simp only [Sys.settle, Sys.upd, upd', Sys.mk.injEq]
        constructor
        · funext y; by_cases hy : y = x
          · subst hy; simp
          · simp [hy]
        · funext y; by_cases hy : y = x
          · subst hy; simp
          · have : (!y) = x := by cases x <;> cases y <;> simp_all
            simp [hy, this, h2]
      have ht : total (n + 1) (g.upd x s q []) = total n g + 1 + weight s := by
        have := weight_of_not hx
        cases x <;> simp [total, Sys.upd] <;> omega
      rw [this, ht]; exact hg

theorem run_of_reach {p0 : Prog V} {g : Sys V} (h : Reach F p0 g) : ∃ n, Run F p0 n g := by
  induction h with
  | init => exact ⟨0, .init⟩
  | step _ hs ih => obtain ⟨n, hn⟩ := ih; exact ⟨n + 1, .step hn hs⟩

theorem good_reach {p0 : Prog V} {g : Sys V} (h : Reach F p0 g) : ∃ t, Good F p0 t (Sys.settle g) := by
  obtain ⟨n, hn⟩ := run_of_reach F h
  exact ⟨_, good_run F hn⟩

/-- what the modes after writing say about the modes -/
theorem mode_of_settle {s : Side V} {m : Mode V} (h : (C49.settle s).mode = m) : s.mode = m ∨ (m = .listening ∧ isSending s = true) := by
  obtain ⟨m', st, un⟩ := s
  cases m' with
  | sending ms a => cases a <;> (simp only [settle] at h; exact .inr ⟨h.symm, rfl⟩)
  | _ => exact .inl h

theorem settle_failed {s : Side V} (h : s.mode = .failed) : (C49.settle s).mode = .failed := by
  obtain ⟨m', st, un⟩ := s; simp only at h; subst h; rfl

theorem settle_exhausted {s : Side V} (h : s.mode = .exhausted) : (C49.settle s).mode = .exhausted := by
  obtain ⟨m', st, un⟩ := s; simp only at h; subst h; rfl

theorem settle_finished {s : Side V} {v : V} (h : s.mode = .finished v) : (C49.settle s).mode = .finished v := by
  obtain ⟨m', st, un⟩ := s; simp only at h; subst h; rfl

theorem settle_stack (s : Side V) : (C49.settle s).stack = s.stack := by
  obtain ⟨m', st, un⟩ := s
  cases m' with
  | sending ms a => cases a <;> rfl
  | _ => rfl

theorem waits_stk (os : List (Nat × (V → Prog V))) : ∀ x, waits (stk x true os) + waits (stk x false os) = os.length := by
  induction os with
  | nil => intro x; simp [stk, waits]
  | cons o os ih =>
    intro x
    obtain ⟨r, k⟩ := o
    have := ih (!x)
    cases x <;> simp [stk, waits] at this ⊢ <;> omega

/-- either side of a good state, in terms of the phase -/
theorem modes {p0 : Prog V} {t : Nat} {g : Sys V} (h : Good F p0 t g) (x : Bool) :
    (∃ p, (g.side x).mode = .run p) ∨ (g.side x).mode = .listening ∨ (∃ r fn n args, (g.side x).mode = .collecting r fn n args) ∨
      (∃ v, x = true ∧ (g.side x).mode = .finished v ∧ Eval F true p0 v) ∨
      ((g.side x).mode = .exhausted ∧ waits (g.side true).stack + waits (g.side false).stack = 256) := by
  cases h with
  | run os p hn h1 h2 h3 hr hb =>
    by_cases hx : x = active os
    · subst hx; rw [h1]; exact .inl ⟨_, rfl⟩
    · have : x = !active os := by cases x <;> cases ha : active os <;> simp_all
      subst this; rw [h2]; exact .inr (.inl rfl)
  | request os r k fn args hn h1 h2 h3 h4 hr hb =>
    by_cases hx : x = active os
    · subst hx; rw [h1]; exact .inr (.inl rfl)
    · have : x = !active os := by cases x <;> cases ha : active os <;> simp_all
      subst this; rw [h2]; exact .inr (.inl rfl)
  | collect os r k fn got rest hn h1 h2 h3 h4 hr hb =>
    by_cases hx : x = active os
    · subst hx; rw [h1]; exact .inr (.inl rfl)
    · have : x = !active os := by cases x <;> cases ha : active os <;> simp_all
      subst this; rw [h2]; exact .inr (.inr (.inl ⟨_, _, _, _, rfl⟩))
  | reply os r k w hn h1 h2 h3 h4 hr hb =>
    by_cases hx : x = active os
    · subst hx; rw [h1]; exact .inr (.inl rfl)
    · have : x = !active os := by cases x <;> cases ha : active os <;> simp_all
      subst this; rw [h2]; exact .inr (.inl rfl)
  | finished v h1 h2 h3 hr hb =>
    cases x
    · rw [h2]; exact .inr (.inl rfl)
    · rw [h1]; exact .inr (.inr (.inr (.inl ⟨v, rfl, rfl, hr⟩)))
  | exhausted os hn hl h1 h2 h3 h4 hb =>
    by_cases hx : x = active os
    · subst hx; rw [h1, h4, h4, waits_stk]; exact .inr (.inr (.inr (.inr ⟨rfl, hl⟩)))
    · have : x = !active os := by cases x <;> cases ha : active os <;> simp_all
      subst this; rw [h2]; exact .inr (.inl rfl)

/-- a side can do something -/
theorem can_send {fns : Nat → List V → Prog V} {s : Side V} {q : List (Nat × Msg V)} (h : isSending s = true) : ∃ s' q' sent, LStep fns s q s' q' sent := by
  obtain ⟨m, st, un⟩ := s
  cases m with
  | sending ms a =>
    cases ms with
    | nil => cases a with
      | none => exact ⟨_, _, _, .sent⟩
      | some r => exact ⟨_, _, _, .sentAdd⟩
    | cons m ms => exact ⟨_, _, _, .send⟩
  | _ => simp [isSending] at h

theorem can_run {fns : Nat → List V → Prog V} {s : Side V} {p : Prog V} {q : List (Nat × Msg V)} (h : s.mode = .run p)
    (hs : ∀ r k st, s.stack = .waiting r k :: st → ∃ fn args k', p = .call fn args k') : ∃ s' q' sent, LStep fns s q s' q' sent := by
  obtain ⟨m, st, un⟩ := s
  simp only at h hs; subst h
  cases p with
  | ret v =>
    cases st with
    | nil => exact ⟨_, _, _, .finish⟩
    | cons f st =>
      cases f with
      | waiting r k => obtain ⟨_, _, _, h⟩ := hs r k st rfl; cases h
      | answering r => exact ⟨_, _, _, .ret⟩
  | call fn args k =>
    by_cases hu : ∃ r, un r = true
    · obtain ⟨r, hr⟩ := hu; exact ⟨_, _, _, .call r hr⟩
    · refine ⟨_, _, _, .exhausted fun r => ?_⟩
      by_contra hc; exact hu ⟨r, by simpa using hc⟩

theorem can_listen {fns : Nat → List V → Prog V} {s : Side V} {m : Nat × Msg V} {q : List (Nat × Msg V)} (h : s.mode = .listening) :
    ∃ s' q' sent, LStep fns s (m :: q) s' q' sent := by
  obtain ⟨mo, st, un⟩ := s
  simp only at h; subst h
  obtain ⟨r, m⟩ := m
  by_cases hd : desired st = some r
  · match st, hd with
    | .waiting r' k :: st, hd =>
      simp only [desired, Option.some.injEq] at hd; subst hd
      cases m with
      | req fn n => exact ⟨_, _, _, .badResponse⟩
      | val v => exact ⟨_, _, _, .response⟩
  · cases m with
    | req fn n =>
      cases hu : un r with
      | true => exact ⟨_, _, _, .request hd hu⟩
      | false => exact ⟨_, _, _, .badRequest hd hu⟩
    | val v => exact ⟨_, _, _, .notRequest hd⟩

theorem can_collect {fns : Nat → List V → Prog V} {s : Side V} {r fn n : Nat} {args : List V} {q : List (Nat × Msg V)} (h : s.mode = .collecting r fn n args)
    (hq : n ≠ 0 → q ≠ []) : ∃ s' q' sent, LStep fns s q s' q' sent := by
  obtain ⟨mo, st, un⟩ := s
  simp only at h; subst h
  cases n with
  | zero => exact ⟨_, _, _, .exec⟩
  | succ n =>
    cases q with
    | nil => exact absurd rfl (hq (by simp))
    | cons m q =>
      obtain ⟨r', m⟩ := m
      by_cases hr : r' = r
      · subst hr
        cases m with
        | req fn' n' => exact ⟨_, _, _, .badArg (.inr ⟨_, _, rfl⟩)⟩
        | val v => exact ⟨_, _, _, .arg⟩
      · exact ⟨_, _, _, .badArg (.inl hr)⟩

/-! ### the property -/

/-- No request is ever taken for a response, an argument or the like: neither side meets a message it doesn't expect. -/
theorem never_fails {p : Prog V} {g : Sys V} (h : Reach F p g) (x : Bool) : (g.side x).mode ≠ .failed := by
  intro hf
  obtain ⟨t, hg⟩ := good_reach F h
  have := settle_failed hf
  have hm := modes F hg x
  simp only [Sys.settle] at hm
  rw [this] at hm
  rcases hm with ⟨_, h⟩ | h | ⟨_, _, _, _, h⟩ | ⟨_, _, h, _⟩ | ⟨h, _⟩ <;> cases h

/-- The numbers are exhausted only if 256 calls are waiting for their results. -/
theorem exhausted_only_at_256 {p : Prog V} {g : Sys V} (h : Reach F p g) (x : Bool) (hx : (g.side x).mode = .exhausted) :
    waits (g.side true).stack + waits (g.side false).stack = 256 := by
  obtain ⟨t, hg⟩ := good_reach F h
  have := settle_exhausted hx
  have hm := modes F hg x
  simp only [Sys.settle] at hm
  rw [this] at hm
  simp only [settle_stack] at hm
  rcases hm with ⟨_, h⟩ | h | ⟨_, _, _, _, h⟩ | ⟨_, _, h, _⟩ | ⟨_, h⟩
  · cases h
  · cases h
  · cases h
  · cases h
  · exact h

/-- What the client's program returns is what it returns if the calls are local. -/
theorem right_result {p : Prog V} {g : Sys V} (h : Reach F p g) (x : Bool) (v : V) (hx : (g.side x).mode = .finished v) : x = true ∧ Eval F true p v := by
  obtain ⟨t, hg⟩ := good_reach F h
  have := settle_finished hx
  have hm := modes F hg x
  simp only [Sys.settle] at hm
  rw [this] at hm
  rcases hm with ⟨_, h⟩ | h | ⟨_, _, _, _, h⟩ | ⟨_, h1, h, h2⟩ | ⟨h, _⟩
  · cases h
  · cases h
  · cases h
  · cases h; exact ⟨h1, h2⟩
  · cases h

/-- The sides never wait for each other. -/
theorem no_deadlock {p : Prog V} {g : Sys V} (h : Reach F p g) :
    (∃ v, (g.side true).mode = .finished v) ∨ (∃ x, (g.side x).mode = .exhausted) ∨ ∃ g', Step F g g' := by
  by_cases hs : ∃ x, isSending (g.side x) = true
  · obtain ⟨x, hx⟩ := hs
    obtain ⟨s', q', sent, hl⟩ := can_send (fns := F x) (q := g.queue x) hx
    exact .inr (.inr ⟨_, .mk x hl⟩)
  · have hs : ∀ x, isSending (g.side x) = false := by
      intro x; by_contra hc; exact hs ⟨x, by simpa using hc⟩
    have hse : Sys.settle g = g := by
      obtain ⟨s, q⟩ := g
      simp only [Sys.settle, Sys.mk.injEq]
      constructor
      · funext y; exact (settle_of_not (hs y)).1
      · funext y; simp [(settle_of_not (hs (!y))).2]
    obtain ⟨t, hg⟩ := good_reach F h
    rw [hse] at hg
    have step {x : Bool} (h : ∃ s' q' sent, LStep (F x) (g.side x) (g.queue x) s' q' sent) : ∃ g', Step F g g' := by
      obtain ⟨s', q', sent, hl⟩ := h
      exact ⟨_, .mk x hl⟩
    cases hg with
    | run os p hn h1 h2 h3 hr hb =>
      refine .inr (.inr (step (x := active os) (can_run (p := p) (by rw [h1]) ?_)))
      intro r k st hst
      rw [h1] at hst
      cases os with
      | nil => simp [stk] at hst
      | cons o os => obtain ⟨r', k'⟩ := o; simp [stk] at hst
    | request os r k fn args hn h1 h2 h3 h4 hr hb =>
      refine .inr (.inr (step (x := !active os) ?_))
      rw [h3]; exact can_listen (by rw [h2])
    | collect os r k fn got rest hn h1 h2 h3 h4 hr hb =>
      refine .inr (.inr (step (x := !active os) (can_collect (by rw [h2]) ?_)))
      rw [h3]; intro hl; cases rest <;> simp at hl ⊢
    | reply os r k w hn h1 h2 h3 h4 hr hb =>
      refine .inr (.inr (step (x := active os) ?_))
      rw [h3]; exact can_listen (by rw [h1])
    | finished v h1 h2 h3 hr hb => exact .inl ⟨v, h1⟩
    | exhausted os hn hl h1 h2 h3 h4 hb => exact .inr (.inl ⟨_, h1⟩)

/-- If a program with local calls returns `v` and nests at most 256 of them, then with remote calls, whatever the order in which the sides
proceed and whatever numbers they choose, it ends after a bounded number of steps, and when nothing is left to do it has returned `v`. -/
theorem terminates {p : Prog V} {v : V} {d : Nat} (he : EvalD F true p v d) (hd : d ≤ 256) :
    ∃ N, (∀ n g, Run F p n g → n ≤ N) ∧ ∀ g, Reach F p g → (∀ g', ¬ Step F g g') → (g.side true).mode = .finished v := by
  obtain ⟨N, hN⟩ := evalN_of F he
  refine ⟨N, ?_, ?_⟩
  · intro n g hr
    have hg := good_run F hr
    have hle : n ≤ total n g := by simp only [total]; omega
    cases hg with
    | run os p hn h1 h2 h3 hr hb => obtain ⟨m, _, hm⟩ := hb _ _ _ hN hd; omega
    | request os r k fn args hn h1 h2 h3 h4 hr hb => obtain ⟨m, _, hm⟩ := hb _ _ _ hN hd; omega
    | collect os r k fn got rest hn h1 h2 h3 h4 hr hb => obtain ⟨m, _, hm⟩ := hb _ _ _ hN hd; omega
    | reply os r k w hn h1 h2 h3 h4 hr hb => obtain ⟨m, _, hm⟩ := hb _ _ _ hN hd; omega
    | finished v h1 h2 h3 hr hb => have := hb _ _ _ hN hd; omega
    | exhausted os hn hl h1 h2 h3 h4 hb => exact (hb _ _ _ hN hd).elim
  · intro g hr hstuck
    rcases no_deadlock F hr with ⟨v', hv⟩ | ⟨x, hx⟩ | ⟨g', hg'⟩
    · have := (right_result F hr true v' hv).2
      rw [hv, eval_det F this (eval_of F hN)]
    · exfalso
      obtain ⟨t, hg⟩ := good_reach F hr
      have hx' : ((Sys.settle g).side x).mode = .exhausted := settle_exhausted hx
      cases hg with
      | exhausted os hn hl h1 h2 h3 h4 hb => exact hb _ _ _ hN hd
      | run os p hn h1 h2 h3 hr hb =>
        by_cases hxa : x = active os
        · subst hxa; rw [h1] at hx'; cases hx'
        · have : x = !active os := by cases x <;> cases ha : active os <;> simp_all
          subst this; rw [h2] at hx'; cases hx'
      | request os r k fn args hn h1 h2 h3 h4 hr hb =>
        by_cases hxa : x = active os
        · subst hxa; rw [h1] at hx'; cases hx'
        · have : x = !active os := by cases x <;> cases ha : active os <;> simp_all
          subst this; rw [h2] at hx'; cases hx'
      | collect os r k fn got rest hn h1 h2 h3 h4 hr hb =>
        by_cases hxa : x = active os
        · subst hxa; rw [h1] at hx'; cases hx'
        · have : x = !active os := by cases x <;> cases ha : active os <;> simp_all
          subst this; rw [h2] at hx'; cases hx'
      | reply os r k w hn h1 h2 h3 h4 hr hb =>
        by_cases hxa : x = active os
        · subst hxa; rw [h1] at hx'; cases hx'
        · have : x = !active os := by cases x <;> cases ha : active os <;> simp_all
          subst this; rw [h2] at hx'; cases hx'
      | finished v h1 h2 h3 hr hb =>
        cases x
        · rw [h2] at hx'; cases hx'
        · rw [h1] at hx'; cases hx'
    · exact absurd hg' (hstuck g')

theorem reach_of_run {p0 : Prog V} {n : Nat} {g : Sys V} (h : Run F p0 n g) : Reach F p0 g := by
  induction h with
  | init => exact .init
  | step _ hs ih => exact .step ih hs

/-- And such an end exists. -/
theorem returns {p : Prog V} {v : V} {d : Nat} (he : EvalD F true p v d) (hd : d ≤ 256) : ∃ g, Reach F p g ∧ (g.side true).mode = .finished v := by
  obtain ⟨N, hN, hf⟩ := terminates F he hd
  have key : ∀ m n g, Run F p n g → N - n ≤ m → ∃ g, Reach F p g ∧ (g.side true).mode = .finished v := by
    intro m
    induction m with
    | zero =>
      intro n g hr hm
      refine ⟨g, reach_of_run F hr, hf g (reach_of_run F hr) fun g' hs => ?_⟩
      have := hN (n + 1) g' (.step hr hs)
      omega
    | succ m ih =>
      intro n g hr hm
      by_cases hs : ∃ g', Step F g g'
      · obtain ⟨g', hs⟩ := hs
        exact ih (n + 1) g' (.step hr hs) (by omega)
      · exact ⟨g, reach_of_run F hr, hf g (reach_of_run F hr) fun g' h => hs ⟨g', h⟩⟩
  exact key N 0 _ .init (by omega)

/-! ### examples -/

/-- A server function which calls the client twice, the second time with the result of the first, and a client function which calls the server. -/
def exF : Bool → Nat → List Nat → Prog Nat
  | false, 0, args => .call 0 args fun w => .call 1 [w, 7] fun w' => .ret (w * 100 + w')
  | false, 1, args => .ret (args.sum + 1)
  | true, 0, args => .call 1 args fun w => .ret (2 * w)
  | true, _, args => .ret args.sum
  | _, _, _ => .ret 0

def exP : Prog Nat := .call 0 [3, 4] fun w => .call 1 [w] fun w' => .ret (w + w')

example : EvalD exF true exP 3247 3 := by
  have h1 : EvalD exF false (exF false 1 [3, 4]) 8 0 := .ret
  have h2 : EvalD exF true (exF true 0 [3, 4]) 16 1 := .call (w := 8) (d := 0) (e := 0) h1 .ret
  have h3 : EvalD exF true (exF true 1 [16, 7]) 23 0 := .ret
  have h4 : EvalD exF false (exF false 0 [3, 4]) 1623 2 := .call (w := 16) (d := 1) (e := 1) h2 (.call (w := 23) (d := 0) (e := 0) h3 .ret)
  have h5 : EvalD exF false (exF false 1 [1623]) 1624 0 := .ret
  exact .call (w := 1623) (d := 2) (e := 1) h4 (.call (w := 1624) (d := 0) (e := 0) h5 .ret)

/-- Both sides call each other without end. -/
def deepF : Bool → Nat → List Nat → Prog Nat := fun _ _ _ => .call 0 [] .ret

def deepOs : Nat → List (Nat × (Nat → Prog Nat))
  | 0 => []
  | n + 1 => (n, .ret) :: deepOs n

def deepS (n : Nat) : Sys Nat :=
  ⟨fun y => if y = active (deepOs n) then ⟨.run (.call 0 [] .ret), stk (active (deepOs n)) y (deepOs n), free (deepOs n)⟩
    else ⟨.listening, stk (active (deepOs n)) y (deepOs n), free (deepOs n)⟩, fun _ => []⟩

theorem deep_mem {n r : Nat} : r ∈ (deepOs n).map (·.1) ↔ r < n := by
  induction n with
  | zero => simp [deepOs]
  | succ n ih => rw [deepOs, List.map_cons, List.mem_cons, ih]; omega

theorem deep_step (n : Nat) (hn : n < 256) (h : Reach deepF (.call 0 [] .ret) (deepS n)) : Reach deepF (.call 0 [] .ret) (deepS (n + 1)) := by
  have hfree : free (deepOs n) n = true := free_iff.mpr ⟨hn, by rw [deep_mem]; omega⟩
  have hact : active (deepOs (n + 1)) = !active (deepOs n) := rfl
  generalize ha : active (deepOs n) = x at hact
  have hne : ¬ ((!x) = x) := by cases x <;> simp
  have hne' : ¬ (x = !x) := by cases x <;> simp
  have hd : desired (stk x (!x) (deepOs n)) ≠ some n := fun hd => by
    have := desired_other _ _ _ hd
    rw [deep_mem] at this; omega
  have h1 := Reach.step h (Step.mk x (by simp only [deepS, ha, if_true]; exact LStep.call n hfree))
  have h2 := Reach.step h1 (Step.mk x (by simp only [Sys.upd, if_true]; exact LStep.send))
  have h3 := Reach.step h2 (Step.mk x (by simp only [Sys.upd, if_true]; exact LStep.sent))
  have h4 := Reach.step h3 (Step.mk (!x) (by
    simp only [Sys.upd, deepS, ha, hne, if_false, List.append_nil, List.map_nil, List.nil_append]
    exact LStep.request hd hfree))
  have h5 := Reach.step h4 (Step.mk (!x) (by
    simp only [Sys.upd, if_true]
    exact LStep.exec))
  convert h5 using 1
  simp only [deepS, Sys.upd, hact, Sys.mk.injEq, ha]
  constructor
  · funext y
    by_cases hy : y = x
    · subst hy
      simp only [hne', if_false, if_true, deepOs]
      rw [stk_cons_other, free_take (k := Prog.ret)]
    · have : y = !x := by cases x <;> cases y <;> simp_all
      subst this
      simp only [if_true, deepOs]
      rw [stk_cons_self, free_take (k := Prog.ret)]
      rfl
  · funext y
    by_cases hy : y = x
    · subst hy; simp [hne']
    · have : y = !x := by cases x <;> cases y <;> simp_all
      subst this; simp

theorem deep_reach (n : Nat) (hn : n ≤ 256) : Reach deepF (.call 0 [] .ret) (deepS n) := by
  induction n with
  | zero =>
    have : deepS 0 = Sys.init (.call 0 [] .ret) := by
      have hf : free ([] : List (Nat × (Nat → Prog Nat))) = allUnused := by funext i; simp [free, allUnused]
      simp only [deepS, Sys.init, deepOs, active, stk, hf]
    rw [this]; exact .init
  | succ n ih => exact deep_step n (by omega) (ih (by omega))

/-- 256 calls can be nested, and then the numbers are exhausted. -/
theorem deep_exhausted : ∃ g, Reach deepF (.call 0 [] .ret) g ∧ ∃ x, (g.side x).mode = .exhausted := by
  have h := deep_reach 256 (by omega)
  have hfree : ∀ r, free (deepOs 256) r = false := by
    intro r
    by_contra hc
    have := free_iff.mp (by simpa using hc)
    rw [deep_mem] at this
    omega
  generalize ha : active (deepOs 256) = x
  refine ⟨_, h.step (Step.mk x (by simp only [deepS, ha, if_true]; exact LStep.exhausted hfree)), x, ?_⟩
  simp [Sys.upd]

end Verif.C49
