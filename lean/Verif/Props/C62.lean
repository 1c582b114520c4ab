import Verif.Spec.RepoList
import Verif.Proof.RepoReach
import Verif.Props.C61
/-
C62  `list increments --size`: the sizes add up, and the cumulative size of a time is what is left if everything older is removed.
-/
namespace Verif.C62
open Verif.Repo Verif.MetaChain
set_option linter.unusedSectionVars false

/-! ### Sums -/

def sumIf (p : Nat → Bool) (d : List (Nat × Nat)) : Nat := ((d.filter fun x => p x.1).map Prod.snd).sum

theorem sumIf_cons (p : Nat → Bool) (x : Nat × Nat) (d : List (Nat × Nat)) : sumIf p (x :: d) = (if p x.1 then x.2 else 0) + sumIf p d := by
  unfold sumIf
  by_cases h : p x.1 = true <;> simp [h]

theorem sumIf_perm {p : Nat → Bool} {d d' : List (Nat × Nat)} (h : d.Perm d') : sumIf p d = sumIf p d' :=
  ((h.filter _).map _).sum_nat

theorem sumIf_addTime (p : Nat → Bool) (t n : Nat) (d : List (Nat × Nat)) : sumIf p (addTime t n d) = sumIf p d + if p t then n else 0 := by
  induction d with
  | nil => simp only [addTime, sumIf_cons]; simp [sumIf]
  | cons x d ih =>
    unfold addTime
    by_cases h : x.1 = t
    · rw [if_pos h, sumIf_cons, sumIf_cons, h]
      by_cases hp : p t = true <;> simp [hp]; omega
    · rw [if_neg h, sumIf_cons, sumIf_cons, ih]; omega

theorem addTime_keys {t n : Nat} {d : List (Nat × Nat)} (hd : (d.map Prod.fst).Nodup) :
    ((addTime t n d).map Prod.fst).Nodup ∧ ∀ k, k ∈ (addTime t n d).map Prod.fst ↔ k = t ∨ k ∈ d.map Prod.fst := by
  induction d with
  | nil => simp [addTime]
  | cons x d ih =>
    rw [List.map_cons, List.nodup_cons] at hd
    obtain ⟨i1, i2⟩ := ih hd.2
    unfold addTime
    by_cases h : x.1 = t
    · rw [if_pos h]
      subst h
      simp only [List.map_cons, List.nodup_cons, List.mem_cons]
      exact ⟨hd, fun k => by tauto⟩
    · rw [if_neg h]
      simp only [List.map_cons, List.nodup_cons, List.mem_cons]
      refine ⟨⟨fun hm => ?_, i1⟩, fun k => ?_⟩
      · rcases (i2 _).mp hm with e | e
        · exact h e
        · exact hd.1 e
      · rw [i2]; tauto

theorem timeDict_spec (l : List (Nat × Nat)) : ((timeDict l).map Prod.fst).Nodup ∧ (∀ k, k ∈ (timeDict l).map Prod.fst ↔ k ∈ l.map Prod.fst) ∧
    ∀ p, sumIf p (timeDict l) = sumIf p l := by
  have gen : ∀ (l d : List (Nat × Nat)), (d.map Prod.fst).Nodup →
      ((l.foldl (fun d x => addTime x.1 x.2 d) d).map Prod.fst).Nodup ∧
      (∀ k, k ∈ (l.foldl (fun d x => addTime x.1 x.2 d) d).map Prod.fst ↔ k ∈ d.map Prod.fst ∨ k ∈ l.map Prod.fst) ∧
      ∀ p, sumIf p (l.foldl (fun d x => addTime x.1 x.2 d) d) = sumIf p d + sumIf p l := by
    intro l
    induction l with
    | nil => intro d hd; exact ⟨hd, by simp, by simp [sumIf]⟩
    | cons x l ih =>
      intro d hd
      obtain ⟨a1, a2⟩ := addTime_keys (t := x.1) (n := x.2) hd
      obtain ⟨i1, i2, i3⟩ := ih _ a1
      refine ⟨i1, fun k => ?_, fun p => ?_⟩
      · rw [List.foldl_cons, i2, a2, List.map_cons, List.mem_cons]; tauto
      · rw [List.foldl_cons, i3, sumIf_addTime, sumIf_cons]; omega
  obtain ⟨h1, h2, h3⟩ := gen l [] (by simp)
  exact ⟨h1, fun k => by rw [timeDict, h2]; simp, fun p => by rw [timeDict, h3]; simp [sumIf]⟩

theorem mem_dict {d : List (Nat × Nat)} (hd : (d.map Prod.fst).Nodup) (x : Nat × Nat) :
    x ∈ d ↔ x.1 ∈ d.map Prod.fst ∧ x.2 = sumIf (fun t => decide (t = x.1)) d := by
  induction d with
  | nil => simp
  | cons y d ih =>
    rw [List.map_cons, List.nodup_cons] at hd
    rw [List.mem_cons, sumIf_cons, List.map_cons, List.mem_cons, ih hd.2]
    by_cases h : x.1 = y.1
    · have h0 : sumIf (fun t => decide (t = x.1)) d = 0 := by
        unfold sumIf
        have : d.filter (fun z => decide (z.1 = x.1)) = [] := by
          rw [List.filter_eq_nil_iff]
          intro z hz hzx
          apply hd.1
          rw [← h]
          exact List.mem_map.mpr ⟨z, hz, by simpa using hzx⟩
        rw [this]; rfl
      have hn : x.1 ∉ d.map Prod.fst := by rw [h]; exact hd.1
      rw [h0]
      simp only [← h, decide_true, if_true, Nat.add_zero, true_or, true_and]
      constructor
      · rintro (rfl | h1)
        · rfl
        · exact absurd h1.1 hn
      · intro e; exact .inl (Prod.ext h e)
    · have h' : ¬ y.1 = x.1 := fun e => h e.symm
      have hx : x ≠ y := fun e => h (by rw [e])
      simp [h, h', hx]

theorem mem_cumulate {l : List (Nat × Nat)} (hl : l.Pairwise (fun x y => y.1 < x.1)) (c : Nat) (e : Nat × Nat × Nat) :
    e ∈ cumulate c l ↔ (e.1, e.2.1) ∈ l ∧ e.2.2 = c + sumIf (fun t => decide (e.1 ≤ t)) l := by
  induction l generalizing c with
  | nil => simp [cumulate]
  | cons x l ih =>
    obtain ⟨h1, h2⟩ := List.pairwise_cons.mp hl
    rw [cumulate, List.mem_cons, ih h2, List.mem_cons, sumIf_cons]
    constructor
    · rintro (rfl | ⟨h3, h4⟩)
      · refine ⟨.inl rfl, ?_⟩
        have : sumIf (fun t => decide (x.1 ≤ t)) l = 0 := by
          unfold sumIf
          rw [List.filter_eq_nil_iff.mpr]
          · rfl
          · intro y hy
            have := h1 y hy
            simp only [decide_eq_true_eq]; omega
        simp only [this, le_refl, decide_true, if_true, Nat.add_zero]
      · refine ⟨.inr h3, ?_⟩
        have := h1 _ h3
        simp only at this
        have h5 : e.1 ≤ x.1 := by omega
        simp only [h4, h5, decide_true, if_true]; omega
    · rintro ⟨h3 | h3, h4⟩
      · left
        obtain ⟨t, n, c'⟩ := e
        simp only at h3 h4 ⊢
        cases h3
        have : sumIf (fun s => decide (t ≤ s)) l = 0 := by
          unfold sumIf
          rw [List.filter_eq_nil_iff.mpr]
          · rfl
          · intro y hy
            have := h1 y hy
            simp only [decide_eq_true_eq]; simp only at this; omega
        simp only [this, le_refl, decide_true, if_true, Nat.add_zero] at h4
        rw [h4]
      · right
        refine ⟨h3, ?_⟩
        have := h1 _ h3
        simp only at this
        have h5 : e.1 ≤ x.1 := by omega
        simp only [h5, decide_true, if_true] at h4
        omega

theorem cumulate_times (l : List (Nat × Nat)) (c : Nat) : (cumulate c l).map Prod.fst = l.map Prod.fst := by
  induction l generalizing c with
  | nil => rfl
  | cons x l ih => rw [cumulate, List.map_cons, List.map_cons, ih]

/-! ### The listing -/

variable {α A C S H Δ L : Type} [LinearOrder α] [DecidableEq A] [DecidableEq S] [DecidableEq H] [DecidableEq L]

/-- Any repository (damaged or not) in which no increment is as young as the mirror: the listing is in order of time, with exactly the right
sizes for each time; the last entry is the mirror. There is no listing (an exception) exactly if the path isn't in the mirror. -/
theorem sizes_exact (z : Sizes A C S Δ) (st : State α A C S H Δ) (mt : Nat) (sub : List α) (hlt : ∀ f ∈ incsBelow st sub, f.time < mt) :
    (getIncrementsSizes z st mt sub = none ↔ get st.mirror sub = none) ∧
    ∀ l, getIncrementsSizes z st mt sub = some l →
      l.Pairwise (fun x y => x.1 < y.1) ∧ (∀ e, e ∈ l ↔ SizeEntry z st mt sub e) ∧
      l.getLast? = some (mt, mirrorSize z st sub, mirrorSize z st sub) := by
  have hsum : ∀ p, sumIf p ((incsBelow st sub).map fun f => (f.time, z.inc f.inc)) = incSize z st sub p := by
    intro p
    unfold sumIf incSize
    rw [List.filter_map, List.map_map]; rfl
  have hkeys : ∀ k, k ∈ ((incsBelow st sub).map fun f => (f.time, z.inc f.inc)).map Prod.fst ↔ ∃ f ∈ incsBelow st sub, f.time = k := by
    intro k; rw [List.map_map, List.mem_map]; rfl
  obtain ⟨d1, d2, d3⟩ := timeDict_spec ((incsBelow st sub).map fun f => (f.time, z.inc f.inc))
  have hperm := Sort.sortBy_perm (fun x y : Nat × Nat => decide (y.1 ≤ x.1)) (timeDict ((incsBelow st sub).map fun f => (f.time, z.inc f.inc)))
  have hge := Sort.pairwise_sortBy (le := fun x y : Nat × Nat => decide (y.1 ≤ x.1)) (by simp; intros; omega) (by simp; intros; omega)
    (timeDict ((incsBelow st sub).map fun f => (f.time, z.inc f.inc)))
  have hdef : getIncrementsSizes z st mt sub = match get st.mirror sub with
    | none => none
    | some _ => some (Sort.sortBy (fun x y => decide (x.1 ≤ y.1)) ((mt, mirrorSize z st sub, mirrorSize z st sub) ::
        cumulate (mirrorSize z st sub) (Sort.sortBy (fun x y => decide (y.1 ≤ x.1)) (timeDict ((incsBelow st sub).map fun f => (f.time, z.inc f.inc)))))) := rfl
  rw [hdef]
  generalize hD : Sort.sortBy (fun x y : Nat × Nat => decide (y.1 ≤ x.1)) (timeDict ((incsBelow st sub).map fun f => (f.time, z.inc f.inc))) = D at *
  have hnd : (D.map Prod.fst).Nodup := (hperm.map Prod.fst).nodup_iff.mpr d1
  have hDp : D.Pairwise (fun x y => y.1 < x.1) := by
    have h1 : D.Pairwise (fun x y => x.1 ≠ y.1) := List.pairwise_map.mp hnd
    exact (h1.and hge).imp fun h => by have := h.1; have := h.2; simp only [decide_eq_true_eq] at this; omega
  have hDk : ∀ k, k ∈ D.map Prod.fst ↔ ∃ f ∈ incsBelow st sub, f.time = k := by
    intro k
    rw [(hperm.map Prod.fst).mem_iff, d2, hkeys]
  have hDs : ∀ p, sumIf p D = incSize z st sub p := by
    intro p
    rw [sumIf_perm hperm, d3, hsum]
  constructor
  · cases get st.mirror sub <;> simp
  · cases get st.mirror sub with
    | none => simp
    | some n =>
      simp only [Option.some.injEq]
      rintro l rfl
      have hmem : ∀ e, e ∈ Sort.sortBy (fun x y : Nat × Nat × Nat => decide (x.1 ≤ y.1)) ((mt, mirrorSize z st sub, mirrorSize z st sub) ::
          cumulate (mirrorSize z st sub) D) ↔ SizeEntry z st mt sub e := by
        intro e
        rw [(Sort.sortBy_perm _ _).mem_iff, List.mem_cons, mem_cumulate hDp, mem_dict hnd, hDk, hDs, hDs]
        unfold SizeEntry
        rw [and_assoc]
      have hp : (Sort.sortBy (fun x y : Nat × Nat × Nat => decide (x.1 ≤ y.1)) ((mt, mirrorSize z st sub, mirrorSize z st sub) ::
          cumulate (mirrorSize z st sub) D)).Pairwise (fun x y => x.1 < y.1) := by
        have h1 : ((mt, mirrorSize z st sub, mirrorSize z st sub) :: cumulate (mirrorSize z st sub) D).Pairwise (fun x y => x.1 ≠ y.1) := by
          rw [← List.pairwise_map (f := Prod.fst) (R := (· ≠ ·)), List.map_cons, cumulate_times, List.pairwise_cons]
          refine ⟨fun k hk => ?_, hnd⟩
          obtain ⟨f, hf, rfl⟩ := (hDk k).mp hk
          exact (ne_of_lt (hlt f hf)).symm
        have h2 := (Sort.sortBy_perm (fun x y : Nat × Nat × Nat => decide (x.1 ≤ y.1)) _).pairwise_iff (fun h => Ne.symm h) |>.mpr h1
        have h3 := Sort.pairwise_sortBy (le := fun x y : Nat × Nat × Nat => decide (x.1 ≤ y.1)) (by simp; intros; omega) (by simp; intros; omega)
          ((mt, mirrorSize z st sub, mirrorSize z st sub) :: cumulate (mirrorSize z st sub) D)
        exact (h2.and h3).imp fun h => by have := h.1; have := h.2; simp only [decide_eq_true_eq] at this; omega
      refine ⟨hp, hmem, ?_⟩
      generalize hl : Sort.sortBy _ _ = l at hp hmem
      have hm : (mt, mirrorSize z st sub, mirrorSize z st sub) ∈ l := (hmem _).mpr (.inl rfl)
      rw [List.getLast?_eq_some_iff]
      obtain ⟨l1, l2, hl'⟩ := List.append_of_mem hm
      cases l2 with
      | nil => exact ⟨l1, hl'⟩
      | cons y l2 =>
        exfalso
        rw [hl'] at hp
        have hlt' := (List.pairwise_cons.mp (List.pairwise_append.mp hp).2.1).1 y (by simp)
        rcases (hmem y).mp (by rw [hl']; simp) with rfl | ⟨⟨f, hf, h1⟩, -⟩
        · exact lt_irrefl _ hlt'
        · have := hlt f hf; simp only at hlt'; omega

/-- Removing everything before `t` leaves exactly the entries from `t` on, unchanged: so the cumulative size tells what will be left. -/
theorem after_removal (z : Sizes A C S Δ) (st : State α A C S H Δ) {mt t : Nat} (ht : t ≤ mt) (sub : List α) (hlt : ∀ f ∈ incsBelow st sub, f.time < mt) :
    getIncrementsSizes z (removeBefore st t) mt sub = (getIncrementsSizes z st mt sub).map fun l => l.filter fun e => decide (t ≤ e.1) := by
  have hbelow : incsBelow (removeBefore st t) sub = (incsBelow st sub).filter fun f => decide (t ≤ f.time) := by
    unfold incsBelow removeBefore
    simp only
    rw [List.filter_filter, List.filter_filter]
    congr 1; funext f; rw [Bool.and_comm]
  have hlt' : ∀ f ∈ incsBelow (removeBefore st t) sub, f.time < mt := by
    intro f hf; rw [hbelow] at hf; exact hlt f (List.mem_of_mem_filter hf)
  have hmir : mirrorSize z (removeBefore st t) sub = mirrorSize z st sub := rfl
  obtain ⟨a1, a2⟩ := sizes_exact z st mt sub hlt
  obtain ⟨b1, b2⟩ := sizes_exact z (removeBefore st t) mt sub hlt'
  cases h : getIncrementsSizes z st mt sub with
  | none => exact b1.mpr (a1.mp h)
  | some l =>
    cases h' : getIncrementsSizes z (removeBefore st t) mt sub with
    | none => have := a1.mpr (b1.mp h'); rw [h] at this; cases this
    | some l' =>
      obtain ⟨c1, c2, -⟩ := a2 l h
      obtain ⟨d1, d2, -⟩ := b2 l' h'
      simp only [Option.map_some, Option.some.injEq]
      refine JoinSpec.ordered_ext (idx := Prod.fst) d1 (c1.filter _) fun e => ?_
      rw [d2, List.mem_filter, c2]
      have hsz : ∀ p : Nat → Bool, (∀ k, p k = true → t ≤ k) → incSize z (removeBefore st t) sub p = incSize z st sub p := by
        intro p hp
        unfold incSize
        rw [hbelow, List.filter_filter]
        congr 2
        apply List.filter_congr
        intro f _
        cases hpf : p f.time with
        | true => simp [hp _ hpf]
        | false => simp
      unfold SizeEntry
      rw [hmir]
      constructor
      · rintro (rfl | ⟨⟨f, hf, h1⟩, h2, h3⟩)
        · exact ⟨.inl rfl, by simpa using ht⟩
        · rw [hbelow, List.mem_filter] at hf
          have hte : t ≤ e.1 := by simpa [h1] using hf.2
          rw [hsz _ (by simp; omega)] at h2
          rw [hsz _ (by simp; omega)] at h3
          exact ⟨.inr ⟨⟨f, hf.1, h1⟩, h2, h3⟩, by simpa using hte⟩
      · rintro ⟨rfl | ⟨⟨f, hf, h1⟩, h2, h3⟩, hte⟩
        · exact .inl rfl
        · have hte' : t ≤ e.1 := by simpa using hte
          refine .inr ⟨⟨f, by rw [hbelow, List.mem_filter]; exact ⟨hf, by rw [h1]; exact hte⟩, h1⟩, ?_, ?_⟩
          · rw [hsz _ (by simp; omega)]; exact h2
          · rw [hsz _ (by simp; omega)]; exact h3

variable {o : Ops A C H Δ L} {rsv : α → Prop} {st : State α A C S H Δ} {hist : Hist α A C S}

/-- Repositories with complete backups meet the condition. -/
theorem times_before (h : Reach o rsv false st hist) {mt : Nat} {T : Files α (Node A C S)} {rest : Hist α A C S} (hh : hist = (mt, T) :: rest)
    (sub : List α) : ∀ f ∈ incsBelow st sub, f.time < mt ∧ f.time ∈ rest.map Prod.fst := by
  rcases (reach_inv h).1 rfl with ⟨rfl, -⟩ | ⟨P, T0, rest', L0, mrest, rfl, hs, hc⟩
  · cases hh
  cases hh
  intro f hf
  refine (hs.incs f.idx f ?_).2
  rw [← hc.incs f.idx]
  exact List.mem_filter.mpr ⟨List.mem_of_mem_filter hf, by simp⟩

/-- In a repository with complete backups: listing of a path of the last backup. The first cumulative size is that of everything there is. -/
theorem sizes (h : Reach o rsv false st hist) {mt : Nat} {T : Files α (Node A C S)} {rest : Hist α A C S} (hh : hist = (mt, T) :: rest)
    (z : Sizes A C S Δ) (sub : List α) :
    (getIncrementsSizes z st mt sub = none ↔ get T sub = none) ∧
    ∀ l, getIncrementsSizes z st mt sub = some l →
      l.Pairwise (fun x y => x.1 < y.1) ∧ (∀ e, e ∈ l ↔ SizeEntry z st mt sub e) ∧
      l.getLast? = some (mt, mirrorSize z st sub, mirrorSize z st sub) ∧ (∀ e ∈ l, e.1 ∈ hist.map Prod.fst) ∧
      ∃ e, l.head? = some e ∧ e.2.2 = mirrorSize z st sub + incSize z st sub (fun _ => true) := by
  have htb := times_before h hh sub
  obtain ⟨h1, h2⟩ := sizes_exact z st mt sub (fun f hf => (htb f hf).1)
  constructor
  · rw [h1]
    rcases (reach_inv h).1 rfl with ⟨rfl, -⟩ | ⟨P, T0, rest', L0, mrest, rfl, hs, hc⟩
    · cases hh
    cases hh
    have := (hc.mirror sub).fileType
    constructor
    · intro e
      rw [e] at this
      cases hg : get T sub with
      | none => rfl
      | some n => rw [hg] at this; cases n <;> cases this
    · intro e
      rw [e] at this
      cases hg : get st.mirror sub with
      | none => rfl
      | some n => rw [hg] at this; cases n <;> cases this
  · intro l hl
    obtain ⟨a, b, c⟩ := h2 l hl
    refine ⟨a, b, c, ?_, ?_⟩
    · intro e he
      rcases (b e).mp he with rfl | ⟨⟨f, hf, h4⟩, -⟩
      · rw [hh]; simp
      · rw [hh, List.map_cons, ← h4]; exact List.mem_cons_of_mem _ (htb f hf).2
    · cases l with
      | nil => cases c
      | cons e l =>
        refine ⟨e, rfl, ?_⟩
        have hfirst : ∀ e' ∈ e :: l, e.1 ≤ e'.1 := by
          intro e' he'
          rcases List.mem_cons.mp he' with rfl | he'
          · exact le_refl _
          · exact le_of_lt ((List.pairwise_cons.mp a).1 e' he')
        have hall : ∀ f ∈ incsBelow st sub, e.1 ≤ f.time := by
          intro f hf
          exact hfirst (f.time, incSize z st sub (fun t => decide (t = f.time)), mirrorSize z st sub + incSize z st sub (fun t => decide (f.time ≤ t)))
            ((b _).mpr (.inr ⟨⟨f, hf, rfl⟩, rfl, rfl⟩))
        rcases (b e).mp (by simp) with rfl | ⟨-, -, h5⟩
        · have : incsBelow st sub = [] := by
            apply List.eq_nil_iff_forall_not_mem.mpr
            intro f hf
            have := hall f hf
            have := (htb f hf).1
            simp only at *
            omega
          simp [incSize, this]
        · rw [h5]
          congr 1
          unfold incSize
          congr 2
          apply List.filter_congr
          intro f hf
          simp [hall f hf]

end Verif.C62

namespace Verif.C62.Demo
open Verif.Repo Verif.Repo.Demo Verif.C62

/-- directories and links have size 1, an increment the size of what is in it -/
def z : Sizes Nat Nat Nat (Nat × Nat) := ⟨fun n => match n with | .reg _ c => c | _ => 1, fun x => match x with | .snap (.reg _ c) => c | .diff d => d.2 | .snap _ => 1 | _ => 0⟩

example : getIncrementsSizes z st3 30 [] = some [(10, 4, 27), (20, 15, 23), (30, 8, 8)] := by decide +kernel
example : getIncrementsSizes z (removeBefore st3 20) 30 [] = some [(20, 15, 23), (30, 8, 8)] := by decide +kernel
/-- a path which is only in older backups: an exception (finding F63) -/
theorem gone_path_fails : getIncrementsSizes z st3 30 [2] = none ∧ getIncrements st3 30 [2] = [(10, .directory), (20, .regular), (30, .missing)] := by
  decide +kernel
example : ∀ e, e ∈ [(10, 4, 27), (20, 15, 23), (30, 8, 8)] ↔ SizeEntry z st3 30 [] e :=
  ((sizes reach3 rfl z []).2 _ (by decide +kernel)).2.1

end Verif.C62.Demo
