import Verif.Proof.RepoBody
import Verif.Spec.RepoHistory
/- Reading old contents back from increments. -/
namespace Verif.Repo
open Verif.Collate Verif.FillIn Verif.TreeReducer Verif.MetaChain Verif.JoinSpec
set_option linter.unusedSectionVars false
variable {α A C S H Δ L : Type} [LinearOrder α] [DecidableEq A] [DecidableEq S] [DecidableEq H] [DecidableEq L]
variable {o : Ops A C H Δ L}

/-- content of a file from its increments (oldest first) and the file now -/
def resolve (o : Ops A C H Δ L) : List (Inc A C S Δ) → Option (Node A C S) → Option C
  | [], some (.reg _ c) => some c
  | [], _ => none
  | .diff d :: r, m => (resolve o r m).map (o.patch · d)
  | .snap (.reg _ c) :: _, _ => some c
  | _ :: _, _ => none

theorem patchAll_snoc (x : C) (l : List (Rel A C S Δ)) (d : Δ) :
    patchAll o x (l ++ [.inc (.diff d)]) = (patchAll o x l).map (o.patch · d) := by
  induction l generalizing x with
  | nil => rfl
  | cons r l ih =>
    cases r with
    | mirror n => rfl
    | inc y => cases y <;> first | rfl | exact ih _

theorem restoreFp_snoc {l : List (Rel A C S Δ)} (hl : l ≠ []) (d : Δ) :
    restoreFp o (l ++ [.inc (.diff d)]) = (restoreFp o l).map (o.patch · d) := by
  cases l with
  | nil => exact absurd rfl hl
  | cons f l =>
    simp only [restoreFp, List.cons_append]
    cases firstContent f with
    | none => rfl
    | some x => simp [patchAll_snoc]

def relevantList (l : List (Inc A C S Δ)) (m : Option (Node A C S)) : List (Rel A C S Δ) :=
  (takeRelevant l).map Rel.inc ++ (if endsInDiff (takeRelevant l) then [Rel.mirror m] else [])

theorem endsInDiff_cons (d : Δ) (l : List (Inc A C S Δ)) : endsInDiff (.diff d :: l) = endsInDiff l := by
  cases l <;> rfl

theorem restoreFp_relevant (l : List (Inc A C S Δ)) (m : Option (Node A C S)) :
    relevantList l m ≠ [] ∧ restoreFp o (relevantList l m).reverse = resolve o l m := by
  induction l with
  | nil =>
    refine ⟨by simp [relevantList, takeRelevant, endsInDiff], ?_⟩
    cases m with
    | none => rfl
    | some n => cases n <;> rfl
  | cons x l ih =>
    cases x with
    | diff d =>
      have e : relevantList (.diff d :: l) m = .inc (.diff d) :: relevantList l m := by
        simp [relevantList, takeRelevant, endsInDiff_cons]
      rw [e]
      refine ⟨by simp, ?_⟩
      rw [List.reverse_cons, restoreFp_snoc (by simp [ih.1]), ih.2]
      rfl
    | missing => exact ⟨by simp [relevantList, takeRelevant], rfl⟩
    | dir => exact ⟨by simp [relevantList, takeRelevant], rfl⟩
    | snap n =>
      refine ⟨by simp [relevantList, takeRelevant], ?_⟩
      cases n <;> rfl

theorem newerIncs_nil {l : List (IncFile α A C S Δ)} {t : Nat} (h : ∀ f ∈ l, f.time < t) : newerIncs l t = [] := by
  unfold newerIncs
  rw [List.filter_eq_nil_iff.mpr]
  · rfl
  · intro f hf; have := h f hf; simp; omega

theorem restoreFp_eq {incs : List (IncFile α A C S Δ)} {m : Option (Node A C S)} {t mt : Nat}
    (h : ∀ f ∈ incs, f.time < mt) :
    restoreFp o (setRelevantIncs incs m t mt) = resolve o ((newerIncs incs t).map (·.inc)) m := by
  unfold setRelevantIncs
  by_cases hc : incs.isEmpty = true ∨ mt ≤ t
  · rw [if_pos hc]
    have : newerIncs incs t = [] := by
      apply newerIncs_nil
      intro f hf
      rcases hc with hc | hc
      · rw [List.isEmpty_iff.mp hc] at hf; cases hf
      · have := h f hf; omega
    rw [this]
    exact (restoreFp_relevant [] m).2
  · rw [if_neg hc]
    exact (restoreFp_relevant _ m).2

/-- the newest increment comes last -/
theorem newerIncs_cons {f : IncFile α A C S Δ} {l : List (IncFile α A C S Δ)} {t : Nat}
    (h : ∀ g ∈ l, g.time < f.time) (ht : t ≤ f.time) : newerIncs (f :: l) t = newerIncs l t ++ [f] := by
  unfold newerIncs
  rw [List.filter_cons, if_pos (by simpa using ht)]
  have hm : ∀ g ∈ l.filter (fun f => decide (t ≤ f.time)), g.time < f.time := fun g hg => h g (List.mem_of_mem_filter hg)
  revert hm
  generalize l.filter (fun f => decide (t ≤ f.time)) = l'
  intro hm
  rw [Sort.sortBy]
  refine Sort.insertBy_last ?_
  intro g hg
  have := hm g ((Sort.sortBy_perm _ _).mem_iff.mp hg)
  simpa using this

theorem newerIncs_cons_old {f : IncFile α A C S Δ} {l : List (IncFile α A C S Δ)} {t : Nat}
    (ht : f.time < t) : newerIncs (f :: l) t = newerIncs l t := by
  unfold newerIncs
  rw [List.filter_cons, if_neg (by simpa using ht)]

theorem newerIncs_filter {l : List (IncFile α A C S Δ)} {t r : Nat} (h : r ≤ t) :
    newerIncs (l.filter (fun f => r ≤ f.time)) t = newerIncs l t := by
  unfold newerIncs
  rw [List.filter_filter]
  congr 1
  apply List.filter_congr
  intro f _
  simp; omega

/-- contents are all that matters -/
theorem resolve_congr {m m' : Option (Node A C S)}
    (h : ∀ c, (∃ a, m = some (.reg a c)) → ∃ a, m' = some (.reg a c)) (l : List (Inc A C S Δ)) {c : C}
    (hr : resolve o l m = some c) : resolve o l m' = some c := by
  induction l generalizing c with
  | nil =>
    cases m with
    | none => simp [resolve] at hr
    | some n =>
      cases n with
      | reg a x =>
        obtain ⟨a', ha⟩ := h x ⟨a, rfl⟩
        rw [ha]; simpa [resolve] using hr
      | _ => simp [resolve] at hr
  | cons x l ih =>
    cases x with
    | diff d =>
      simp only [resolve, Option.map_eq_some_iff] at hr ⊢
      obtain ⟨y, h1, h2⟩ := hr
      exact ⟨y, ih h1, h2⟩
    | snap n => cases n <;> simp_all [resolve]
    | _ => simp [resolve] at hr

/-- further increments at the end: the file as it was before them is recovered from them -/
theorem resolve_append {m m' : Option (Node A C S)} {xs : List (Inc A C S Δ)}
    (h : ∀ a c, m = some (.reg a c) → resolve o xs m' = some c) (l : List (Inc A C S Δ)) {c : C}
    (hr : resolve o l m = some c) : resolve o (l ++ xs) m' = some c := by
  induction l generalizing c with
  | nil =>
    cases m with
    | none => simp [resolve] at hr
    | some n =>
      cases n with
      | reg a x => simp only [resolve] at hr; cases hr; exact h a _ rfl
      | _ => simp [resolve] at hr
  | cons x l ih =>
    cases x with
    | diff d =>
      simp only [resolve, List.cons_append, Option.map_eq_some_iff] at hr ⊢
      obtain ⟨y, h1, h2⟩ := hr
      exact ⟨y, ih h1, h2⟩
    | snap n => cases n <;> simp_all [resolve]
    | _ => simp [resolve] at hr

theorem resolve1_eq (x : Option (Inc A C S Δ)) (m : Option (Node A C S)) :
    resolve o x.toList m = resolve1 o x m := by
  cases x with
  | none =>
    cases m with
    | none => rfl
    | some n => cases n <;> rfl
  | some x =>
    cases x with
    | snap n => cases n <;> rfl
    | diff d =>
      cases m with
      | none => rfl
      | some n => cases n <;> rfl
    | _ => rfl

/-- increments of one path: the one of the last session and the older ones -/
theorem newerIncs_incFile {P : Prot α A C S H Δ} {i : List α} {x : Option (Inc A C S Δ)}
    {l : List (IncFile α A C S Δ)} {t : Nat} (h : ∀ g ∈ l, g.time < P.t0) (ht : t ≤ P.t0) :
    (newerIncs (incFile P i x ++ l) t).map (·.inc) = (newerIncs l t).map (·.inc) ++ x.toList := by
  cases x with
  | none => simp [incFile]
  | some y =>
    rw [incFile, List.singleton_append, newerIncs_cons h ht]
    simp

end Verif.Repo
