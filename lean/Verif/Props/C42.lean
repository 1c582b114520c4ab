import Verif.Model.LongNames
import Verif.Proof.MetaRecord
import Mathlib.Data.List.Perm.Subperm
/-
C42: substitutes for too long file names.
-/
namespace Verif.C42
open Verif.Quoting Verif.MetaRecord Verif.LongNames

theorem fmtNat_inj {a b : Nat} (h : fmtNat a = fmtNat b) : a = b := by
  have h1 := (fmtNat_spec a).2.2
  rw [h, (fmtNat_spec b).2.2] at h1
  exact (Option.some.inj h1).symm

theorem base_name {n : Nat} {s : Bytes} (hs : s = [] ∨ s.head? = some 46) : base (fmtNat n ++ s) = fmtNat n := by
  have hd : ∀ c ∈ fmtNat n, decide (c ≠ 46) = true := by
    intro c hc
    have := List.all_eq_true.mp (fmtNat_spec n).2.1 c hc
    simp only [decide_eq_true_eq]
    rintro rfl
    revert this; decide
  unfold base
  rw [List.takeWhile_append_of_pos hd]
  rcases hs with rfl | hs
  · simp
  · cases s with
    | nil => simp
    | cons c s => simp only [List.head?_cons, Option.some.injEq] at hs; subst hs; simp

theorem scan_spec (dir : List Bytes) (f : Bytes) (hf : f ∈ dir) (i : Nat) (hi : parseNat (base f) = some i) : i < scanNextFree dir := by
  unfold scanNextFree
  have mono : ∀ (l : List Bytes) (a : Nat), a ≤ l.foldl (fun high f =>
      match parseNat (base f) with | some i => if i > high then i else high | none => high) a := by
    intro l
    induction l with
    | nil => intro a; exact le_refl _
    | cons x l ih =>
      intro a
      rw [List.foldl_cons]
      refine le_trans ?_ (ih _)
      split
      · split <;> omega
      · exact le_refl _
  have key : ∀ (l : List Bytes) (a : Nat), f ∈ l → i ≤ l.foldl (fun high f =>
      match parseNat (base f) with | some i => if i > high then i else high | none => high) a := by
    intro l
    induction l with
    | nil => intro a h; cases h
    | cons x l ih =>
      intro a h
      rw [List.foldl_cons]
      rcases List.mem_cons.mp h with rfl | h
      · refine le_trans ?_ (mono l _)
        rw [hi]; simp only; split <;> omega
      · exact ih _ h
  exact Nat.lt_succ_of_le (key dir 0 hf)

/-! ## Names are never reused -/

/-- the program is not killed between deleting and rewriting `next_free` -/
def safe : Op → Bool
  | .crash .deleted | .crash .empty => false
  | _ => true

/-- what holds between operations: everything returned is below the counter -/
structure Inv (st : St) (bound : Nat) : Prop where
  pos : 0 < bound
  given : ∀ f ∈ st.given, ∃ n, f = fmtNat n ∧ n < bound
  nodup : st.given.Nodup
  dir : ∀ f ∈ st.dir, base f ∈ st.given
  counter : st.counter = none ∨ st.counter = some bound
  file : st.file = some (fmtNat bound) ∨ (st.file = none ∧ st.counter = none ∧ st.given = [])

theorem Inv.next {st : St} {b : Nat} (h : Inv st b) : ∃ n, nextNumber st = some n ∧ Inv { st with counter := some (n + 1), file := some (fmtNat (n + 1)), given := fmtNat n :: st.given } (n + 1) ∧
    (st.file = some (fmtNat b) → n = b) ∧ fmtNat n ∉ st.dir ∧ fmtNat n ∉ st.given := by
  have key : ∃ n, nextNumber st = some n ∧ 0 < n ∧ (∀ f ∈ st.given, ∃ m, f = fmtNat m ∧ m < n) ∧ (st.file = some (fmtNat b) → n = b) := by
    rcases h.file with hf | ⟨hf, hc, hg⟩
    · refine ⟨b, ?_, h.pos, h.given, fun _ => rfl⟩
      have hb := h.pos
      unfold nextNumber
      rcases h.counter with hc | hc
      · simp only [hc, falsy, if_true, readNextFree, hf, (fmtNat_spec b).2.2, Option.map_some]
        rw [if_neg (by omega)]
      · have : falsy (some b) = false := by simp only [falsy]; simp; omega
        simp only [hc, this, Bool.false_eq_true, if_false]
        rw [if_neg (by omega)]
    · refine ⟨scanNextFree st.dir, ?_, by unfold scanNextFree; omega, by simp [hg], by rw [hf]; simp⟩
      unfold nextNumber
      simp [hc, falsy, readNextFree, hf]
  obtain ⟨n, h1, h2, h3, h4⟩ := key
  have hng : fmtNat n ∉ st.given := by
    intro hm
    obtain ⟨m, e, hm⟩ := h3 _ hm
    have := fmtNat_inj e; omega
  have hnd : fmtNat n ∉ st.dir := by
    intro hm
    have := h.dir _ hm
    have e : base (fmtNat n) = fmtNat n := by simpa using base_name (n := n) (s := []) (.inl rfl)
    rw [e] at this
    exact hng this
  refine ⟨n, h1, ⟨by omega, ?_, by simp [hng, h.nodup], ?_, .inr rfl, .inl rfl⟩, h4, hnd, hng⟩
  · intro f hf
    rcases List.mem_cons.mp hf with rfl | hf
    · exact ⟨n, rfl, by omega⟩
    · obtain ⟨m, e, hm⟩ := h3 f hf; exact ⟨m, e, by omega⟩
  · intro f hf
    exact List.mem_cons_of_mem _ (h.dir f hf)

theorem Inv.step {st st' : St} {b : Nat} (h : Inv st b) {op : Op} (hs : safe op = true) (e : step st op = some st') :
    ∃ b', Inv st' b' := by
  cases op with
  | alloc =>
    obtain ⟨n, h1, h2, h3, h4, h5⟩ := h.next
    simp only [LongNames.step, alloc, h1, if_neg h4, Option.map_some, Option.some.injEq] at e
    subst e; exact ⟨_, h2⟩
  | crash p =>
    obtain ⟨n, h1, h2, h3, h4, h5⟩ := h.next
    simp only [LongNames.step, crashAlloc, h1, if_neg h4, Option.some.injEq] at e
    cases p with
    | before =>
      subst e
      exact ⟨b, h.pos, h.given, h.nodup, h.dir, .inl rfl, by
        rcases h.file with hf | ⟨hf, hc, hg⟩
        · exact .inl hf
        · exact .inr ⟨hf, rfl, hg⟩⟩
    | deleted => cases hs
    | empty => cases hs
    | written =>
      subst e
      refine ⟨n + 1, by omega, ?_, h.nodup, h.dir, .inl rfl, .inl rfl⟩
      intro f hf
      exact h2.given f (List.mem_cons_of_mem _ hf)
  | restart =>
    cases e
    exact ⟨b, h.pos, h.given, h.nodup, h.dir, .inl rfl, by
      rcases h.file with hf | ⟨hf, hc, hg⟩
      · exact .inl hf
      · exact .inr ⟨hf, rfl, hg⟩⟩
  | create name suffix =>
    simp only [LongNames.step] at e
    split at e
    · next hc =>
      cases e
      refine ⟨b, h.pos, h.given, h.nodup, ?_, h.counter, h.file⟩
      intro f hf
      rcases List.mem_cons.mp hf with rfl | hf
      · obtain ⟨n, rfl, -⟩ := h.given _ hc.1
        rw [base_name hc.2]; exact hc.1
      · exact h.dir f hf
    · cases e
  | delete f =>
    cases e
    exact ⟨b, h.pos, h.given, h.nodup, fun g hg => h.dir g (List.mem_of_mem_filter hg), h.counter, h.file⟩

theorem inv_init : Inv {} 1 :=
  ⟨by decide, by simp, by simp, by simp, .inl rfl, .inr ⟨rfl, rfl, rfl⟩⟩

theorem Inv.run {st st' : St} {b : Nat} (h : Inv st b) {ops : List Op} (hs : ops.all safe = true) (e : run st ops = some st') :
    ∃ b', Inv st' b' := by
  induction ops generalizing st b with
  | nil => cases e; exact ⟨b, h⟩
  | cons op ops ih =>
    simp only [LongNames.run] at e
    obtain ⟨st1, h1, h2⟩ := Option.bind_eq_some_iff.mp e
    simp only [List.all_cons, Bool.and_eq_true] at hs
    obtain ⟨b', h'⟩ := h.step hs.1 h1
    exact ih h' hs.2 h2

/-- **C42**, partial: after any sequence of allocations, restarts, creations and deletions of files with names that were
allocated, and crashes (except between the deletion of the file `next_free` and its rewriting): all names returned are different,
and the next allocation succeeds with yet another one, of which no file exists. Missing: crashes in that window, for which the claim is false
(`name_reused_after_crash`, `stuck_after_crash`); what holds then is `not_of_existing_file`. -/
theorem names_never_reused_partial {ops : List Op} {st : St} (hs : ops.all safe = true) (h : run {} ops = some st) :
    st.given.Nodup ∧ ∃ name st', alloc st = some (name, st') ∧ name ∉ st.given ∧ st'.given = name :: st.given ∧
      ∀ f ∈ st.dir, base f ≠ name := by
  obtain ⟨b, hi⟩ := inv_init.run hs h
  obtain ⟨n, h1, h2, h3, h4, h5⟩ := hi.next
  refine ⟨hi.nodup, fmtNat n, { st with counter := some (n + 1), file := some (fmtNat (n + 1)), given := fmtNat n :: st.given },
    by simp [alloc, h1, h4], h5, rfl, ?_⟩
  intro f hf e
  exact h5 (e ▸ hi.dir f hf)

/-- allocations, files, restarts, crashes and deletions -/
def trace : List Op :=
  [.alloc, .alloc, .create (fmtNat 2) [], .create (fmtNat 1) [46, 105], .restart, .alloc, .crash .before, .alloc, .delete (fmtNat 2), .crash .written, .alloc]

example : trace.all safe = true ∧ (run {} trace).map (·.given) = some [fmtNat 6, fmtNat 4, fmtNat 3, fmtNat 2, fmtNat 1] := by decide +kernel

/-! ## With crashes at any point -/

/-- If the counter file is lost, the next name is one of which no file or increment exists, in any directory. -/
theorem not_of_existing_file {st : St} (hc : st.counter = none) (hf : st.file = none) :
    ∃ name st', alloc st = some (name, st') ∧ (∀ f ∈ st.dir, base f ≠ name) ∧ st'.file = some (fmtNat (scanNextFree st.dir + 1)) := by
  have h1 : nextNumber st = some (scanNextFree st.dir) := by simp [nextNumber, hc, falsy, readNextFree, hf]
  have h2 : ∀ f ∈ st.dir, base f ≠ fmtNat (scanNextFree st.dir) := by
    intro f hm e
    have := scan_spec st.dir f hm (scanNextFree st.dir) (by rw [e]; exact (fmtNat_spec _).2.2)
    omega
  have h3 : fmtNat (scanNextFree st.dir) ∉ st.dir := by
    intro hm
    have e : base (fmtNat (scanNextFree st.dir)) = fmtNat (scanNextFree st.dir) := by
      simpa using base_name (n := scanNextFree st.dir) (s := []) (.inl rfl)
    exact h2 _ hm e
  exact ⟨fmtNat (scanNextFree st.dir),
    { st with counter := some (scanNextFree st.dir + 1), file := some (fmtNat (scanNextFree st.dir + 1)), given := fmtNat (scanNextFree st.dir) :: st.given },
    by simp only [alloc, h1, if_neg h3], h2, rfl⟩

example : (alloc { dir := [fmtNat 7, fmtNat 9 ++ [46, 105], [110]] }).map Prod.fst = some (fmtNat 10) := by decide +kernel

/-- A name is returned never if a file with exactly this name exists, in any directory and whatever the counter is. -/
theorem no_file_with_name {st st' : St} {name : Bytes} (h : alloc st = some (name, st')) : name ∉ st.dir := by
  simp only [alloc] at h
  split at h
  · cases h
  · split at h
    · cases h
    · next hn => simp only [Option.some.injEq, Prod.mk.injEq] at h; rw [← h.1]; exact hn

/-- The claim is false if the program is killed after `next_free` was deleted: a name that was returned, but of which there is no file yet
(for the increments of a file that has not changed so far), is returned again. -/
theorem name_reused_after_crash :
    ∃ st, run {} [.alloc, .crash .deleted, .restart, .alloc] = some st ∧ st.given = [fmtNat 1, fmtNat 1] :=
  ⟨{ dir := [], file := some (fmtNat 2), counter := some 2, given := [fmtNat 1, fmtNat 1] }, by decide +kernel, rfl⟩

/-- … and later even a name of which there are increments. -/
theorem increments_mixed_after_crash :
    ∃ st name st', run {} [.alloc, .alloc, .crash .deleted, .alloc, .create (fmtNat 1) [], .create (fmtNat 2) [46, 105]] = some st ∧
      alloc st = some (name, st') ∧ ∃ f ∈ st.dir, base f = name :=
  ⟨{ dir := [fmtNat 2 ++ [46, 105], fmtNat 1], file := some (fmtNat 2), counter := some 2, given := [fmtNat 1, fmtNat 2, fmtNat 1] }, fmtNat 2,
   { dir := [fmtNat 2 ++ [46, 105], fmtNat 1], file := some (fmtNat 3), counter := some 3, given := [fmtNat 2, fmtNat 1, fmtNat 2, fmtNat 1] },
   by decide +kernel, by decide +kernel, fmtNat 2 ++ [46, 105], by simp, by decide +kernel⟩

/-- If the program is killed when `next_free` is created but not yet written, no name is allocated any more,
whatever happens in the directory (except to `next_free`). -/
theorem stuck_after_crash {st st1 : St} (h : step st (.crash .empty) = some st1) {ops : List Op} {st2 : St} (h2 : run st1 ops = some st2) :
    alloc st2 = none ∧ st2.given = st.given := by
  have h0 : st1.counter = none ∧ st1.file = some [] ∧ st1.given = st.given := by
    simp only [LongNames.step, crashAlloc] at h
    split at h
    · cases h
    · split at h
      · cases h
      · cases h; exact ⟨rfl, rfl, rfl⟩
  have stuck : ∀ s : St, s.counter = none → s.file = some [] → nextNumber s = none := by
    intro s a b
    have : parseNat [] = none := by decide +kernel
    simp [nextNumber, a, b, falsy, readNextFree, this]
  clear h
  generalize st.given = g at h0 ⊢
  induction ops generalizing st1 with
  | nil =>
    cases h2
    exact ⟨by simp [alloc, stuck _ h0.1 h0.2.1], h0.2.2⟩
  | cons op ops ih =>
    simp only [LongNames.run] at h2
    obtain ⟨s, h3, h4⟩ := Option.bind_eq_some_iff.mp h2
    refine ih h4 ?_
    cases op with
    | alloc => simp [LongNames.step, alloc, stuck _ h0.1 h0.2.1] at h3
    | crash p => simp [LongNames.step, crashAlloc, stuck _ h0.1 h0.2.1] at h3
    | restart => cases h3; exact ⟨rfl, h0.2.1, h0.2.2⟩
    | create name suffix =>
      simp only [LongNames.step] at h3
      split at h3
      · cases h3; exact h0
      · cases h3
    | delete f => cases h3; exact h0

example : (run {} [.alloc, .create (fmtNat 1) [], .crash .empty, .restart, .delete (fmtNat 1)]).isSome = true := by decide +kernel

/-! ## Files of a session -/

def Names.list (n : Names) : List Bytes := n.mirror.toList ++ n.inc.toList

/-- the names recorded in metadata -/
def allNames (l : List Names) : List Bytes := l.flatMap Names.list

def Loc.names : Loc → List Bytes
  | .usual => []
  | .long n => [n]

/-- the names in the directory for long names that are used for a file -/
def used (p : Placed) : List Bytes := Loc.names p.mirror ++ Loc.names p.inc

/-- A file of the last session stays where it is: nothing is allocated, and the same names are recorded again. -/
theorem names_stable {it : Item} {st : St} {o : Names} (h : it.old = some o) :
    (∀ m, o.mirror = some m → place it st = some (⟨.long m, .long m, if it.new then some ⟨some m, none⟩ else none⟩, st)) ∧
    (∀ i, o.mirror = none → o.inc = some i →
      place it st = some (⟨.usual, .long i, if it.new then some o else none⟩, st)) := by
  constructor
  · intro m hm
    simp [place, mirTriple, h, hm, findIncPair]
  · intro i hm hi
    obtain ⟨om, oi⟩ := o
    simp only at hm hi
    subst hm hi
    simp [place, mirTriple, h, findIncPair]

example : place { old := some { inc := some (fmtNat 3) }, new := true, fitsMirror := false, fitsInc := false } {} =
    some (⟨.usual, .long (fmtNat 3), some { inc := some (fmtNat 3) }⟩, {}) := by decide +kernel

/-- allocation in a state with `Inv` -/
theorem Inv.alloc {st st' : St} {b : Nat} {n : Bytes} (h : Inv st b) (e : alloc st = some (n, st')) :
    (∃ b', Inv st' b') ∧ n ∉ st.given ∧ st'.given = n :: st.given := by
  obtain ⟨k, h1, h2, h3, h4, h5⟩ := h.next
  simp only [LongNames.alloc, h1, if_neg h4, Option.some.injEq, Prod.mk.injEq] at e
  obtain ⟨rfl, rfl⟩ := e
  exact ⟨⟨_, h2⟩, h5, rfl⟩

/-- One file: what it uses is what it had, or new. -/
theorem place_spec {it : Item} {st st' : St} {b : Nat} {p : Placed} (h : Inv st b) (e : place it st = some (p, st')) :
    (∃ b', Inv st' b') ∧ ∃ new : List Bytes, st'.given = new ++ st.given ∧ (∀ n ∈ new, n ∉ st.given) ∧
      (∀ n ∈ used p, n ∈ new ∨ n ∈ allNames it.old.toList) ∧
      (∀ r, p.recorded = some r → (∀ n ∈ Names.list r, n ∈ used p) ∧ (Names.list r).Nodup) := by
  obtain ⟨old, new, root, fm, fi⟩ := it
  simp only [place] at e
  split at e
  · cases e
  · next m am ai st1 e1 =>
    split at e
    · cases e
    · next ai2 i st2 e2 =>
      simp only [Option.some.injEq, Prod.mk.injEq] at e
      obtain ⟨rfl, rfl⟩ := e
      -- the second part
      have part2 : ∀ {b1 : Nat}, Inv st1 b1 → (∃ b', Inv st2 b') ∧ ∃ nw : List Bytes, st2.given = nw ++ st1.given ∧ (∀ n ∈ nw, n ∉ st1.given) ∧
          (match am with
            | some _ => ai2 = none ∧ i = m ∧ nw = []
            | none => match ai with
              | some a => ai2 = some a ∧ i = .long a ∧ nw = []
              | none => (ai2 = none ∧ i = .usual ∧ nw = []) ∨ ∃ n, ai2 = some n ∧ i = .long n ∧ nw = [n]) := by
        intro b1 hi
        simp only [findIncPair] at e2
        cases am with
        | some a =>
          simp only [Option.some.injEq, Prod.mk.injEq] at e2
          obtain ⟨⟨rfl, rfl⟩, rfl⟩ := e2
          exact ⟨⟨b1, hi⟩, [], rfl, by simp, rfl, rfl, rfl⟩
        | none =>
          cases ai with
          | some a =>
            simp only [Option.some.injEq, Prod.mk.injEq] at e2
            obtain ⟨⟨rfl, rfl⟩, rfl⟩ := e2
            exact ⟨⟨b1, hi⟩, [], rfl, by simp, rfl, rfl, rfl⟩
          | none =>
            simp only at e2
            split at e2
            · simp only [Option.some.injEq, Prod.mk.injEq] at e2
              obtain ⟨⟨rfl, rfl⟩, rfl⟩ := e2
              exact ⟨⟨b1, hi⟩, [], rfl, by simp, .inl ⟨rfl, rfl, rfl⟩⟩
            · split at e2
              · simp only [Option.some.injEq, Prod.mk.injEq] at e2
                obtain ⟨⟨rfl, rfl⟩, rfl⟩ := e2
                exact ⟨⟨b1, hi⟩, [], rfl, by simp, .inl ⟨rfl, rfl, rfl⟩⟩
              · split at e2
                · next n s ea =>
                  simp only [Option.some.injEq, Prod.mk.injEq] at e2
                  obtain ⟨⟨rfl, rfl⟩, rfl⟩ := e2
                  obtain ⟨hi2, hn, hg⟩ := hi.alloc ea
                  exact ⟨hi2, [n], by simp [hg], by simpa using hn, .inr ⟨n, rfl, rfl, rfl⟩⟩
                · cases e2
      -- the first part
      have part1 : (∃ b', Inv st1 b') ∧ ∃ nw : List Bytes, st1.given = nw ++ st.given ∧ (∀ n ∈ nw, n ∉ st.given) ∧
          (match am with
            | some a => m = .long a ∧ (a ∈ nw ∨ a ∈ allNames old.toList)
            | none => m = .usual ∧ nw = [] ∧ ∀ a, ai = some a → a ∈ allNames old.toList) := by
        simp only [mirTriple] at e1
        cases old with
        | some o =>
          obtain ⟨om, oi⟩ := o
          cases om with
          | some a =>
            simp only [Option.some.injEq, Prod.mk.injEq] at e1
            obtain ⟨⟨rfl, rfl, rfl⟩, rfl⟩ := e1
            exact ⟨⟨b, h⟩, [], rfl, by simp, rfl, .inr (by simp [allNames, Names.list])⟩
          | none =>
            simp only [Option.some.injEq, Prod.mk.injEq] at e1
            obtain ⟨⟨rfl, rfl, rfl⟩, rfl⟩ := e1
            refine ⟨⟨b, h⟩, [], rfl, by simp, rfl, rfl, ?_⟩
            intro a ha
            simp [allNames, Names.list, ha]
        | none =>
          simp only at e1
          split at e1
          · split at e1
            · simp only [Option.some.injEq, Prod.mk.injEq] at e1
              obtain ⟨⟨rfl, rfl, rfl⟩, rfl⟩ := e1
              exact ⟨⟨b, h⟩, [], rfl, by simp, rfl, rfl, by simp⟩
            · split at e1
              · next n s ea =>
                simp only [Option.some.injEq, Prod.mk.injEq] at e1
                obtain ⟨⟨rfl, rfl, rfl⟩, rfl⟩ := e1
                obtain ⟨hi2, hn, hg⟩ := h.alloc ea
                exact ⟨hi2, [n], by simp [hg], by simpa using hn, rfl, .inl (by simp)⟩
              · cases e1
          · cases e1
      obtain ⟨⟨b1, hi1⟩, n1, g1, d1, c1⟩ := part1
      obtain ⟨hi2, n2, g2, d2, c2⟩ := part2 hi1
      refine ⟨hi2, n2 ++ n1, by rw [g2, g1, List.append_assoc], ?_, ?_, ?_⟩
      · intro n hn
        rcases List.mem_append.mp hn with hn | hn
        · intro hc; exact d2 n hn (by rw [g1]; exact List.mem_append_right _ hc)
        · exact d1 n hn
      · intro n hn
        cases am with
        | some a =>
          simp only at c1 c2
          obtain ⟨rfl, ca⟩ := c1
          obtain ⟨-, rfl, rfl⟩ := c2
          simp only [used, Loc.names, List.mem_append, List.mem_singleton, or_self] at hn
          subst hn; simpa using ca
        | none =>
          simp only at c1
          obtain ⟨rfl, rfl, ca⟩ := c1
          cases ai with
          | some a =>
            simp only at c2
            obtain ⟨rfl, rfl, rfl⟩ := c2
            simp only [used, Loc.names, List.nil_append, List.mem_singleton] at hn
            subst hn; exact .inr (ca _ rfl)
          | none =>
            rcases c2 with ⟨rfl, rfl, rfl⟩ | ⟨k, rfl, rfl, rfl⟩
            · simp [used, Loc.names] at hn
            · simp only [used, Loc.names, List.nil_append, List.mem_singleton] at hn
              subst hn; simp
      · intro r hr
        simp only at hr
        split at hr
        · simp only [Option.some.injEq] at hr
          subst hr
          cases am with
          | some a =>
            simp only at c1
            obtain ⟨rfl, -⟩ := c1
            simp [Names.list, used, Loc.names]
          | none =>
            cases ai with
            | some a =>
              simp only at c2
              obtain ⟨rfl, rfl, -⟩ := c2
              simp [Names.list, used, Loc.names]
            | none =>
              rcases c2 with ⟨rfl, rfl, -⟩ | ⟨k, rfl, rfl, -⟩ <;> simp [Names.list, used, Loc.names]
        · cases hr

/-- **C42**, for the files of a session: no two of them use the same name in the directory for long names, whether from
the last session or new; and so it is with the names that are recorded. -/
theorem session_names_distinct {st st' : St} {b : Nat} {items : List Item} {ps : List Placed} (h : Inv st b)
    (hn : (allNames (items.filterMap (·.old))).Nodup) (hg : ∀ n ∈ allNames (items.filterMap (·.old)), n ∈ st.given)
    (e : placeAll st items = some (ps, st')) :
    (∃ b', Inv st' b') ∧ (∃ nw : List Bytes, st'.given = nw ++ st.given ∧ (∀ n ∈ nw, n ∉ st.given) ∧
        ∀ p ∈ ps, ∀ n ∈ used p, n ∈ nw ∨ n ∈ allNames (items.filterMap (·.old))) ∧
      ps.Pairwise (fun p q => ∀ n ∈ used p, n ∉ used q) ∧
      (allNames (ps.filterMap (·.recorded))).Nodup ∧ ∀ n ∈ allNames (ps.filterMap (·.recorded)), n ∈ st'.given := by
  induction items generalizing st b ps with
  | nil =>
    cases e
    exact ⟨⟨b, h⟩, ⟨[], rfl, by simp, by simp⟩, .nil, by simp [allNames], by simp [allNames]⟩
  | cons it its ih =>
    simp only [placeAll] at e
    split at e
    · cases e
    · next p st1 e1 =>
      split at e
      · cases e
      · next ps2 st2 e2 =>
        simp only [Option.some.injEq, Prod.mk.injEq] at e
        obtain ⟨rfl, rfl⟩ := e
        obtain ⟨⟨b1, hi1⟩, n1, g1, d1, u1, r1⟩ := place_spec h e1
        have hl : allNames ((it :: its).filterMap (·.old)) = allNames it.old.toList ++ allNames (its.filterMap (·.old)) := by
          cases ho : it.old <;> simp [allNames, ho]
        rw [hl] at hn hg
        obtain ⟨hn1, hn2, hn3⟩ := List.nodup_append.mp hn
        obtain ⟨hi2, ⟨n2, g2, d2, u2⟩, pw, nd, gv⟩ := ih hi1 hn2
          (fun n hm => by rw [g1]; exact List.mem_append_right _ (hg n (List.mem_append_right _ hm))) e2
        have disj : ∀ q ∈ ps2, ∀ n ∈ used p, n ∉ used q := by
          intro q hq n hp hnq
          rcases u1 n hp with a | a
          · rcases u2 q hq n hnq with c | c
            · exact d2 n c (by rw [g1]; exact List.mem_append_left _ a)
            · exact d1 n a (hg n (List.mem_append_right _ c))
          · rcases u2 q hq n hnq with c | c
            · exact d2 n c (by rw [g1]; exact List.mem_append_right _ (hg n (List.mem_append_left _ a)))
            · exact hn3 n a n c rfl
        have recUsed : ∀ n ∈ allNames (ps2.filterMap (·.recorded)), ∃ q ∈ ps2, n ∈ used q := by
          intro n hm
          simp only [allNames, List.mem_flatMap, List.mem_filterMap] at hm
          obtain ⟨r, ⟨q, hq, hr⟩, hm⟩ := hm
          refine ⟨q, hq, ?_⟩
          have : ∀ {its : List Item} {s s' : St} {b : Nat} {ps : List Placed}, Inv s b → placeAll s its = some (ps, s') → ∀ q ∈ ps,
              ∀ r, q.recorded = some r → ∀ n ∈ Names.list r, n ∈ used q := by
            intro its
            induction its with
            | nil => intro s s' b ps _ e; cases e; simp
            | cons x xs ihx =>
              intro s s' b ps hs e
              simp only [placeAll] at e
              split at e
              · cases e
              · next p1 s1 ea =>
                split at e
                · cases e
                · next p2 s2 eb =>
                  simp only [Option.some.injEq, Prod.mk.injEq] at e
                  obtain ⟨rfl, rfl⟩ := e
                  obtain ⟨⟨bb, hb⟩, nn, -, -, -, hr⟩ := place_spec hs ea
                  intro q hq r hqr
                  rcases List.mem_cons.mp hq with rfl | hq
                  · exact (hr r hqr).1
                  · exact ihx hb eb q hq r hqr
          exact this hi1 e2 q hq r hr n hm
        have hl2 : allNames ((p :: ps2).filterMap (·.recorded)) = allNames p.recorded.toList ++ allNames (ps2.filterMap (·.recorded)) := by
          cases ho : p.recorded <;> simp [allNames, ho]
        have hp : ∀ n ∈ allNames p.recorded.toList, n ∈ used p := by
          intro n hm
          cases hr : p.recorded with
          | none => rw [hr] at hm; simp [allNames] at hm
          | some r =>
            rw [hr] at hm
            simp only [allNames, Option.toList_some, List.flatMap_cons, List.flatMap_nil, List.append_nil] at hm
            exact (r1 r hr).1 n hm
        refine ⟨hi2, ⟨n2 ++ n1, by rw [g2, g1, List.append_assoc], ?_, ?_⟩, List.pairwise_cons.mpr ⟨fun q hq => disj q hq, pw⟩, ?_, ?_⟩
        · intro n hm
          rcases List.mem_append.mp hm with hm | hm
          · intro hc; exact d2 n hm (by rw [g1]; exact List.mem_append_right _ hc)
          · exact d1 n hm
        · rw [hl]
          intro q hq n hm
          rcases List.mem_cons.mp hq with rfl | hq
          · rcases u1 n hm with a | a
            · exact .inl (List.mem_append_right _ a)
            · exact .inr (List.mem_append_left _ a)
          · rcases u2 q hq n hm with a | a
            · exact .inl (List.mem_append_left _ a)
            · exact .inr (List.mem_append_right _ a)
        · rw [hl2]
          refine List.nodup_append.mpr ⟨?_, nd, ?_⟩
          · cases hr : p.recorded with
            | none => simp [allNames]
            | some r => simpa [allNames] using (r1 r hr).2
          · rintro n ha m hb rfl
            obtain ⟨q, hq, hnq⟩ := recUsed n hb
            exact disj q hq n (hp n ha) hnq
        · rw [hl2]
          intro n hm
          rcases List.mem_append.mp hm with hm | hm
          · rw [g2, g1]
            rcases u1 n (hp n hm) with a | a
            · exact List.mem_append_right _ (List.mem_append_left _ a)
            · exact List.mem_append_right _ (List.mem_append_right _ (hg n (List.mem_append_left _ a)))
          · exact gv n hm

theorem subperm_names {l r : List Names} (h : List.Subperm l r) : List.Subperm (allNames l) (allNames r) := by
  obtain ⟨l', hp, hs⟩ := h
  refine ⟨allNames l', hp.flatMap_right _, ?_⟩
  clear hp
  unfold allNames
  induction hs with
  | slnil => simp
  | cons a _ ih => rw [List.flatMap_cons]; exact ih.trans (List.sublist_append_right _ _)
  | cons_cons a _ ih => simp only [List.flatMap_cons]; exact (List.Sublist.refl _).append ih

theorem nodup_of_subperm {l r : List Bytes} (h : List.Subperm l r) (hr : r.Nodup) : l.Nodup := by
  obtain ⟨l', hp, hs⟩ := h
  exact (hp.nodup_iff).mp (hr.sublist hs)

/-- A history of sessions; the second argument is what the metadata of the last one records. Between sessions (and in sessions that are killed and
undone) the directory may change as above. -/
inductive History : St → List Names → Prop where
  | init : History {} []
  | between {st st' rec ops} : History st rec → ops.all safe = true → run st ops = some st' → History st' rec
  | session {st st' rec items ps} : History st rec → List.Subperm (items.filterMap (·.old)) rec → placeAll st items = some (ps, st') →
      History st' (ps.filterMap (·.recorded))

theorem run_given {st st' : St} {ops : List Op} (e : run st ops = some st') : ∀ n ∈ st.given, n ∈ st'.given := by
  induction ops generalizing st with
  | nil => cases e; exact fun n h => h
  | cons op ops ih =>
    simp only [LongNames.run] at e
    obtain ⟨s, h3, h4⟩ := Option.bind_eq_some_iff.mp e
    intro n hn
    refine ih h4 n ?_
    cases op with
    | alloc =>
      simp only [LongNames.step, LongNames.alloc] at h3
      split at h3
      · cases h3
      · split at h3
        · cases h3
        · cases h3; exact List.mem_cons_of_mem _ hn
    | crash p =>
      simp only [LongNames.step, crashAlloc] at h3
      split at h3
      · cases h3
      · split at h3
        · cases h3
        · cases h3; exact hn
    | restart => cases h3; exact hn
    | create name suffix =>
      simp only [LongNames.step] at h3
      split at h3
      · cases h3; exact hn
      · cases h3
    | delete f => cases h3; exact hn

theorem history_inv {st : St} {rec : List Names} (h : History st rec) :
    (∃ b, Inv st b) ∧ (allNames rec).Nodup ∧ ∀ n ∈ allNames rec, n ∈ st.given := by
  induction h with
  | init => exact ⟨⟨1, inv_init⟩, by simp [allNames], by simp [allNames]⟩
  | between _ hs e ih =>
    obtain ⟨⟨b, hb⟩, h2, h3⟩ := ih
    exact ⟨hb.run hs e, h2, fun n hn => run_given e n (h3 n hn)⟩
  | session _ hsub e ih =>
    obtain ⟨⟨b, hb⟩, h2, h3⟩ := ih
    have hs : List.Subperm (allNames (List.filterMap (fun x : Item => x.old) _)) (allNames _) := subperm_names hsub
    obtain ⟨a, -, -, c, d⟩ := session_names_distinct hb (nodup_of_subperm hs h2) (fun n hn => h3 n (hs.subset hn)) e
    exact ⟨a, c, d⟩

/-- **C42**, partial, for whole histories of sessions: in the metadata of every session, no name occurs twice; and in the next session again no
two files use the same name. -/
theorem history_names_distinct_partial {st st' : St} {rec : List Names} {items : List Item} {ps : List Placed} (h : History st rec)
    (hi : List.Subperm (items.filterMap (·.old)) rec) (e : placeAll st items = some (ps, st')) :
    st.given.Nodup ∧ (allNames rec).Nodup ∧ ps.Pairwise (fun p q => ∀ n ∈ used p, n ∉ used q) ∧
      ∀ p ∈ ps, ∀ n ∈ used p, n ∉ allNames rec → n ∉ st.given := by
  obtain ⟨⟨b, hb⟩, h2, h3⟩ := history_inv h
  have hs := subperm_names hi
  obtain ⟨-, ⟨nw, -, hd, hu⟩, c, -, -⟩ := session_names_distinct hb (nodup_of_subperm hs h2) (fun n hn => h3 n (hs.subset hn)) e
  refine ⟨hb.nodup, h2, c, ?_⟩
  intro p hp n hn hr
  rcases hu p hp n hn with a | a
  · exact hd n a
  · exact absurd (hs.subset a) hr

/-- In the first session `a` gets a name for its increments; then it is changed, and `b`, which is too long, is new. -/
example : ∃ st st' rec items ps, History st rec ∧ List.Subperm (items.filterMap (fun x : Item => x.old)) rec ∧
    placeAll st items = some (ps, st') ∧ rec = [{ inc := some (fmtNat 1) }] ∧
    ps.map used = [[fmtNat 1], [fmtNat 3, fmtNat 3]] := by
  let i1 : List Item := [{ old := none, new := true, fitsMirror := true, fitsInc := false }]
  let r1 := (placeAll {} i1).get (by decide +kernel)
  let ops : List Op := [.restart, .alloc, .crash .before, .restart]
  let s2 := (run r1.2 ops).get (by decide +kernel)
  let i2 : List Item := [{ old := some { inc := some (fmtNat 1) }, new := true, fitsMirror := true, fitsInc := false },
    { old := none, new := true, fitsMirror := false, fitsInc := false }]
  let r3 := (placeAll s2 i2).get (by decide +kernel)
  have e : r1.1.filterMap (·.recorded) = [{ inc := some (fmtNat 1) }] := by decide +kernel
  refine ⟨s2, r3.2, r1.1.filterMap (·.recorded), i2, r3.1,
    .between (.session (st' := r1.2) (ps := r1.1) (items := i1) .init List.nil_subperm (by decide +kernel)) (ops := ops) (by decide +kernel) (by decide +kernel),
    ?_, by decide +kernel, e, by decide +kernel⟩
  rw [e]
  exact List.Subperm.refl _

end Verif.C42
