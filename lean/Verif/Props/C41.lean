import Verif.Model.SStats
import Verif.Proof.MetaRecord
import Mathlib.Data.List.Induction
/-
C41: session statistics add up, and are read back from the file.
-/
namespace Verif.SStats
open Verif.Quoting Verif.MetaRecord Verif.FlatFile

/-! ## Specification -/

/-- bytes of a file: only regular files have any -/
def bytes : Option File → Nat
  | some f => if f.reg then f.size else 0
  | none => 0

/-- the pairs, increments and number of errors among the events -/
def pairsOf (evs : List Event) : List Pair := evs.filterMap fun | .pair p => some p | _ => none
def incsOf (evs : List Event) : List File := evs.filterMap fun | .increment f => some f | _ => none
def errsOf (evs : List Event) : List Unit := evs.filterMap fun | .error => some () | _ => none

/-- Pairs of which nothing is known to have gone wrong: not different, or dealt with. -/
def Pair.counted (p : Pair) : Bool := !p.changed || p.success ≠ .none
/-- Pairs that were dealt with. -/
def Pair.done (p : Pair) : Bool := p.success ≠ .none
/-- Dealt with and new, gone, on both sides. -/
def Pair.isNew (p : Pair) : Bool := p.done && p.src.isSome && p.dst.isNone
def Pair.isGone (p : Pair) : Bool := p.done && p.src.isNone && p.dst.isSome
def Pair.isBoth (p : Pair) : Bool := p.done && p.src.isSome && p.dst.isSome

/-- the files of a pair exist -/
def Pair.Real (p : Pair) : Prop := (∀ f, p.src = some f → f.there = true) ∧ (∀ f, p.dst = some f → f.there = true)

/-- the sum over those that satisfy `q` -/
def total {β : Type} (l : List β) (q : β → Bool) (f : β → Nat) : Nat := ((l.filter q).map f).sum

/-- The numbers in the statistics, in terms of what happened. -/
def expected (evs : List Event) : Totals :=
  let ps := pairsOf evs
  { sourceFiles := ps.countP (fun p => p.counted && p.src.isSome)
    sourceFileSize := total ps Pair.counted (fun p => bytes p.src)
    mirrorFiles := ps.countP (fun p => p.counted && p.dst.isSome)
    mirrorFileSize := total ps Pair.counted (fun p => bytes p.dst)
    newFiles := ps.countP Pair.isNew
    newFileSize := total ps Pair.isNew (fun p => bytes p.src)
    deletedFiles := ps.countP Pair.isGone
    deletedFileSize := total ps Pair.isGone (fun p => bytes p.dst)
    changedFiles := ps.countP Pair.isBoth
    changedSourceSize := total ps Pair.isBoth (fun p => bytes p.src)
    changedMirrorSize := total ps Pair.isBoth (fun p => bytes p.dst)
    incrementFiles := (incsOf evs).length
    incrementFileSize := total (incsOf evs) (fun _ => true) (fun f => bytes (some f))
    errors := (errsOf evs).length }

/-! ## Totals are sums -/

theorem total_append {β : Type} (l : List β) (x : β) (q : β → Bool) (f : β → Nat) :
    total (l ++ [x]) q f = total l q f + if q x then f x else 0 := by
  unfold total
  rw [List.filter_append]
  by_cases h : q x <;> simp [h]

theorem countP_append_one {β : Type} (l : List β) (x : β) (q : β → Bool) :
    (l ++ [x]).countP q = l.countP q + if q x then 1 else 0 := by
  rw [List.countP_append]; by_cases h : q x <;> simp [h]

theorem pairsOf_snoc (l : List Event) (e : Event) : pairsOf (l ++ [e]) = pairsOf l ++ (match e with | .pair p => [p] | _ => []) := by
  unfold pairsOf; rw [List.filterMap_append]; cases e <;> rfl
theorem incsOf_snoc (l : List Event) (e : Event) : incsOf (l ++ [e]) = incsOf l ++ (match e with | .increment p => [p] | _ => []) := by
  unfold incsOf; rw [List.filterMap_append]; cases e <;> rfl
theorem errsOf_snoc (l : List Event) (e : Event) : errsOf (l ++ [e]) = errsOf l ++ (match e with | .error => [()] | _ => []) := by
  unfold errsOf; rw [List.filterMap_append]; cases e <;> rfl

theorem expected_snoc (l : List Event) (e : Event) (h : ∀ p, e = .pair p → p.Real) :
    expected (l ++ [e]) = step (expected l) e := by
  cases e with
  | error =>
    simp only [expected, pairsOf_snoc, incsOf_snoc, errsOf_snoc, List.append_nil, step]
    simp
  | increment f =>
    simp only [expected, pairsOf_snoc, incsOf_snoc, errsOf_snoc, List.append_nil, step, addIncrement, total_append]
    by_cases hf : f.reg <;> simp [hf, bytes]
  | pair p =>
    obtain ⟨h1, h2⟩ := h p rfl
    obtain ⟨src, dst, ch, su⟩ := p
    simp only [expected, pairsOf_snoc, incsOf_snoc, errsOf_snoc, List.append_nil, step, postProcess, total_append,
      countP_append_one, Pair.counted, Pair.isNew, Pair.isGone, Pair.isBoth, Pair.done]
    cases src with
    | none =>
      cases dst with
      | none => cases ch <;> cases su <;> simp [addChanged, present, bytes]
      | some d =>
        obtain ⟨dt, dr, ds⟩ := d
        have := h2 _ rfl; simp only at this; subst this
        cases ch <;> cases su <;> cases dr <;> simp [addChanged, present, bytes, addDestFile]
    | some s =>
      obtain ⟨st, sr, ss⟩ := s
      have := h1 _ rfl; simp only at this; subst this
      cases dst with
      | none => cases ch <;> cases su <;> cases sr <;> simp [addChanged, present, bytes, addSourceFile]
      | some d =>
        obtain ⟨dt, dr, ds⟩ := d
        have := h2 _ rfl; simp only at this; subst this
        cases ch <;> cases su <;> cases dr <;> cases sr <;> simp [addChanged, present, bytes, addDestFile, addSourceFile]

/-- **C41.** After any sequence of events (of files that exist), every number in the statistics is the sum over the
files it is about. -/
theorem totals_are_sums (evs : List Event) (h : ∀ p ∈ pairsOf evs, p.Real) : session evs = expected evs := by
  induction evs using List.reverseRecOn with
  | nil => rfl
  | append_singleton l e ih =>
    have h1 : ∀ p ∈ pairsOf l, p.Real := fun p hp => h p (by rw [pairsOf_snoc]; exact List.mem_append_left _ hp)
    rw [expected_snoc l e (fun p hp => h p (by rw [pairsOf_snoc, hp]; simp)), ← ih h1]
    simp [session]

/-- a new regular file, a deleted one, a changed one, an unchanged one, one that failed, two increments and an error -/
def evs0 : List Event :=
  [.pair ⟨some ⟨true, true, 7⟩, none, true, .updated⟩, .increment ⟨true, true, 0⟩,
   .pair ⟨none, some ⟨true, true, 100⟩, true, .deleted⟩, .pair ⟨some ⟨true, true, 50⟩, some ⟨true, true, 20⟩, true, .updated⟩,
   .pair ⟨some ⟨true, true, 1000⟩, some ⟨true, true, 1000⟩, false, .none⟩, .error,
   .pair ⟨some ⟨true, true, 1⟩, some ⟨true, true, 2⟩, true, .none⟩, .increment ⟨true, true, 35⟩]

example : ∀ p ∈ pairsOf evs0, p.Real := by
  intro p hp
  simp only [pairsOf, evs0, List.filterMap_cons, List.filterMap_nil, List.mem_cons, List.not_mem_nil, or_false] at hp
  rcases hp with rfl | rfl | rfl | rfl | rfl <;> constructor <;> intro f hf <;> cases hf <;> rfl

example : session evs0 =
    { sourceFiles := 3, sourceFileSize := 1057, mirrorFiles := 3, mirrorFileSize := 1120, newFiles := 1, newFileSize := 7,
      deletedFiles := 1, deletedFileSize := 100, changedFiles := 1, changedSourceSize := 50, changedMirrorSize := 20,
      incrementFiles := 2, incrementFileSize := 35, errors := 1 } := by decide +kernel

/-! ## Source minus mirror -/

/-- What the backup loop guarantees for a pair which is neither flagged as changed nor dealt with: it was found equal
(RS 581-594), so both files are there and have as many bytes. -/
def Pair.Equal (p : Pair) : Prop := p.src.isSome = true ∧ p.dst.isSome = true ∧ bytes p.src = bytes p.dst

theorem total_cons {β : Type} (l : List β) (x : β) (q : β → Bool) (f : β → Nat) :
    total (x :: l) q f = (if q x then f x else 0) + total l q f := by
  unfold total; by_cases h : q x <;> simp [h]

theorem countP_cons' {β : Type} (l : List β) (x : β) (q : β → Bool) :
    (x :: l).countP q = (if q x then 1 else 0) + l.countP q := by
  rw [List.countP_cons]; by_cases h : q x <;> simp [h, Nat.add_comm]

/-- **C41.** For any sequence of events in which the pairs not marked as changed are equal: source files minus mirror
files is new files minus deleted files, and the bytes in the source minus those in the mirror are explained by the new, the
deleted and the changed files. -/
theorem balance (evs : List Event) (h : ∀ p ∈ pairsOf evs, p.Real)
    (heq : ∀ p ∈ pairsOf evs, p.changed = false → p.success = .none → p.Equal) :
    let t := session evs
    t.sourceFiles + t.deletedFiles = t.mirrorFiles + t.newFiles ∧
    t.sourceFileSize + t.deletedFileSize + t.changedMirrorSize = t.mirrorFileSize + t.newFileSize + t.changedSourceSize := by
  simp only
  rw [totals_are_sums evs h]
  simp only [expected]
  generalize pairsOf evs = ps at *
  clear h
  induction ps with
  | nil => simp [total]
  | cons p ps ih =>
    have ih := ih (fun q hq => heq q (List.mem_cons_of_mem _ hq))
    have hp := heq p List.mem_cons_self
    simp only [total_cons, countP_cons']
    obtain ⟨src, dst, ch, su⟩ := p
    simp only [Pair.counted, Pair.isNew, Pair.isGone, Pair.isBoth, Pair.done, Pair.Equal] at *
    cases src <;> cases dst <;> cases ch <;> cases su <;> simp [bytes] at * <;> omega

example : ∀ p ∈ pairsOf evs0, p.changed = false → p.success = .none → p.Equal := by
  intro p hp
  simp only [pairsOf, evs0, List.filterMap_cons, List.filterMap_nil, List.mem_cons, List.not_mem_nil, or_false] at hp
  rcases hp with rfl | rfl | rfl | rfl | rfl <;> intro h1 h2 <;> first | exact ⟨rfl, rfl, rfl⟩ | cases h1

/-- **C41, finding.** The assumption is not always met: a pair that differs, but whose mirror file is no regular file any
more when its signature is asked for (RS 615-625), is not flagged, and the numbers then do not add up. -/
theorem balance_fails_without_signature : ∃ evs : List Event, (∀ p ∈ pairsOf evs, p.Real) ∧
    (session evs).sourceFileSize + (session evs).deletedFileSize + (session evs).changedMirrorSize ≠
      (session evs).mirrorFileSize + (session evs).newFileSize + (session evs).changedSourceSize := by
  refine ⟨[.pair ⟨some ⟨true, true, 5⟩, some ⟨true, true, 9⟩, false, .none⟩], ?_, by decide⟩
  intro p hp
  cases (List.mem_singleton.mp hp)
  exact ⟨fun f hf => by cases hf; rfl, fun f hf => by cases hf; rfl⟩

/-- Failures: pairs that were found different and not dealt with do not change any number. -/
theorem failed_not_counted (evs evs' : List Event) (p : Pair) (h1 : p.changed = true) (h2 : p.success = .none) :
    session (evs ++ .pair p :: evs') = session (evs ++ evs') := by
  simp [session, List.foldl_append, step, postProcess, h1, h2]

example : session (evs0 ++ .pair ⟨some ⟨true, true, 5⟩, none, true, .none⟩ :: [.error]) = session (evs0 ++ [.error]) := by decide +kernel

/-! ## The statistics file -/

/-- The object after writing: elapsed time and total change have been filled in. -/
def filled (s : Obj) : Obj := (s.set .ElapsedTime (elapsed s)).set .TotalDestinationSizeChange (totalDestSizeChange s)

/-- whole numbers up to 2^53 -/
def Whole (v : Option Int) : Prop := ∀ x, v = some x → ∃ n : Int, x = 100 * n ∧ n.natAbs ≤ 2 ^ 53

/-- the object holds whole numbers, except for the times -/
def Writable (s : Obj) : Prop :=
  (∀ a ∈ fileAttrs, Whole (s a)) ∧ Whole (s .Errors) ∧ Whole (totalDestSizeChange s)

theorem toDouble_exact {n : Nat} (h : n ≤ 2 ^ 53) : toDouble n = n := by
  unfold toDouble
  by_cases h1 : n < 2 ^ 53
  · rw [if_pos h1]
  · have : n = 2 ^ 53 := by omega
    subst this; decide +kernel

/-- a byte of a number -/
def numByte (c : UInt8) : Bool := isDigit c || c == 45 || c == 46

/-- A text that `float` reads as `x`, without white space. -/
def Reads (w : Bytes) (x : Int) : Prop := parseDec w = some x ∧ w ≠ [] ∧ w.all numByte = true

theorem numByte_of_digit {c : UInt8} (h : isDigit c = true) : numByte c = true := by simp [numByte, h]

theorem not_dot_of_digits {l : Bytes} (h : l.all isDigit = true) : (46 : UInt8) ∉ l := by
  intro hm
  have := List.all_eq_true.mp h _ hm
  revert this; decide

theorem all_num_of_digits {l : Bytes} (h : l.all isDigit = true) : l.all numByte = true := by
  rw [List.all_eq_true] at *
  exact fun c hc => numByte_of_digit (h c hc)

theorem parseAbs_fmtNat {n : Nat} (h : n ≤ 2 ^ 53) : parseAbs (fmtNat n) = some (100 * n) := by
  have ⟨_, h2, h3⟩ := fmtNat_spec n
  unfold parseAbs
  rw [splitOn_last (not_dot_of_digits h2)]
  simp [h3, toDouble_exact h]

theorem parseDec_pos {w : Bytes} (hne : w ≠ []) (h : ∀ c ∈ w, c ≠ 45) : parseDec w = (parseAbs w).map fun n : Nat => (n : Int) := by
  cases w with
  | nil => exact absurd rfl hne
  | cons c w =>
    unfold parseDec
    split
    · next heq => cases heq; exact absurd rfl (h _ List.mem_cons_self)
    · rfl

theorem fmtInt_reads {n : Int} (h : n.natAbs ≤ 2 ^ 53) : Reads (fmtInt n) (100 * n) := by
  have ⟨h1, h2, h3⟩ := fmtNat_spec n.natAbs
  have hp := parseAbs_fmtNat h
  unfold fmtInt
  by_cases hn : n < 0
  · rw [if_pos hn]
    refine ⟨?_, by simp, by simp [all_num_of_digits h2, numByte]⟩
    have e : parseDec (45 :: fmtNat n.natAbs) = (parseAbs (fmtNat n.natAbs)).map (fun n : Nat => -(n : Int)) := by
      simp [parseDec]
    rw [e, hp]
    refine congrArg some ?_
    show -((100 * n.natAbs : Nat) : Int) = _
    omega
  · rw [if_neg hn]
    refine ⟨?_, h1, all_num_of_digits h2⟩
    rw [parseDec_pos h1 (fun c hc => (digit_ne (List.all_eq_true.mp h2 c hc)).2.2), hp]
    refine congrArg some ?_
    show ((100 * n.natAbs : Nat) : Int) = _
    omega

theorem fmtCent_reads (x : Int) : Reads (fmtCent x) x := by
  have ⟨h1, h2, h3⟩ := fmtNat_spec (x.natAbs / 100)
  have d1 := digit_props (x.natAbs % 100 / 10) (by omega)
  have d2 := digit_props (x.natAbs % 10) (by omega)
  have hf : parseNat [UInt8.ofNat (48 + x.natAbs % 100 / 10), UInt8.ofNat (48 + x.natAbs % 10)] = some (x.natAbs % 100) := by
    unfold parseNat
    rw [if_pos ⟨by simp, by simp only [List.all_cons, d1.1, d2.1, List.all_nil, Bool.and_self]⟩]
    simp only [List.foldl_cons, List.foldl_nil, d1.2, d2.2, Option.some.injEq]
    omega
  have hd : (46 : UInt8) ∉ [UInt8.ofNat (48 + x.natAbs % 100 / 10), UInt8.ofNat (48 + x.natAbs % 10)] :=
    not_dot_of_digits (by simp only [List.all_cons, d1.1, d2.1, List.all_nil, Bool.and_self])
  have hp : parseAbs (fmtNat (x.natAbs / 100) ++ [46, UInt8.ofNat (48 + x.natAbs % 100 / 10), UInt8.ofNat (48 + x.natAbs % 10)])
      = some x.natAbs := by
    unfold parseAbs
    rw [splitOn_cons (not_dot_of_digits h2), splitOn_last hd]
    simp only [List.length_cons, List.length_nil, if_pos, h3, hf, Option.some.injEq]
    omega
  have hall : (fmtNat (x.natAbs / 100) ++ [46, UInt8.ofNat (48 + x.natAbs % 100 / 10), UInt8.ofNat (48 + x.natAbs % 10)]).all numByte = true := by
    simp only [List.all_append, all_num_of_digits h2, List.all_cons, numByte_of_digit d1.1, numByte_of_digit d2.1, List.all_nil]
    decide
  unfold fmtCent
  by_cases hn : x < 0
  · rw [if_pos hn, List.append_assoc]
    refine ⟨?_, by simp, ?_⟩
    · generalize fmtNat (x.natAbs / 100) ++ _ = w at hp
      have e : parseDec ([45] ++ w) = (parseAbs w).map (fun n : Nat => -(n : Int)) := by simp [parseDec]
      rw [e, hp]
      refine congrArg some ?_
      show -((x.natAbs : Nat) : Int) = _
      omega
    · rw [List.all_append, hall]; rfl
  · rw [if_neg hn, List.nil_append]
    refine ⟨?_, by simp, hall⟩
    rw [parseDec_pos (by simp), hp]
    · refine congrArg some ?_
      show ((x.natAbs : Nat) : Int) = _
      omega
    · intro c hc
      rcases List.mem_append.mp hc with hc | hc
      · exact (digit_ne (List.all_eq_true.mp h2 c hc)).2.2
      · simp only [List.mem_cons, List.not_mem_nil, or_false] at hc
        rcases hc with rfl | rfl | rfl
        · decide
        · exact (digit_ne d1.1).2.2
        · exact (digit_ne d2.1).2.2

theorem splitWs_word {l : Bytes} (h : ∀ c ∈ l, isSpace c = false) (r : Bytes) :
    splitWs (l ++ 32 :: r) = l :: splitWs r := by
  induction l with
  | nil => rfl
  | cons c l ih =>
    simp only [List.mem_cons, forall_eq_or_imp] at h
    rw [List.cons_append, splitWs, ih h.2]
    simp [h.1]

theorem splitWs_last {l : Bytes} (h : ∀ c ∈ l, isSpace c = false) : splitWs l = [l] := by
  induction l with
  | nil => rfl
  | cons c l ih =>
    simp only [List.mem_cons, forall_eq_or_imp] at h
    rw [splitWs, ih h.2]
    simp [h.1]

theorem num_not_space {c : UInt8} (h : numByte c = true) : isSpace c = false ∧ c ≠ 10 := by
  have key : ∀ n < 256, numByte (UInt8.ofNat n) = true → isSpace (UInt8.ofNat n) = false ∧ UInt8.ofNat n ≠ 10 := by decide +kernel
  have := key c.toNat c.toNat_lt
  rw [UInt8.ofNat_toNat] at this
  exact this h

theorem name_ok (a : Attr) : (∀ c ∈ a.name, isSpace c = false) ∧ a.name ≠ [] ∧ (10 : UInt8) ∉ a.name ∧
    allAttrs.find? (fun b => b.name = a.name) = some a := by
  cases a <;> decide +kernel

/-- one line is read back -/
theorem readLine_line (s : Obj) (a : Attr) {w : Bytes} {x : Int} (h : Reads w x) (tail : Bytes)
    (ht : tail = [] ∨ ∃ r, tail = 32 :: r) :
    readLine s (a.name ++ 32 :: w ++ tail) = some (s.set a (some x)) := by
  obtain ⟨h1, h2, h3, h4⟩ := name_ok a
  have hw : ∀ c ∈ w, isSpace c = false := fun c hc => (num_not_space (List.all_eq_true.mp h.2.2 c hc)).1
  have hwords : ∃ more, words (a.name ++ 32 :: w ++ tail) = a.name :: w :: more := by
    unfold words
    rw [List.append_assoc, List.cons_append, splitWs_word h1]
    rcases ht with rfl | ⟨r, rfl⟩
    · rw [List.append_nil, splitWs_last hw]
      exact ⟨[], by simp [h2, h.2.1]⟩
    · rw [splitWs_word hw]
      exact ⟨_, by simp [h2, h.2.1]; rfl⟩
  obtain ⟨more, hm⟩ := hwords
  unfold readLine
  rw [if_neg (by simp [h2]), hm]
  simp only [h4, h.1, Option.map_some]

theorem readStats_cons (s : Obj) {l : Bytes} (h : nl ∉ l) (r : Bytes) :
    readStats (l ++ nl :: r) s = (readLine s l).bind (readStats r) := by
  unfold readStats
  rw [splitLines_line h]
  simp only [List.foldlM_cons]
  rfl

/-- reading a line of the file -/
theorem readStats_line (s : Obj) (a : Attr) {w : Bytes} {x : Int} (h : Reads w x) (p : Option Bytes)
    (hp : ∀ q, p = some q → (10 : UInt8) ∉ q) (r : Bytes) :
    readStats (statLine a w p ++ r) s = readStats r (s.set a (some x)) := by
  obtain ⟨h1, h2, h3, h4⟩ := name_ok a
  have hw : (10 : UInt8) ∉ w := fun hm => (num_not_space (List.all_eq_true.mp h.2.2 _ hm)).2 rfl
  unfold statLine
  cases p with
  | none =>
    simp only [List.append_nil]
    have e : a.name ++ 32 :: w ++ [10] ++ r = (a.name ++ 32 :: w ++ []) ++ nl :: r := by simp [nl]
    rw [e, readStats_cons, readLine_line s a h [] (.inl rfl)]
    · rfl
    · simp [nl, h3, hw]
  | some q =>
    have hq := hp q rfl
    simp only
    have e : a.name ++ 32 :: w ++ (32 :: 40 :: q ++ [41]) ++ [10] ++ r = (a.name ++ 32 :: w ++ (32 :: 40 :: q ++ [41])) ++ nl :: r := by
      simp [nl]
    rw [e, readStats_cons, readLine_line s a h (32 :: 40 :: q ++ [41]) (.inr ⟨_, rfl⟩)]
    · rfl
    · simp [nl, h3, hw, hq]

/-- an attribute that may be missing: the value of the line wins -/
def Obj.upd (s : Obj) (a : Attr) (v : Option Int) : Obj :=
  match v with
  | some x => s.set a (some x)
  | none => s

theorem whole_reads {v : Option Int} (h : Whole v) {x : Int} (hx : v = some x) : Reads (fmtInt (x / 100)) x := by
  obtain ⟨n, rfl, hn⟩ := h x hx
  rw [show (100 * n : Int) / 100 = n by omega]
  exact fmtInt_reads hn

variable {pretty : Attr → Int → Bytes}

theorem read_timeLine (hp : ∀ a x, (10 : UInt8) ∉ pretty a x) (s : Obj) (a : Attr) (v : Option Int) (r : Bytes) :
    readStats (timeLine pretty a v ++ r) s = readStats r (s.upd a v) := by
  cases v with
  | none => rfl
  | some x => exact readStats_line s a (fmtCent_reads x) (some (pretty a x)) (by rintro _ ⟨⟩; exact hp a x) r

theorem read_fileLines (hp : ∀ a x, (10 : UInt8) ∉ pretty a x) (o : Obj) (l : List Attr) (h : ∀ a ∈ l, Whole (o a)) (r : Bytes)
    (s : Obj) : readStats (l.flatMap (fileLine pretty o) ++ r) s = readStats r (l.foldl (fun s a => s.upd a (o a)) s) := by
  induction l generalizing s with
  | nil => rfl
  | cons a l ih =>
    rw [List.flatMap_cons, List.append_assoc, List.foldl_cons, ← ih (fun b hb => h b (List.mem_cons_of_mem _ hb))]
    unfold fileLine
    cases ha : o a with
    | none => rfl
    | some x =>
      refine readStats_line s a (whole_reads (h a List.mem_cons_self) ha) _ ?_ _
      intro q hq
      split at hq
      · cases hq; exact hp a x
      · cases hq

theorem foldl_upd (o : Obj) (l : List Attr) (s : Obj) (b : Attr) :
    l.foldl (fun s a => s.upd a (o a)) s b = if b ∈ l then (if (o b).isSome then o b else s b) else s b := by
  induction l generalizing s with
  | nil => simp
  | cons a l ih =>
    rw [List.foldl_cons, ih]
    by_cases hb : b = a
    · subst hb
      cases ho : o b with
      | none => simp [Obj.upd]
      | some x => simp [Obj.upd, Obj.set]
    · cases ho : o a <;> simp [Obj.upd, Obj.set, hb]

/-- **C41.** The statistics file is read back: for any object with whole numbers up to 2^53 and any times, with whatever
explanations in parentheses, reading what was written gives the same object, including the elapsed time and the total change. -/
theorem stats_read_back (hp : ∀ a x, (10 : UInt8) ∉ pretty a x) (s : Obj) (h : Writable s) :
    readStats (statsString pretty s) (fun _ => none) = some (filled s) := by
  obtain ⟨h1, h2, h3⟩ := h
  unfold statsString miscString
  rw [List.append_assoc, List.append_assoc, List.append_assoc, read_timeLine hp, read_timeLine hp, read_timeLine hp,
    read_fileLines hp s fileAttrs h1]
  have e1 : ∀ (o : Obj) r, readStats (totalLine pretty (totalDestSizeChange s) ++ r) o =
      readStats r (o.upd .TotalDestinationSizeChange (totalDestSizeChange s)) := by
    intro o r
    cases ht : totalDestSizeChange s with
    | none => rfl
    | some x => exact readStats_line o _ (whole_reads h3 ht) (some (pretty _ x)) (by rintro _ ⟨⟩; exact hp _ x) r
  have e2 : ∀ (o : Obj), readStats (errorsLine (s .Errors)) o = some (o.upd .Errors (s .Errors)) := by
    intro o
    cases ht : s .Errors with
    | none => rfl
    | some x =>
      have := readStats_line o .Errors (whole_reads h2 ht) none (by simp) []
      rw [List.append_nil] at this
      exact this
  rw [e1, e2]
  congr 1
  funext b
  have hu : ∀ (o : Obj) a v, o.upd a v b = if b = a then (if v.isSome then v else o b) else o b := by
    intro o a v; cases v <;> simp [Obj.upd, Obj.set]
  rw [hu, hu, foldl_upd, hu, hu, hu]
  simp only [filled, Obj.set]
  cases b <;> simp [fileAttrs] <;> exact fun h => h.symm

/-- the tracker's numbers as an object, with times in hundredths of a second -/
def Totals.obj (t : Totals) (start stop : Int) : Obj
  | .StartTime => some start
  | .EndTime => some stop
  | .ElapsedTime => none
  | .Errors => some (100 * t.errors)
  | .TotalDestinationSizeChange => none
  | .SourceFiles => some (100 * t.sourceFiles)
  | .SourceFileSize => some (100 * t.sourceFileSize)
  | .MirrorFiles => some (100 * t.mirrorFiles)
  | .MirrorFileSize => some (100 * t.mirrorFileSize)
  | .NewFiles => some (100 * t.newFiles)
  | .NewFileSize => some (100 * t.newFileSize)
  | .DeletedFiles => some (100 * t.deletedFiles)
  | .DeletedFileSize => some (100 * t.deletedFileSize)
  | .ChangedFiles => some (100 * t.changedFiles)
  | .ChangedSourceSize => some (100 * t.changedSourceSize)
  | .ChangedMirrorSize => some (100 * t.changedMirrorSize)
  | .IncrementFiles => some (100 * t.incrementFiles)
  | .IncrementFileSize => some (100 * t.incrementFileSize)

/-- the statistics of the example session, written and read -/
example : Writable ((session evs0).obj 100000 100250) := by
  have hw : ∀ n : Nat, n ≤ 2 ^ 53 → Whole (some (100 * (n : Int))) := by
    rintro n hn x ⟨⟩; exact ⟨n, rfl, by omega⟩
  refine ⟨?_, hw 1 (by decide), ?_⟩
  · intro a ha
    simp only [fileAttrs, List.mem_cons, List.not_mem_nil, or_false] at ha
    rcases ha with rfl | rfl | rfl | rfl | rfl | rfl | rfl | rfl | rfl | rfl | rfl | rfl | rfl <;>
      exact hw _ (by decide +kernel)
  · intro x hx
    exact ⟨-28, by have : totalDestSizeChange ((session evs0).obj 100000 100250) = some (-2800) := by decide +kernel
                   rw [this] at hx; cases hx; rfl, by decide⟩

/-- **C41.** What a session writes to its statistics file and reads back: the start and end time, their difference, all the
sums, and the change of the size of the repository: new, changed and increment bytes, less deleted and old bytes. -/
theorem session_file (hp : ∀ a x, (10 : UInt8) ∉ pretty a x) (t : Totals) (start stop : Int)
    (hb : t.sourceFiles ≤ 2 ^ 53 ∧ t.sourceFileSize ≤ 2 ^ 53 ∧ t.mirrorFiles ≤ 2 ^ 53 ∧ t.mirrorFileSize ≤ 2 ^ 53 ∧
      t.newFiles ≤ 2 ^ 53 ∧ t.deletedFiles ≤ 2 ^ 53 ∧ t.changedFiles ≤ 2 ^ 53 ∧ t.incrementFiles ≤ 2 ^ 53 ∧ t.errors ≤ 2 ^ 53 ∧
      t.newFileSize + t.changedSourceSize + t.incrementFileSize ≤ 2 ^ 53 ∧ t.deletedFileSize + t.changedMirrorSize ≤ 2 ^ 53) :
    ∃ o, readStats (statsString pretty (t.obj start stop)) (fun _ => none) = some o ∧
      o .StartTime = some start ∧ o .EndTime = some stop ∧ o .ElapsedTime = some (stop - start) ∧
      o .TotalDestinationSizeChange = some (100 * ((t.newFileSize + t.changedSourceSize + t.incrementFileSize : Int)
        - (t.deletedFileSize + t.changedMirrorSize))) ∧
      o .Errors = some (100 * (t.errors : Int)) ∧ ∀ a ∈ fileAttrs, o a = t.obj start stop a := by
  obtain ⟨b1, b2, b3, b4, b5, b6, b7, b8, b9, b10, b11⟩ := hb
  have hw : ∀ n : Nat, n ≤ 2 ^ 53 → Whole (some (100 * (n : Int))) := by
    rintro n hn x ⟨⟩; exact ⟨n, rfl, by omega⟩
  have ht : totalDestSizeChange (t.obj start stop) = some (100 * ((t.newFileSize + t.changedSourceSize + t.incrementFileSize : Int)
        - (t.deletedFileSize + t.changedMirrorSize))) := by
    simp only [totalDestSizeChange, Totals.obj, Option.some.injEq]; omega
  have hwr : Writable (t.obj start stop) := by
    refine ⟨?_, hw _ b9, ?_⟩
    · intro a ha
      simp only [fileAttrs, List.mem_cons, List.not_mem_nil, or_false] at ha
      rcases ha with rfl | rfl | rfl | rfl | rfl | rfl | rfl | rfl | rfl | rfl | rfl | rfl | rfl <;>
        exact hw _ (by omega)
    · intro x hx
      rw [ht] at hx; cases hx
      exact ⟨_, rfl, by omega⟩
  refine ⟨_, stats_read_back hp _ hwr, rfl, rfl, rfl, ?_, rfl, ?_⟩
  · exact ht
  · intro a ha
    simp only [fileAttrs, List.mem_cons, List.not_mem_nil, or_false] at ha
    rcases ha with rfl | rfl | rfl | rfl | rfl | rfl | rfl | rfl | rfl | rfl | rfl | rfl | rfl <;> rfl

/-- the whole file of a small session -/
example : ∀ pretty : Attr → Int → Bytes, (pretty = fun _ _ => lit "x") →
    (readStats (statsString pretty ((session evs0).obj 100000 100250)) (fun _ => none)).map (fun o =>
      (o .StartTime, o .ElapsedTime, o .SourceFileSize, o .TotalDestinationSizeChange))
      = some (some 100000, some 250, some 105700, some (-2800)) := by
  rintro _ rfl; decide +kernel

/-- **C41, finding.** Numbers above 2^53 are read through a double, and change: 2^53 + 1 bytes are read as 2^53. -/
theorem big_sizes_change : ∃ s : Obj, (∀ a ∈ fileAttrs, ∀ x, s a = some x → ∃ n : Int, x = 100 * n) ∧
    (readStats (statsString (fun _ _ => []) s) (fun _ => none)).map (fun o => o .SourceFileSize) ≠ some (s .SourceFileSize) := by
  refine ⟨fun a => if a = .SourceFileSize then some (100 * (2 ^ 53 + 1)) else none, ?_, by decide +kernel⟩
  intro a ha x hx
  simp only at hx
  split at hx
  · cases hx; exact ⟨_, rfl⟩
  · cases hx

/-! ## Averages -/

theorem avg_fold_none (vs : List (Option Int)) : vs.foldl avgStep none = none := by
  induction vs with
  | nil => rfl
  | cons v vs ih => cases v <;> exact ih

theorem avg_fold (vs : List (Option Int)) (x : Int) :
    vs.foldl avgStep (some x) = if vs.all Option.isSome then some (x + (vs.filterMap id).sum) else none := by
  induction vs generalizing x with
  | nil => simp
  | cons v vs ih =>
    cases v with
    | none => simp only [List.foldl_cons, avgStep, avg_fold_none]; simp
    | some y =>
      simp only [List.foldl_cons, avgStep, Option.map_some, ih]
      by_cases h : vs.all Option.isSome = true
      · rw [if_pos h, if_pos (by simpa using h)]
        simp; omega
      · rw [if_neg h, if_neg (by simpa using h)]

/-- **C41.** The average over any statistics files: for each attribute which all of them have, the sum of the values over the
number of files; no value if one file has none, and never for the start and end time; an error without files. -/
theorem average (l : List Obj) :
    (l = [] → calcAverage l = none) ∧
    (l ≠ [] → ∃ avg, calcAverage l = some avg ∧ avg .StartTime = none ∧ avg .EndTime = none ∧
      ∀ a, a ≠ .StartTime → a ≠ .EndTime →
        (∀ vs : List Int, l.map (fun s => s a) = vs.map some → avg a = some (vs.sum, l.length)) ∧
        ((∃ s ∈ l, s a = none) → avg a = none)) := by
  refine ⟨by rintro rfl; rfl, ?_⟩
  intro hne
  refine ⟨_, if_neg (by simpa using hne), rfl, rfl, ?_⟩
  intro a h1 h2
  have key : l.foldl (fun acc s => avgStep acc (s a)) (some 0) = (l.map (fun s => s a)).foldl avgStep (some 0) := by
    rw [List.foldl_map]
  constructor
  · intro vs hvs
    simp only [h1, h2, or_self, if_false]
    rw [key, hvs, avg_fold]
    rw [if_pos (by simp)]
    simp
  · rintro ⟨s, hs, ha⟩
    simp only [h1, h2, or_self, if_false]
    rw [key, avg_fold, if_neg]
    · rfl
    · simp only [List.all_map, List.all_eq_true, not_forall]
      exact ⟨s, hs, by simp [ha]⟩

example : (calcAverage [(session evs0).obj 0 0, (session []).obj 0 0]).map (fun f => (f .SourceFileSize, f .StartTime))
    = some (some (105700, 2), none) := by decide +kernel

end Verif.SStats
