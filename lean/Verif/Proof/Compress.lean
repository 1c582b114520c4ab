import Verif.Spec.Compress
import Mathlib.Order.MinMax
import Mathlib.Data.List.Perm.Subperm
/-
Every increment is written in a way that its name tells how to read it.
-/
namespace Verif.Compress
open Verif.IncName Verif.C22

/-- the data which a list of increments (oldest first) and the mirror stand for -/
def chain (C : Codec) (m : Option Node) : List (IncInfo × Node) → Option Bytes
  | [] => match m with | some (.reg b) => some b | _ => none
  | (i, .reg b) :: l =>
    if i.type = .diff then (chain C m l).bind fun fp => (decode C i.compressed b).bind (C.patch fp)
    else if i.type = .snapshot then decode C i.compressed b else none
  | (_, .other _) :: _ => none

theorem decode_encode {C : Codec} (hC : C.Lawful) (c : Bool) (b : Bytes) : decode C c (encode C c b) = some b := by
  cases c
  · rfl
  · exact hC.gzip b

/-! ### Reading -/

/-- what is read of a list of increments, newest last -/
def eval (C : Codec) (l : List (IncInfo × Option Node)) : Option Bytes :=
  match l.reverse with
  | x :: r => (firstFp C x).bind fun fp => applyDiffs C fp r
  | [] => none

theorem applyDiffs_append (C : Codec) (l1 l2 : List (IncInfo × Option Node)) (fp : Bytes) :
    applyDiffs C fp (l1 ++ l2) = (applyDiffs C fp l1).bind fun fp => applyDiffs C fp l2 := by
  induction l1 generalizing fp with
  | nil => rfl
  | cons x r ih =>
    obtain ⟨i, x⟩ := x
    rcases x with _ | b | x
    · rfl
    · simp only [List.cons_append, applyDiffs]
      split
      · cases (decode C i.compressed b).bind (C.patch fp) with
        | none => rfl
        | some fp => exact ih fp
      · rfl
    · rfl

theorem eval_cons {C : Codec} {i : IncInfo} {b : Bytes} {l : List (IncInfo × Option Node)} (hi : i.type = .diff) (hl : l ≠ []) :
    eval C ((i, some (.reg b)) :: l) = (eval C l).bind fun fp => (decode C i.compressed b).bind (C.patch fp) := by
  unfold eval
  obtain ⟨x, r, e⟩ := List.exists_cons_of_ne_nil (show l.reverse ≠ [] by simpa using hl)
  rw [List.reverse_cons, e, List.cons_append]
  simp only
  cases firstFp C x with
  | none => rfl
  | some fp =>
    simp only [Option.bind_some, applyDiffs_append]
    cases applyDiffs C fp r with
    | none => rfl
    | some fp =>
      simp only [Option.bind_some, applyDiffs, hi, if_true]
      cases (decode C i.compressed b).bind (C.patch fp) <;> rfl

theorem upTo_ne_nil (m : IncInfo × Option Node) (l : List (IncInfo × Node)) : upTo m l ≠ [] := by
  cases l with
  | nil => simp [upTo]
  | cons x l =>
    obtain ⟨i, x⟩ := x
    simp only [upTo]
    split <;> simp

theorem eval_chain {C : Codec} {m : Option Node} {j : IncInfo} (hj : j.type = .snapshot) (hj' : j.compressed = false) {l : List (IncInfo × Node)} {b : Bytes}
    (h : chain C m l = some b) : eval C (upTo (j, m) l) = some b ∧ ∃ i c r, upTo (j, m) l = (i, some (.reg c)) :: r := by
  induction l generalizing b with
  | nil =>
    rcases m with _ | c | x
    · cases h
    · cases h
      refine ⟨?_, j, b, [], rfl⟩
      simp [upTo, eval, firstFp, hj, hj', decode, applyDiffs]
    · cases h
  | cons x l ih =>
    obtain ⟨i, x⟩ := x
    rcases x with c | x
    · simp only [chain] at h
      simp only [upTo]
      split at h
      · rename_i hd
        obtain ⟨fp, h1, h2⟩ := Option.bind_eq_some_iff.mp h
        rw [if_pos hd]
        refine ⟨?_, _, _, _, rfl⟩
        rw [eval_cons hd (upTo_ne_nil _ _), (ih h1).1]
        exact h2
      · rename_i hd
        rw [if_neg hd]
        refine ⟨?_, _, _, _, rfl⟩
        split at h
        · rename_i hs
          simp [eval, firstFp, hs, h, applyDiffs]
        · cases h
    · cases h

/-! ### Sorting -/

theorem insertInc_perm (x : IncInfo × Node) (l : List (IncInfo × Node)) : (insertInc x l).Perm (x :: l) := by
  induction l with
  | nil => exact .refl _
  | cons y l ih =>
    simp only [insertInc]
    split
    · exact .refl _
    · exact (ih.cons y).trans (.swap x y l)

theorem sort_perm (l : List (IncInfo × Node)) : (l.foldr insertInc []).Perm l := by
  induction l with
  | nil => exact .refl _
  | cons x l ih => exact (insertInc_perm _ _).trans (ih.cons x)

theorem insertInc_sorted {x : IncInfo × Node} {l : List (IncInfo × Node)} (h : l.Pairwise (fun a b => a.1.time ≤ b.1.time)) :
    (insertInc x l).Pairwise (fun a b => a.1.time ≤ b.1.time) := by
  induction l with
  | nil => simp [insertInc]
  | cons y l ih =>
    have h1 := List.pairwise_cons.mp h
    simp only [insertInc]
    split
    · rename_i hle
      refine List.pairwise_cons.mpr ⟨fun z hz => ?_, h⟩
      rcases List.mem_cons.mp hz with rfl | hz
      · exact hle
      · exact Int.le_trans hle (h1.1 z hz)
    · rename_i hle
      refine List.pairwise_cons.mpr ⟨fun z hz => ?_, ih h1.2⟩
      rcases List.mem_cons.mp ((insertInc_perm x l).mem_iff.mp hz) with rfl | hz
      · omega
      · exact h1.1 z hz

theorem sort_sorted (l : List (IncInfo × Node)) : (l.foldr insertInc []).Pairwise (fun a b => a.1.time ≤ b.1.time) := by
  induction l with
  | nil => simp
  | cons x l ih => exact insertInc_sorted ih

theorem sort_eq {p l : List (IncInfo × Node)} (hp : p.Perm l) (hl : l.Pairwise (fun a b => a.1.time < b.1.time)) : p.foldr insertInc [] = l := by
  refine ((sort_perm p).trans hp).eq_of_pairwise (le := fun a b => a.1.time ≤ b.1.time) ?_ (sort_sorted p) (hl.imp fun h => Int.le_of_lt h)
  intro a b ha hb h1 h2
  have ha := ((sort_perm p).trans hp).mem_iff.mp ha
  clear hp
  induction l with
  | nil => cases ha
  | cons x l ih =>
    have h := List.pairwise_cons.mp hl
    rcases List.mem_cons.mp ha with e | ha'
    · rcases List.mem_cons.mp hb with e' | hb'
      · rw [e, e']
      · have := h.1 _ hb'; rw [e] at h2; omega
    · rcases List.mem_cons.mp hb with e' | hb'
      · have := h.1 _ ha'; rw [e'] at h1; omega
      · exact ih h.2 hb' ha'

theorem newerIncs_eq {t : Int} {p l : List (IncInfo × Node)} (hp : p.Perm l) (hl : l.Pairwise (fun a b => a.1.time < b.1.time)) :
    newerIncs t p = l.filter fun x => t ≤ x.1.time :=
  sort_eq (hp.filter _) (hl.filter _)

/-! ### A new increment -/

theorem chain_snoc {C : Codec} {m m' : Option Node} {e : IncInfo × Node} (he : ∀ b, m = some (.reg b) → chain C m' [e] = some b) {l : List (IncInfo × Node)} {b : Bytes}
    (h : chain C m l = some b) : chain C m' (l ++ [e]) = some b := by
  induction l generalizing b with
  | nil =>
    rcases m with _ | c | x
    · cases h
    · cases h; exact he _ rfl
    · cases h
  | cons x l ih =>
    obtain ⟨i, x⟩ := x
    rcases x with c | x
    · simp only [chain, List.cons_append] at h ⊢
      split at h
      · obtain ⟨fp, h1, h2⟩ := Option.bind_eq_some_iff.mp h
        rw [if_pos (by assumption), ih h1]
        exact h2
      · rw [if_neg (by assumption)]; exact h
    · cases h

theorem makeIncrement_type (C : Codec) (s : Settings) (n : Name) (new old : Option Node) : (makeIncrement C s n new old).1 ≠ .data := by
  unfold makeIncrement
  split
  · simp
  · split <;> simp [diffIncrement, snapshotIncrement]

theorem makeIncrement_chain {C : Codec} (hC : C.Lawful) (s : Settings) (n : Name) (new old : Option Node) (t : Int) (b : Bytes) (h : old = some (.reg b)) :
    chain C new [(⟨(makeIncrement C s n new old).2.1, t, (makeIncrement C s n new old).1, n⟩, (makeIncrement C s n new old).2.2)] = some b := by
  subst h
  rcases new with _ | c | x
  · simp [makeIncrement, snapshotIncrement, Node.isReg, copy, chain, decode_encode hC]
  · simp [makeIncrement, diffIncrement, chain, decode_encode hC, hC.rdiff]
  · simp [makeIncrement, snapshotIncrement, Node.isReg, copy, chain, decode_encode hC]

theorem incsOf_append (l l' : List (Name × Node)) (n : Name) : incsOf (l ++ l') n = incsOf l n ++ incsOf l' n := by
  unfold incsOf; exact List.filterMap_append

theorem incsOf_new {compat : Bool} {off t : Int} (h : Readable off t) {ty : IncType} (hty : ty ≠ .data) (gz : Bool) (n m : Name) (x : Node) :
    incsOf [(incName compat off n t ty gz, x)] m = if n = m then [(⟨gz, t, ty, n⟩, x)] else [] := by
  unfold incsOf
  simp only [List.filterMap_cons, List.filterMap_nil, name_roundtrip_partial compat off n t ty gz h]
  by_cases e : n = m <;> simp [e, hty]

/-! ### The invariant -/

/-- for a file: mirror and increments, all older than `T`; `P`: the backups so far -/
structure FileInv (C : Codec) (P : List Session) (T : Int) (n : Name) (m : Option Node) (l : List (IncInfo × Node)) : Prop where
  old : ∀ x ∈ l, x.1.time < T
  sorted : l.Pairwise (fun a b => a.1.time < b.1.time)
  data : ∀ s ∈ P, ∀ b, s.files n = some (.reg b) → chain C m (l.filter fun x => s.time ≤ x.1.time) = some b

theorem FileInv.step {C : Codec} (hC : C.Lawful) {P : List Session} {T T' : Int} {n : Name} {m : Option Node} {l : List (IncInfo × Node)} (h : FileInv C P T n m l)
    (hT : T < T') (hP : ∀ s ∈ P, s.time ≤ T) (s : Settings) (new : Option Node) :
    FileInv C P T' n new (l ++ [(⟨(makeIncrement C s n new m).2.1, T, (makeIncrement C s n new m).1, n⟩, (makeIncrement C s n new m).2.2)]) where
  old := by
    intro x hx
    rcases List.mem_append.mp hx with hx | hx
    · exact Int.lt_trans (h.old x hx) hT
    · rw [List.mem_singleton.mp hx]; exact hT
  sorted := by
    refine List.pairwise_append.mpr ⟨h.sorted, by simp, ?_⟩
    intro a ha b hb
    rw [List.mem_singleton.mp hb]
    exact h.old a ha
  data := by
    intro p hp b hb
    have h1 := h.data p hp b hb
    rw [List.filter_append]
    have : [((⟨(makeIncrement C s n new m).2.1, T, (makeIncrement C s n new m).1, n⟩ : IncInfo), (makeIncrement C s n new m).2.2)].filter (fun x => p.time ≤ x.1.time) =
        [(⟨(makeIncrement C s n new m).2.1, T, (makeIncrement C s n new m).1, n⟩, (makeIncrement C s n new m).2.2)] := by
      simp [hP p hp]
    rw [this]
    exact chain_snoc (fun c hc => makeIncrement_chain hC s n new m T c hc) h1

theorem FileInv.mono {C : Codec} {P : List Session} {T T' : Int} {n : Name} {m : Option Node} {l : List (IncInfo × Node)} (h : FileInv C P T n m l) (hT : T ≤ T') :
    FileInv C P T' n m l := ⟨fun x hx => Int.lt_of_lt_of_le (h.old x hx) hT, h.sorted, h.data⟩

/-- while a backup runs; `old`: the mirror before -/
def During (C : Codec) (P : List Session) (s : Session) (old : Name → Option Node) (R : Repo) : Prop :=
  ∀ n, FileInv C P s.time n (R.mirror n) (incsOf R.incs n) ∧ (R.mirror n ≠ s.files n → R.mirror n = old n ∧ FileInv C P R.time n (R.mirror n) (incsOf R.incs n))

theorem stepFile_spec {C : Codec} (hC : C.Lawful) {P : List Session} {s : Session} {old : Name → Option Node} {R : Repo} (h : During C P s old R) (ht : R.time < s.time)
    (hr : Readable s.off R.time) (hP : ∀ p ∈ P, p.time ≤ R.time) (n : Name) :
    ∃ R', stepFile C s R n = some R' ∧ R'.time = R.time ∧ During C P s old R' ∧ R'.mirror n = s.files n ∧ ∀ m, R.mirror m = s.files m → R'.mirror m = s.files m := by
  unfold stepFile
  by_cases e : R.mirror n = s.files n
  · rw [if_pos e]
    exact ⟨R, rfl, rfl, h, e, fun _ h => h⟩
  · rw [if_neg e]
    simp only
    obtain ⟨-, h2⟩ := h n
    obtain ⟨-, h3⟩ := h2 e
    rw [if_neg ?_]
    · refine ⟨_, rfl, rfl, ?_, by simp, ?_⟩
      · intro m
        simp only [incsOf_append, incsOf_new hr (makeIncrement_type _ _ _ _ _)]
        by_cases hm : m = n
        · subst hm
          simp only [if_true]
          exact ⟨h3.step hC ht hP s.settings (s.files m), fun hne => absurd rfl hne⟩
        · rw [if_neg hm, if_neg (Ne.symm hm), List.append_nil]
          exact h m
      · intro m hm
        simp only
        split
        · rename_i e; rw [e]
        · exact hm
    · intro hc
      obtain ⟨⟨name, x⟩, hx, hn⟩ := List.mem_map.mp hc
      simp only at hn
      have : (⟨(makeIncrement C s.settings n (s.files n) (R.mirror n)).2.1, R.time, (makeIncrement C s.settings n (s.files n) (R.mirror n)).1, n⟩, x) ∈ incsOf R.incs n := by
        unfold incsOf
        refine List.mem_filterMap.mpr ⟨_, hx, ?_⟩
        simp only [hn, name_roundtrip_partial _ _ _ _ _ _ hr]
        simp [makeIncrement_type C s.settings n (s.files n) (R.mirror n)]
      exact absurd (h3.old _ this) (Int.lt_irrefl _)

theorem stepFiles_spec {C : Codec} (hC : C.Lawful) {P : List Session} {s : Session} {old : Name → Option Node} {R : Repo} (h : During C P s old R) (ht : R.time < s.time)
    (hr : Readable s.off R.time) (hP : ∀ p ∈ P, p.time ≤ R.time) (order : List Name) :
    ∃ R', stepFiles C s order R = some R' ∧ R'.time = R.time ∧ During C P s old R' ∧ ∀ m, m ∈ order ∨ R.mirror m = s.files m → R'.mirror m = s.files m := by
  induction order generalizing R with
  | nil => exact ⟨R, rfl, rfl, h, fun m hm => hm.resolve_left (by simp)⟩
  | cons n r ih =>
    obtain ⟨R1, e1, t1, h1, h2, h3⟩ := stepFile_spec hC h ht hr hP n
    obtain ⟨R2, e2, t2, h4, h5⟩ := ih h1 (by omega) (by rw [t1]; exact hr) (by rw [t1]; exact hP)
    refine ⟨R2, ?_, t2.trans t1, h4, ?_⟩
    · simp only [stepFiles, e1, Option.bind_some, e2]
    · intro m hm
      rcases hm with hm | hm
      · rcases List.mem_cons.mp hm with rfl | hm
        · exact h5 m (Or.inr h2)
        · exact h5 m (Or.inl hm)
      · exact h5 m (Or.inr (h3 m hm))

/-- after backups -/
structure Inv (C : Codec) (P : List Session) (last : Session) (R : Repo) : Prop where
  time : R.time = last.time
  mirror : R.mirror = last.files
  past : ∀ s ∈ P, s.time ≤ R.time
  files : ∀ n, FileInv C P R.time n (R.mirror n) (incsOf R.incs n)

theorem filter_nil {t : Int} {l : List (IncInfo × Node)} (h : ∀ x ∈ l, x.1.time < t) : l.filter (fun x => t ≤ x.1.time) = [] := by
  rw [List.filter_eq_nil_iff]
  intro x hx
  have := h x hx
  simp only [decide_eq_true_eq]
  omega

theorem backup_spec {C : Codec} (hC : C.Lawful) {P : List Session} {last s : Session} {R : Repo} (h : Inv C P last R) (ht : last.time < s.time) (hr : Readable s.off last.time)
    {order : List Name} (ho : ∀ n, last.files n ≠ s.files n → n ∈ order) : ∃ R', backup C s order R = some R' ∧ Inv C (s :: P) s R' := by
  rw [← h.time] at ht hr
  obtain ⟨R1, e, t1, h1, h2⟩ := stepFiles_spec (old := R.mirror) hC (R := R) (fun n => ⟨(h.files n).mono (Int.le_of_lt ht), fun _ => ⟨rfl, h.files n⟩⟩) ht hr h.past order
  have hm : R1.mirror = s.files := by
    funext n
    by_cases hn : last.files n = s.files n
    · exact h2 n (Or.inr (by rw [h.mirror]; exact hn))
    · exact h2 n (Or.inl (ho n hn))
  refine ⟨{ R1 with time := s.time }, by rw [backup, e]; rfl, rfl, hm, ?_, ?_⟩
  · intro p hp
    rcases List.mem_cons.mp hp with rfl | hp
    · exact Int.le_refl _
    · exact Int.le_trans (h.past p hp) (Int.le_of_lt ht)
  · intro n
    obtain ⟨h3, -⟩ := h1 n
    refine ⟨h3.old, h3.sorted, ?_⟩
    intro p hp b hb
    rcases List.mem_cons.mp hp with rfl | hp
    · rw [filter_nil h3.old]
      simp only [hm, hb]; rfl
    · exact h3.data p hp b hb

/-- all backups -/
theorem history_spec {C : Codec} (hC : C.Lawful) (first : Session) (rest : List (Session × List Name)) (h : Good first rest) :
    ∃ R, history C first rest = some R ∧ Inv C (rest.map Prod.fst ++ [first]) (lastOf first rest) R := by
  induction rest with
  | nil =>
    refine ⟨_, rfl, rfl, rfl, by simp, fun n => ⟨by simp [incsOf], by simp [incsOf], ?_⟩⟩
    intro s hs b hb
    rw [List.map_nil, List.nil_append, List.mem_singleton] at hs
    subst hs
    simp [incsOf, hb, chain]
  | cons x r ih =>
    obtain ⟨s, order⟩ := x
    obtain ⟨h0, h1, h2, h3⟩ := h
    obtain ⟨R, e, hR⟩ := ih h0
    obtain ⟨R', e', hR'⟩ := backup_spec hC hR h1 h2 h3
    exact ⟨R', by rw [history, e]; exact e', hR'⟩

/-- what is restored -/
theorem restore_spec {C : Codec} {P : List Session} {last : Session} {R : Repo} (h : Inv C P last R) {dir : List (Name × Node)} (hd : dir.Perm R.incs) {s : Session} (hs : s ∈ P)
    {n : Name} {b : Bytes} (hb : s.files n = some (.reg b)) : restoreData C dir R s.time n = some b := by
  have hf := h.files n
  have hp : (incsOf dir n).Perm (incsOf R.incs n) := hd.filterMap _
  have hc := hf.data s hs b hb
  have key : ∀ {l}, chain C (R.mirror n) l = some b → relevantIncs s.time R.time (incsOf dir n) (R.mirror n) n = upTo (⟨false, R.time, .snapshot, n⟩, R.mirror n) l →
      restoreData C dir R s.time n = some b := by
    intro l h1 h2
    obtain ⟨h3, i, c, r, h4⟩ := eval_chain (j := ⟨false, R.time, .snapshot, n⟩) rfl rfl h1
    unfold restoreData
    rw [h2]
    simp only
    unfold eval at h3
    rw [h4] at h3 ⊢
    exact h3
  refine key hc ?_
  unfold relevantIncs
  simp only
  rw [newerIncs_eq hp hf.sorted]
  split
  · rename_i h1
    rcases (Bool.or_eq_true _ _).mp h1 with h1 | h1
    · rw [List.isEmpty_iff] at h1
      rw [h1] at hp
      rw [hp.symm.eq_nil]
      rfl
    · rw [filter_nil (fun x hx => Int.lt_of_lt_of_le (hf.old x hx) (by simpa using h1))]
      rfl
  · rfl

end Verif.Compress

namespace Verif.Compress
open Verif.IncName Verif.C22

/-! ### Which increments are compressed -/

/-- an increment made by `s`, when the mirror was `old` -/
def AsTold (s : Session) (old : Name → Option Node) (name : Name) : Prop :=
  ∃ i, parseIncName name = some i ∧
    (i.compressed = true ↔ s.settings.compression = true ∧ (∀ r, s.settings.notCompressed = some r → r i.base = false) ∧ ∃ b, old i.base = some (.reg b))

theorem isCompressed_iff (s : Settings) (n : Name) : isCompressed s n = true ↔ s.compression = true ∧ ∀ r, s.notCompressed = some r → r n = false := by
  obtain ⟨c, r⟩ := s
  rcases r with _ | r <;> simp [isCompressed]

theorem makeIncrement_told (C : Codec) (s : Settings) (n : Name) (new old : Option Node) :
    (makeIncrement C s n new old).2.1 = true ↔ s.compression = true ∧ (∀ r, s.notCompressed = some r → r n = false) ∧ ∃ b, old = some (.reg b) := by
  rw [← and_assoc, ← isCompressed_iff]
  rcases old with _ | c | x
  · simp [makeIncrement]
  · rcases new with _ | d | y <;> simp [makeIncrement, snapshotIncrement, diffIncrement, Node.isReg]
  · rcases new with _ | d | y <;> simp [makeIncrement, snapshotIncrement, Node.isReg]

theorem stepFiles_told {C : Codec} {s : Session} {old : Name → Option Node} {R : Repo} (hr : Readable s.off R.time) (hm : ∀ n, R.mirror n ≠ s.files n → R.mirror n = old n)
    (order : List Name) {R' : Repo} (h : stepFiles C s order R = some R') {e : Name × Node} (he : e ∈ R'.incs) : e ∈ R.incs ∨ AsTold s old e.1 := by
  induction order generalizing R with
  | nil => cases h; exact Or.inl he
  | cons n r ih =>
    obtain ⟨R1, h1, h2⟩ := Option.bind_eq_some_iff.mp h
    unfold stepFile at h1
    split at h1
    · cases h1
      exact ih hr hm h2
    · rename_i hne
      simp only at h1
      split at h1
      · cases h1
      · simp only [Option.some.injEq] at h1
        subst h1
        rcases ih (by exact hr) (by
          intro m hmm
          simp only at hmm ⊢
          split
          · rename_i e; rw [if_pos e, e] at hmm; exact absurd rfl hmm
          · rename_i e; rw [if_neg e] at hmm; exact hm m hmm) h2 with h3 | h3
        · rcases List.mem_append.mp h3 with h3 | h3
          · exact Or.inl h3
          · right
            rw [List.mem_singleton.mp h3]
            exact ⟨_, name_roundtrip_partial _ _ _ _ _ _ hr, by rw [← hm n hne]; exact makeIncrement_told _ _ _ _ _⟩
        · exact Or.inr h3

end Verif.Compress
