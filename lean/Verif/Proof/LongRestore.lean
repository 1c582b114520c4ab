import Verif.Model.LongRestore
import Verif.Props.C42
import Mathlib.Order.MinMax
/-
Lemmas for C80: the chain of increments of one file, and where files are put.
-/
namespace Verif.LongRestore
open Verif.LongNames Verif.Quoting Verif.MetaRecord Verif.C42

set_option linter.unusedSectionVars false

variable {I C A : Type} [DecidableEq I] [DecidableEq C] [DecidableEq A]

/-! ### Chains of increments -/

/-- From the oldest: the increments lead to the data `c`, from a snapshot (`none`) or from the data `d` in the mirror. -/
inductive Leads : List (Inc C) → C → Option C → Prop
  | nil {c} : Leads [] c (some c)
  | diff {l b c e} : Leads l b e → Leads (.diff b c :: l) c e
  | snap {l c} : Leads (.snapshot (some c) :: l) c none

theorem Leads.append {l l' : List (Inc C)} {c : C} (h : Leads l c none) : Leads (l ++ l') c none := by
  generalize he : (none : Option C) = e at h
  induction h with
  | nil => cases he
  | diff _ ih => exact .diff (ih he)
  | snap => exact .snap

theorem Leads.snoc {l : List (Inc C)} {c d : C} (d' : C) (h : Leads l c (some d)) : Leads (l ++ [.diff d' d]) c (some d') := by
  generalize he : some d = e at h
  induction h with
  | nil => cases he; exact .diff .nil
  | diff _ ih => exact .diff (ih he)
  | snap => cases he

theorem Leads.close {l : List (Inc C)} {c d : C} (h : Leads l c (some d)) : Leads (l ++ [.snapshot (some d)]) c none := by
  generalize he : some d = e at h
  induction h with
  | nil => cases he; exact .snap
  | diff _ ih => exact .diff (ih he)
  | snap => cases he

theorem applyAll_append {x y : C} {l l' : List (Entry C)} (h : applyAll x l = some y) : applyAll x (l ++ l') = applyAll y l' := by
  induction l generalizing x with
  | nil => simp only [applyAll, Option.some.injEq] at h; rw [h]; rfl
  | cons e l ih =>
    match e with
    | .mirror _ => simp [applyAll] at h
    | .inc .missing => simp [applyAll] at h
    | .inc (.snapshot _) => simp [applyAll] at h
    | .inc (.diff b c) =>
      simp only [applyAll, List.cons_append] at h ⊢
      split at h
      · next hb => rw [if_pos hb]; exact ih h
      · cases h

/-- What the code does with such a chain. -/
theorem Leads.fold {l : List (Inc C)} {c : C} {e : Option C} (h : Leads l c e) (m : Option (Option C))
    (hm : ∀ d, e = some d → m = some (some d)) :
    ∃ hd tl x, (upTo m l).reverse = hd :: tl ∧ (hd = .mirror (some (some x)) ∨ hd = .inc (.snapshot (some x))) ∧ applyAll x tl = some c ∧
      ∀ z, (upTo m l).head? = some z → z.isReg = true := by
  induction h with
  | @nil c => exact ⟨.mirror m, [], c, by simp [upTo], Or.inl (by rw [hm c rfl]), rfl, by simp [upTo, hm c rfl, Entry.isReg]⟩
  | @diff l b c e _ ih =>
    obtain ⟨hd, tl, x, h1, h2, h3, -⟩ := ih hm
    refine ⟨hd, tl ++ [.inc (.diff b c)], x, by simp [upTo, h1], h2, ?_, by simp [upTo, Entry.isReg]⟩
    rw [applyAll_append h3]
    simp [applyAll]
  | @snap l c => exact ⟨.inc (.snapshot (some c)), [], c, by simp [upTo], Or.inr rfl, rfl, by simp [upTo, Entry.isReg]⟩

theorem restoreFp_leads {l : List (Inc C)} {c : C} {e : Option C} (h : Leads l c e) (m : Option (Option C)) (empty : C)
    (hm : ∀ d, e = some d → m = some (some d)) : restoreFp empty (upTo m l).reverse = some c := by
  obtain ⟨hd, tl, x, h1, h2, h3, h4⟩ := h.fold m hm
  have hne : (upTo m l) ≠ [] := by intro h0; rw [h0] at h1; cases h1
  obtain ⟨z, hz⟩ : ∃ z, (upTo m l).head? = some z := by
    cases hq : upTo m l with
    | nil => exact absurd hq hne
    | cons a b => exact ⟨a, rfl⟩
  have hl : (upTo m l).reverse.getLast? = some z := by rw [List.getLast?_reverse, hz]
  rw [h1] at hl ⊢
  simp only [restoreFp, hl, h4 z hz]
  rcases h2 with rfl | rfl <;> simpa using h3

/-- the increments that are not older, in the order in which they were made -/
def newer (t : Nat) (l : List (Nat × Inc C)) : List (Inc C) := (l.filter fun x => t ≤ x.1).map Prod.snd

theorem sort_sorted {l : List (Nat × Inc C)} (h : l.Pairwise (fun a b => a.1 < b.1)) : l.foldr insertInc [] = l := by
  induction l with
  | nil => rfl
  | cons x l ih =>
    obtain ⟨h1, h2⟩ := List.pairwise_cons.mp h
    rw [List.foldr_cons, ih h2]
    cases l with
    | nil => rfl
    | cons y l =>
      have := h1 y (by simp)
      simp only [insertInc]
      rw [if_pos (by omega)]

theorem newerIncs_eq {t : Nat} {l : List (Nat × Inc C)} (h : l.Pairwise (fun a b => a.1 < b.1)) : newerIncs t l = newer t l := by
  simp only [newerIncs, newer]
  rw [sort_sorted (h.filter _)]

theorem newer_snoc {t u : Nat} {l : List (Nat × Inc C)} (x : Inc C) (h : t ≤ u) : newer t (l ++ [(u, x)]) = newer t l ++ [x] := by
  simp [newer, h]

theorem newer_nil {t : Nat} {l : List (Nat × Inc C)} (h : ∀ x ∈ l, x.1 < t) : newer t l = [] := by
  simp only [newer, List.map_eq_nil_iff, List.filter_eq_nil_iff]
  intro x hx
  have := h x hx
  simp only [decide_eq_true_eq]
  omega

/-! ### Places -/

/-- where the file is in the mirror, by its record -/
def mp (i : I) (ns : Names) : Place I :=
  match ns.mirror with
  | some n => .long n
  | none => .usual i

/-- where its increments are -/
def ip (i : I) (ns : Names) : Place I :=
  match ns.mirror with
  | some n => .long n
  | none =>
    match ns.inc with
    | some n => .long n
    | none => .usual i

/-- names as they are recorded, with what fits (for the mirror, for the increments or the root) -/
structure Shape (fm fi : Bool) (ns : Names) : Prop where
  mirror : ns.mirror.isSome = !fm
  both : ns.mirror.isSome = true → ns.inc = none
  neither : ns.mirror = none → ns.inc = none → fi = true

/-- **Where files go**: to the places of their record; a new file to places of its own. -/
theorem place_cases {fm fi root : Bool} {old : Option Names} {st : St} {b : Nat} (h : Inv st b) (hsh : ∀ r, old = some r → Shape fm (fi || root) r)
    (hfi : (fi || root) = true → fm = true) (new : Bool) (hnew : old ≠ none ∨ new = true) (i : I) :
    ∃ p ns st', place { old, new, root, fitsMirror := fm, fitsInc := fi } st = some (p, st') ∧ placeOf i p.mirror = mp i ns ∧
      placeOf i p.inc = ip i ns ∧ p.recorded = (if new then some ns else none) ∧ Shape fm (fi || root) ns ∧
      (∀ n, n ∈ locNames p.mirror ++ locNames p.inc → n ∈ Names.list ns) ∧
      ((old = some ns ∧ st' = st) ∨
       (old = none ∧ (∀ n ∈ Names.list ns, n ∉ st.given) ∧ (∃ b', Inv st' b') ∧ st'.given = Names.list ns ++ st.given ∧ st'.dir = st.dir)) := by
  have halloc : ∃ n st', alloc st = some (n, st') ∧ n ∉ st.given ∧ (∃ b', Inv st' b') ∧ st'.given = n :: st.given ∧ st'.dir = st.dir := by
    obtain ⟨k, h1, h2, -, h3, h4⟩ := h.next
    exact ⟨fmtNat k, _, by simp only [alloc, h1, if_neg h3], h4, ⟨_, h2⟩, rfl, rfl⟩
  obtain ⟨an, ast, a1, a2, a3, a4, a5⟩ := halloc
  cases old with
  | some r =>
    obtain ⟨hm, hb, hn⟩ := hsh r rfl
    obtain ⟨rm, ri⟩ := r
    cases rm with
    | some n =>
      have : ri = none := hb rfl
      subst this
      refine ⟨⟨.long n, .long n, if new then some ⟨some n, none⟩ else none⟩, ⟨some n, none⟩, st, by simp [place, mirTriple, findIncPair], rfl, rfl, rfl,
        ⟨hm, fun _ => rfl, hn⟩, by simp [locNames, Names.list], Or.inl ⟨rfl, rfl⟩⟩
    | none =>
      cases ri with
      | some k =>
        exact ⟨⟨.usual, .long k, if new then some ⟨none, some k⟩ else none⟩, ⟨none, some k⟩, st, by simp [place, mirTriple, findIncPair], rfl, rfl, rfl,
          ⟨hm, hb, hn⟩, by simp [locNames, Names.list], Or.inl ⟨rfl, rfl⟩⟩
      | none =>
        have hx : (fi || root) = true := hn rfl rfl
        refine ⟨⟨.usual, .usual, if new then some ⟨none, none⟩ else none⟩, ⟨none, none⟩, st, ?_, rfl, rfl, rfl,
          ⟨hm, hb, hn⟩, by simp [locNames, Names.list], Or.inl ⟨rfl, rfl⟩⟩
        cases root <;> cases fi <;> simp_all [place, mirTriple, findIncPair]
  | none =>
    have hnew : new = true := by simpa using hnew
    subst hnew
    cases fm with
    | false =>
      refine ⟨⟨.long an, .long an, some ⟨some an, none⟩⟩, ⟨some an, none⟩, ast, by simp [place, mirTriple, findIncPair, a1], rfl, rfl, rfl,
        ⟨rfl, fun _ => rfl, by simp⟩, by simp [locNames, Names.list], Or.inr ⟨rfl, by simpa [Names.list] using a2, a3, by simpa [Names.list] using a4, a5⟩⟩
    | true =>
      cases hx : (fi || root) with
      | true =>
        refine ⟨⟨.usual, .usual, some ⟨none, none⟩⟩, ⟨none, none⟩, st, ?_, rfl, rfl, rfl,
          ⟨rfl, by simp, by simp⟩, by simp [locNames, Names.list], Or.inr ⟨rfl, by simp [Names.list], ⟨b, h⟩, by simp [Names.list], rfl⟩⟩
        cases root <;> cases fi <;> simp_all [place, mirTriple, findIncPair]
      | false =>
        simp only [Bool.or_eq_false_iff] at hx
        obtain ⟨rfl, rfl⟩ := hx
        refine ⟨⟨.usual, .long an, some ⟨none, some an⟩⟩, ⟨none, some an⟩, ast, by simp [place, mirTriple, findIncPair, a1], rfl, rfl, rfl,
          ⟨rfl, by simp, by simp⟩, by simp [locNames, Names.list], Or.inr ⟨rfl, by simpa [Names.list] using a2, a3, by simpa [Names.list] using a4, a5⟩⟩

/-! ### One file -/

/-- the places of the file `i`: the usual one, and the names that belong to it -/
def Reg (own : Bytes → Option I) (i : I) (p : Place I) : Prop := p = .usual i ∨ ∃ n, p = .long n ∧ own n = some i

/-- the last record of a file -/
def cur (h : List (Nat × Option (Rec C A))) : Option (Rec C A) := h.head?.bind Prod.snd

/-- What holds for the file `i` whose records, newest first, are `h`: -/
structure Ok (fm fi : Bool) (h : List (Nat × Option (Rec C A))) (i : I) (R : Repo I C A) (own : Bytes → Option I) : Prop where
  /-- the mirror has the data -/
  here : ∀ r, cur h = some r → R.mirror (mp i r.names) = some r.node.data
  gone : cur h = none → R.mirror (.usual i) = none
  /-- nothing is where it doesn't fit -/
  unfit : fm = false → R.mirror (.usual i) = none ∧ R.incs (.usual i) = []
  recs : ∀ t r, (t, some r) ∈ h → Shape fm fi r.names ∧ ∀ n ∈ Names.list r.names, own n = some i
  /-- from every record the increments lead to its data, and if they need the mirror, then it is the same file -/
  chain : ∀ t r c a, (t, some r) ∈ h → r.node = .reg c a → ∃ e, Leads (newer t (R.incs (ip i r.names))) c e ∧
    ∀ d, e = some d → ∃ r0, cur h = some r0 ∧ r0.names = r.names ∧ r0.node.data = some d
  sorted : ∀ p, Reg own i p → (R.incs p).Pairwise (fun a b => a.1 < b.1) ∧ ∀ x ∈ R.incs p, ∃ t, (h.head?.map Prod.fst) = some t ∧ x.1 < t
  times : h.Pairwise (fun a b => b.1 < a.1)

theorem Shape.mono {fm fi fi' : Bool} {ns : Names} (h : Shape fm fi ns) (hfi : fi = true → fi' = true) : Shape fm fi' ns :=
  ⟨h.mirror, h.both, fun a b => hfi (h.neither a b)⟩

theorem Ok.mono {fm fi fi' : Bool} {h : List (Nat × Option (Rec C A))} {i : I} {R : Repo I C A} {own : Bytes → Option I} (hk : Ok fm fi h i R own)
    (hfi : fi = true → fi' = true) : Ok fm fi' h i R own :=
  { hk with recs := fun t r hm => ⟨(hk.recs t r hm).1.mono hfi, (hk.recs t r hm).2⟩ }

theorem mp_reg {own : Bytes → Option I} {i : I} {ns : Names} (h : ∀ n ∈ Names.list ns, own n = some i) : Reg own i (mp i ns) := by
  obtain ⟨m, k⟩ := ns
  cases m with
  | none => exact Or.inl rfl
  | some n => exact Or.inr ⟨n, rfl, h n (by simp [Names.list])⟩

theorem ip_reg {own : Bytes → Option I} {i : I} {ns : Names} (h : ∀ n ∈ Names.list ns, own n = some i) : Reg own i (ip i ns) := by
  obtain ⟨m, k⟩ := ns
  cases m with
  | some n => exact Or.inr ⟨n, rfl, h n (by simp [Names.list])⟩
  | none =>
    cases k with
    | none => exact Or.inl rfl
    | some n => exact Or.inr ⟨n, rfl, h n (by simp [Names.list])⟩

theorem Reg.disjoint {own : Bytes → Option I} {i j : I} {p : Place I} (hi : Reg own i p) (hj : Reg own j p) : i = j := by
  rcases hi with rfl | ⟨n, rfl, hn⟩ <;> rcases hj with hj | ⟨k, hj, hk⟩
  · cases hj; rfl
  · cases hj
  · cases hj
  · cases hj; rw [hn] at hk; cases hk; rfl

/-- Nothing changes for a file whose places aren't touched. -/
theorem Ok.frame {fm fi : Bool} {h : List (Nat × Option (Rec C A))} {j : I} {R R' : Repo I C A} {own own' : Bytes → Option I} (hk : Ok fm fi h j R own)
    (hreg : ∀ p, Reg own' j p ↔ Reg own j p) (hown : ∀ n, own n = some j → own' n = some j)
    (hm : ∀ p, Reg own j p → R'.mirror p = R.mirror p ∧ R'.incs p = R.incs p) : Ok fm fi h j R' own' where
  here r hr := by
    obtain ⟨t, ht⟩ : ∃ t, (t, some r) ∈ h := by
      cases h with
      | nil => simp [cur] at hr
      | cons x l => obtain ⟨t, y⟩ := x; simp [cur] at hr; exact ⟨t, by simp [hr]⟩
    rw [(hm _ (mp_reg (hk.recs t r ht).2)).1]
    exact hk.here r hr
  gone hc := by rw [(hm _ (Or.inl rfl)).1]; exact hk.gone hc
  unfit hf := by rw [(hm _ (Or.inl rfl)).1, (hm _ (Or.inl rfl)).2]; exact hk.unfit hf
  recs t r ht := ⟨(hk.recs t r ht).1, fun n hn => hown n ((hk.recs t r ht).2 n hn)⟩
  chain t r c a ht hr := by
    rw [(hm _ (ip_reg (hk.recs t r ht).2)).2]
    exact hk.chain t r c a ht hr
  sorted p hp := by
    rw [(hm p ((hreg p).mp hp)).2]
    exact hk.sorted p ((hreg p).mp hp)
  times := hk.times

/-- the names of the directory and their owners -/
structure Names.Good (R : Repo I C A) (own : Bytes → Option I) : Prop where
  inv : ∃ b, Inv R.names b
  owned : ∀ n, own n ≠ none → n ∈ R.names.given
  fresh : ∀ n, n ∉ R.names.given → R.mirror (.long n) = none ∧ R.incs (.long n) = []

theorem times_cons {h : List (Nat × Option (Rec C A))} (ht : h.Pairwise (fun a b => b.1 < a.1)) {now : Nat}
    (hnow : ∀ t, h.head?.map Prod.fst = some t → t < now) (r : Option (Rec C A)) : ((now, r) :: h).Pairwise (fun a b => b.1 < a.1) := by
  refine List.pairwise_cons.mpr ⟨fun x hx => ?_, ht⟩
  cases h with
  | nil => cases hx
  | cons y l =>
    have h0 := hnow y.1 rfl
    rcases List.mem_cons.mp hx with rfl | hx
    · exact h0
    · have := (List.pairwise_cons.mp ht).1 x hx
      simp only at this ⊢
      omega

/-- a file that stays the same, or stays away -/
theorem Ok.keep {fm fi : Bool} {h : List (Nat × Option (Rec C A))} {i : I} {R : Repo I C A} {own : Bytes → Option I} (hk : Ok fm fi h i R own)
    {now : Nat} (hnow : ∀ t, h.head?.map Prod.fst = some t → t < now) : Ok fm fi ((now, cur h) :: h) i R own where
  here r hr := hk.here r hr
  gone hc := hk.gone hc
  unfit := hk.unfit
  recs t r ht := by
    rcases List.mem_cons.mp ht with e | e
    · obtain ⟨rfl, e⟩ := Prod.mk.inj e
      cases h with
      | nil => simp [cur] at e
      | cons x l => obtain ⟨t', y⟩ := x; simp [cur] at e; subst e; exact hk.recs t' r (by simp)
    · exact hk.recs t r e
  chain t r c a ht hr := by
    rcases List.mem_cons.mp ht with e | e
    · obtain ⟨rfl, e⟩ := Prod.mk.inj e
      cases h with
      | nil => simp [cur] at e
      | cons x l =>
        obtain ⟨t', y⟩ := x
        simp [cur] at e; subst e
        have hs := hk.sorted _ (ip_reg (hk.recs t' r (by simp)).2)
        rw [newer_nil (fun x hx => by obtain ⟨u, hu, hlt⟩ := hs.2 x hx; have := hnow u hu; omega)]
        exact ⟨_, .nil, fun d hd => by cases hd; exact ⟨r, by simp [cur], rfl, by rw [hr]; rfl⟩⟩
    · exact hk.chain t r c a e hr
  sorted p hp := ⟨(hk.sorted p hp).1, fun x hx => by
    obtain ⟨u, hu, hlt⟩ := (hk.sorted p hp).2 x hx
    exact ⟨now, rfl, by have := hnow u hu; omega⟩⟩
  times := times_cons hk.times hnow _

theorem mp_mem {i : I} {ns : Names} {n : Bytes} (h : mp i ns = .long n) : n ∈ Names.list ns := by
  obtain ⟨m, k⟩ := ns
  cases m with
  | none => cases h
  | some x => cases h; simp [Names.list]

theorem ip_mem {i : I} {ns : Names} {n : Bytes} (h : ip i ns = .long n) : n ∈ Names.list ns := by
  obtain ⟨m, k⟩ := ns
  cases m with
  | some x => cases h; simp [Names.list]
  | none =>
    cases k with
    | none => cases h
    | some x => cases h; simp [Names.list]

theorem cur_mem {h : List (Nat × Option (Rec C A))} {r : Rec C A} (hc : cur h = some r) : ∃ t, h.head?.map Prod.fst = some t ∧ (t, some r) ∈ h := by
  cases h with
  | nil => simp [cur] at hc
  | cons x l => obtain ⟨t, y⟩ := x; simp [cur] at hc; subst hc; exact ⟨t, rfl, by simp⟩

/-- One file of a backup. -/
theorem process_spec {f : Fits I} {i : I} {h : List (Nat × Option (Rec C A))} {R : Repo I C A} {own : Bytes → Option I} {now : Nat}
    (hfi : (f.inc i || f.root i) = true → f.mirror i = true) (hg : Names.Good R own)
    (hk : Ok (f.mirror i) (f.inc i || f.root i) h i R own) (hnow : ∀ t, h.head?.map Prod.fst = some t → t < now) (new : Option (Node C A)) :
    ∃ r R' own', process f (h.head?.map Prod.fst) i (cur h) new R = some (r, R') ∧ r.map (·.node) = new ∧ Names.Good R' own' ∧ R'.metas = R.metas ∧
      Ok (f.mirror i) (f.inc i || f.root i) ((now, r) :: h) i R' own' ∧
      ∀ j, j ≠ i → ∀ fm fi h', Ok fm fi h' j R own → Ok fm fi h' j R' own' := by
  by_cases heq : (cur h).map (·.node) = new
  · exact ⟨cur h, R, own, by simp [process, heq], heq, hg, rfl, hk.keep hnow, fun _ _ _ _ _ hj => hj⟩
  obtain ⟨b, hb⟩ := hg.inv
  obtain ⟨p, ns, st', h1, h2, h3, h4, h5, h6, h7⟩ := place_cases (fm := f.mirror i) (fi := f.inc i) (root := f.root i) (old := (cur h).map (·.names)) hb
    (by
      intro r hr
      obtain ⟨r0, hr0, rfl⟩ := Option.map_eq_some_iff.mp hr
      obtain ⟨t, -, ht⟩ := cur_mem hr0
      exact (hk.recs t r0 ht).1) hfi new.isSome
    (by
      cases hc : cur h with
      | some r => left; simp
      | none => right; cases new with
        | none => simp [hc] at heq
        | some n => rfl) i
  -- what was known of the names
  have hold : ∀ n ∈ Names.list ns, own n = some i ∨ n ∉ R.names.given := by
    intro n hn
    rcases h7 with ⟨hc, -⟩ | ⟨-, hf, -⟩
    · obtain ⟨r0, hr0, rfl⟩ := Option.map_eq_some_iff.mp hc
      obtain ⟨t, -, ht⟩ := cur_mem hr0
      exact Or.inl ((hk.recs t r0 ht).2 n hn)
    · exact Or.inr (hf n hn)
  have hsub : ∀ n, n ∈ R.names.given ∨ n ∈ Names.list ns → n ∈ st'.given := by
    intro n hn
    rcases h7 with ⟨hc, rfl⟩ | ⟨-, hf, -, hgv, -⟩
    · rcases hn with hn | hn
      · exact hn
      · rcases hold n hn with ho | ho
        · exact hg.owned n (by rw [ho]; simp)
        · obtain ⟨r0, hr0, rfl⟩ := Option.map_eq_some_iff.mp hc
          obtain ⟨t, -, ht⟩ := cur_mem hr0
          exact hg.owned n (by rw [(hk.recs t r0 ht).2 n hn]; simp)
    · rw [hgv]; simp [or_comm] at hn ⊢; exact hn
  let own' : Bytes → Option I := fun n => if n ∈ Names.list ns then some i else own n
  have hown' : ∀ n ∈ Names.list ns, own' n = some i := fun n hn => if_pos hn
  have hown : ∀ j n, own n = some j → own' n = some j := by
    intro j n hn
    by_cases hx : n ∈ Names.list ns
    · rcases hold n hx with ho | ho
      · rw [hown' n hx, ← hn, ho]
      · exact absurd (hg.owned n (by rw [hn]; simp)) ho
    · simp only [own', if_neg hx, hn]
  have hM : Reg own' i (mp i ns) := mp_reg hown'
  have hK : Reg own' i (ip i ns) := ip_reg hown'
  -- the increments before
  have hsrt : ∀ q, Reg own' i q → (R.incs q).Pairwise (fun a b => a.1 < b.1) ∧ ∀ x ∈ R.incs q, ∃ t, h.head?.map Prod.fst = some t ∧ x.1 < t := by
    intro q hq
    rcases hq with rfl | ⟨n, rfl, hn⟩
    · exact hk.sorted _ (Or.inl rfl)
    · by_cases ho : own n = some i
      · exact hk.sorted _ (Or.inr ⟨n, rfl, ho⟩)
      · have hx : n ∈ Names.list ns := by
          by_contra hx
          simp only [own', if_neg hx] at hn
          exact ho hn
        rcases hold n hx with ho' | ho'
        · exact absurd ho' ho
        · rw [(hg.fresh n ho').2]; simp
  let incs' : Place I → List (Nat × Inc C) := match h.head?.map Prod.fst with
    | none => R.incs
    | some t => if sameData ((cur h).map (·.node)) new then R.incs
      else upd R.incs (ip i ns) (R.incs (ip i ns) ++ [(t, makeIncrement new (R.mirror (mp i ns)))])
  have hI0 : h.head?.map Prod.fst = none → incs' = R.incs := fun hu => by simp only [incs', hu]
  have hI1 : ∀ u, h.head?.map Prod.fst = some u → incs' = if sameData ((cur h).map (·.node)) new then R.incs
      else upd R.incs (ip i ns) (R.incs (ip i ns) ++ [(u, makeIncrement new (R.mirror (mp i ns)))]) := fun u hu => by simp only [incs', hu]
  have hincs : ∀ q, q ≠ ip i ns → incs' q = R.incs q := by
    intro q hq
    cases hu : h.head?.map Prod.fst with
    | none => rw [hI0 hu]
    | some u =>
      rw [hI1 u hu]
      split
      · rfl
      · simp [upd, hq]
  let r' : Option (Rec C A) := new.map fun n => ⟨n, ns⟩
  let R' : Repo I C A := { R with
    names := { st' with dir := locNames p.mirror ++ locNames p.inc ++ st'.dir }, incs := incs', mirror := upd R.mirror (mp i ns) (new.map Node.data) }
  have hR' : process f (h.head?.map Prod.fst) i (cur h) new R = some (r', R') := by
    have e : process f (h.head?.map Prod.fst) i (cur h) new R = some (match new, p.recorded with
        | some n, some ns => some ⟨n, ns⟩
        | _, _ => none, R') := by
      simp only [process, if_neg heq, h1, h2, h3, R', incs']
      rfl
    rw [e]
    cases new with
    | none => rfl
    | some n => simp only [h4, Option.isSome_some, if_true]; rfl
  have hgood : Names.Good R' own' := by
    refine ⟨?_, ?_, ?_⟩
    · have hst : ∃ b', Inv st' b' := by
        rcases h7 with ⟨-, rfl⟩ | ⟨-, -, hi, -⟩
        · exact ⟨b, hb⟩
        · exact hi
      obtain ⟨b', hi⟩ := hst
      refine ⟨b', hi.pos, hi.given, hi.nodup, ?_, hi.counter, hi.file⟩
      intro x hx
      rcases List.mem_append.mp hx with hx | hx
      · have hgx : x ∈ st'.given := hsub x (Or.inr (h6 x hx))
        obtain ⟨k, rfl, -⟩ := hi.given x hgx
        have := base_name (n := k) (s := []) (Or.inl rfl)
        rw [List.append_nil] at this
        rw [this]; exact hgx
      · exact hi.dir x hx
    · intro n hn
      by_cases hx : n ∈ Names.list ns
      · exact hsub n (Or.inr hx)
      · simp only [own', if_neg hx] at hn
        exact hsub n (Or.inl (hg.owned n hn))
    · intro n hn
      have hx : n ∉ Names.list ns := fun hx => hn (hsub n (Or.inr hx))
      have hgv : n ∉ R.names.given := fun hx => hn (hsub n (Or.inl hx))
      refine ⟨?_, ?_⟩
      · have : (Place.long n : Place I) ≠ mp i ns := fun e => hx (mp_mem e.symm)
        simp only [R', upd, if_neg this]
        exact (hg.fresh n hgv).1
      · show incs' _ = _
        rw [hincs _ (fun e => hx (ip_mem e.symm))]
        exact (hg.fresh n hgv).2
  refine ⟨r', R', own', hR', by cases new <;> rfl, hgood, rfl, ?_, ?_⟩
  · -- the file itself
    have hlong : f.mirror i = false → ∃ n, ns.mirror = some n := by
      intro hf
      have := h5.mirror
      rw [hf] at this
      exact Option.isSome_iff_exists.mp this
    have hunfit : f.mirror i = false → R'.mirror (.usual i) = none ∧ R'.incs (.usual i) = [] := by
      intro hf
      obtain ⟨n, hn⟩ := hlong hf
      refine ⟨?_, ?_⟩
      · have : (Place.usual i : Place I) ≠ mp i ns := by simp [mp, hn]
        simp only [R', upd, if_neg this]
        exact (hk.unfit hf).1
      · show incs' _ = _
        rw [hincs _ (by simp [ip, hn])]
        exact (hk.unfit hf).2
    refine ⟨?_, ?_, hunfit, ?_, ?_, ?_, times_cons hk.times hnow _⟩
    · intro r hr
      cases new with
      | none => simp [cur, r'] at hr
      | some n => simp only [cur, r', List.head?_cons, Option.bind_some, Option.map_some, Option.some.injEq] at hr; subst hr; simp [R', upd]
    · intro hr
      cases new with
      | some n => simp [cur, r'] at hr
      | none =>
        cases hf : f.mirror i with
        | false => exact (hunfit hf).1
        | true =>
          have hm : mp i ns = .usual i := by
            have := h5.mirror
            rw [hf] at this
            cases hq : ns.mirror with
            | none => simp [mp, hq]
            | some x => simp [hq] at this
          simp [R', upd, hm]
    · intro t r ht
      rcases List.mem_cons.mp ht with e | e
      · obtain ⟨rfl, e2⟩ := Prod.mk.inj e
        cases new with
        | none => simp [r'] at e2
        | some n => simp only [r', Option.map_some, Option.some.injEq] at e2; subst e2; exact ⟨h5, hown'⟩
      · exact ⟨(hk.recs t r e).1, fun n hn => hown i n ((hk.recs t r e).2 n hn)⟩
    · intro t r c a ht hr
      rcases List.mem_cons.mp ht with e | e
      · obtain ⟨rfl, e2⟩ := Prod.mk.inj e
        cases new with
        | none => simp [r'] at e2
        | some n =>
          simp only [r', Option.map_some, Option.some.injEq] at e2; subst e2
          have hnil : newer t (incs' (ip i ns)) = [] := by
            apply newer_nil
            intro x hx
            cases hu : h.head?.map Prod.fst with
            | none => rw [hI0 hu] at hx; obtain ⟨u, hu', -⟩ := (hsrt _ hK).2 x hx; rw [hu] at hu'; cases hu'
            | some u =>
              rw [hI1 u hu] at hx
              have hun := hnow u hu
              have hbound : ∀ x ∈ R.incs (ip i ns), x.1 < t := by
                intro x hx
                obtain ⟨v, hv, hlt⟩ := (hsrt _ hK).2 x hx
                have := hnow v hv; omega
              split at hx
              · exact hbound x hx
              · simp only [upd, if_true, List.mem_append, List.mem_singleton] at hx
                rcases hx with hx | rfl
                · exact hbound x hx
                · exact hun
          refine ⟨some c, ?_, ?_⟩
          · show Leads (newer t (incs' (ip i ns))) c (some c)
            rw [hnil]; exact .nil
          · intro d hd
            cases hd
            refine ⟨⟨n, ns⟩, rfl, rfl, ?_⟩
            simp only at hr
            subst hr
            rfl
      · obtain ⟨e', hl, hopen⟩ := hk.chain t r c a e hr
        obtain ⟨u, hu⟩ : ∃ u, h.head?.map Prod.fst = some u := by
          cases h with
          | nil => cases e
          | cons x l => exact ⟨x.1, rfl⟩
        have htu : t ≤ u := by
          cases h with
          | nil => cases e
          | cons x l =>
            simp only [List.head?_cons, Option.map_some, Option.some.injEq] at hu
            subst hu
            rcases List.mem_cons.mp e with e | e
            · rw [← e]
            · exact Nat.le_of_lt ((List.pairwise_cons.mp hk.times).1 _ e)
        have hval := hI1 u hu
        show ∃ e, Leads (newer t (incs' (ip i r.names))) c e ∧ _
        cases e' with
        | none =>
          refine ⟨none, ?_, by simp⟩
          rw [hval]
          split
          · exact hl
          · by_cases hq : ip i r.names = ip i ns
            · rw [hq] at hl ⊢
              simp only [upd, if_true]
              rw [newer_snoc _ htu]
              exact hl.append
            · simpa [upd, hq] using hl
        | some d =>
          obtain ⟨r0, hc0, hn0, hd0⟩ := hopen d rfl
          have hns : ns = r0.names := by
            rcases h7 with ⟨hc, -⟩ | ⟨hc, -⟩
            · rw [hc0] at hc; simpa using hc.symm
            · rw [hc0] at hc; simp at hc
          obtain ⟨n0, a0⟩ : ∃ a0, r0.node = .reg d a0 := by
            cases hq : r0.node with
            | reg x y => rw [hq] at hd0; simp only [Node.data, Option.some.injEq] at hd0; subst hd0; exact ⟨y, rfl⟩
            | other y => rw [hq] at hd0; cases hd0
          have hmir : R.mirror (mp i ns) = some (some d) := by rw [hns, hk.here r0 hc0, hd0]
          rw [hval, ← hn0, ← hns] 
          rw [← hn0, ← hns] at hl
          rw [hc0]
          cases new with
          | none =>
            refine ⟨none, ?_, by simp⟩
            rw [Option.map_some, show sameData (some r0.node) none = false by rw [a0]; rfl, if_neg (by simp)]
            simp only [upd, if_true]
            rw [newer_snoc _ htu, hmir]
            exact hl.close
          | some n =>
            cases n with
            | other y =>
              refine ⟨none, ?_, by simp⟩
              rw [Option.map_some, show sameData (some r0.node) (some (.other y)) = false by rw [a0]; rfl, if_neg (by simp)]
              simp only [upd, if_true]
              rw [newer_snoc _ htu, hmir]
              exact hl.close
            | reg c' a' =>
              refine ⟨some c', ?_, fun x hx => by cases hx; exact ⟨_, rfl, hns ▸ rfl, rfl⟩⟩
              simp only [Option.map_some, a0, sameData, decide_eq_true_eq]
              by_cases hcc : d = c'
              · subst hcc; rw [if_pos rfl]; exact hl
              · rw [if_neg hcc]
                simp only [upd, if_true]
                rw [newer_snoc _ htu, hmir]
                exact hl.snoc c'
    · intro q hq
      obtain ⟨s1, s2⟩ := hsrt q hq
      show (incs' q).Pairwise _ ∧ ∀ x ∈ incs' q, _
      have hb2 : ∀ x ∈ R.incs q, x.1 < now := fun x hx => by
        obtain ⟨v, hv, hlt⟩ := s2 x hx
        have := hnow v hv; omega
      by_cases hqk : q = ip i ns
      · subst hqk
        cases hu : h.head?.map Prod.fst with
        | none => rw [hI0 hu]; exact ⟨s1, fun x hx => ⟨now, rfl, hb2 x hx⟩⟩
        | some u =>
          rw [hI1 u hu]
          split
          · exact ⟨s1, fun x hx => ⟨now, rfl, hb2 x hx⟩⟩
          · simp only [upd, if_true]
            refine ⟨List.pairwise_append.mpr ⟨s1, by simp, ?_⟩, ?_⟩
            · intro x hx y hy
              obtain ⟨v, hv, hlt⟩ := s2 x hx
              rw [hu] at hv; cases hv
              simp only [List.mem_singleton] at hy
              subst hy; exact hlt
            · intro x hx
              refine ⟨now, rfl, ?_⟩
              rcases List.mem_append.mp hx with hx | hx
              · exact hb2 x hx
              · simp only [List.mem_singleton] at hx
                subst hx; exact hnow u hu
      · rw [hincs q hqk]
        exact ⟨s1, fun x hx => ⟨now, rfl, hb2 x hx⟩⟩
  · -- the others
    intro j hj fm fi h' hkj
    have hdis : ∀ q, Reg own j q → q ≠ mp i ns ∧ q ≠ ip i ns := by
      intro q hq
      have hq' : Reg own' j q := by
        rcases hq with rfl | ⟨n, rfl, hn⟩
        · exact Or.inl rfl
        · exact Or.inr ⟨n, rfl, hown j n hn⟩
      exact ⟨fun e => hj (hq'.disjoint (e ▸ hM)), fun e => hj (hq'.disjoint (e ▸ hK))⟩
    refine hkj.frame ?_ (fun n hn => hown j n hn) ?_
    · intro q
      constructor
      · rintro (rfl | ⟨n, rfl, hn⟩)
        · exact Or.inl rfl
        · by_cases hx : n ∈ Names.list ns
          · rw [hown' n hx] at hn; cases hn; exact absurd rfl hj
          · simp only [own', if_neg hx] at hn; exact Or.inr ⟨n, rfl, hn⟩
      · rintro (rfl | ⟨n, rfl, hn⟩)
        · exact Or.inl rfl
        · exact Or.inr ⟨n, rfl, hown j n hn⟩
    · intro q hq
      obtain ⟨d1, d2⟩ := hdis q hq
      exact ⟨by simp only [R', upd, if_neg d1], hincs q d2⟩

end Verif.LongRestore
