import Verif.Proof.Selection
import Verif.Spec.WalkErrors

set_option linter.unusedSectionVars false
namespace Verif.WalkErrors
open Verif.Selection
variable {α : Type} [LinearOrder α]

/-- what can be seen of a directory -/
def prune (a : Access α) (d : List α) : Forest α → Forest α
  | .nil => .nil
  | .cons n f ch rest =>
    if a.stat (d ++ [n]) = .ok then .cons n f (if a.lists (d ++ [n]) then prune a (d ++ [n]) ch else .nil) (prune a d rest) else prune a d rest

theorem prune_listdir (a : Access α) (d : List α) (ch : Forest α) :
    prune a d (listdir a d ch).1 = if a.lists d then prune a d ch else .nil := by
  unfold listdir; split <;> simp [prune]

theorem select_plain {scanned : Val} {i : List α} {f : File} {cs cs' : List (Cond α)} {v : Val} (hp : ∀ c ∈ cs, C26.Plain c)
    (h : selectFrom scanned i (some f) cs = some (v, cs')) : ∀ c ∈ cs', C26.Plain c := by
  induction cs generalizing scanned v cs' with
  | nil => simp [selectFrom] at h; rw [h.2]; simp
  | cons c cs ih =>
    have hpc := hp c (by simp)
    have hps : ∀ c ∈ cs, C26.Plain c := fun c hc => hp c (by simp [hc])
    have key : ∀ {w : Option Val} {c' : Cond α}, c.apply i (some f) = some (w, c') → C26.Plain c' := by
      intro w c' h'
      rcases apply_state c i f with ⟨u, hu⟩ | ⟨rest, e, rfl⟩
      · rw [hu] at h'; simp at h'; rw [← h'.2]; exact hpc
      · simp [Cond.apply] at h'; rw [← h'.2]; exact hpc
    rw [selectFrom] at h
    cases hc : c.apply i (some f) with
    | none => simp [hc] at h
    | some r =>
      obtain ⟨w, c'⟩ := r
      have hp' := key hc
      rw [hc] at h
      have cons : ∀ l : List (Cond α), (∀ x ∈ l, C26.Plain x) → ∀ x ∈ c' :: l, C26.Plain x := by
        intro l hl x hx
        rcases List.mem_cons.mp hx with rfl | hx
        · exact hp'
        · exact hl x hx
      rcases w with _ | w
      · simp only [Option.map_eq_some_iff] at h
        obtain ⟨⟨v', l⟩, h1, h2⟩ := h
        simp only [Prod.mk.injEq] at h2
        rw [← h2.2]; exact cons l (ih hps h1)
      · cases w with
        | incl => simp at h; rw [← h.2]; exact cons cs hps
        | excl => simp at h; rw [← h.2]; exact cons cs hps
        | scan =>
          simp only [Option.map_eq_some_iff] at h
          obtain ⟨⟨v', l⟩, h1, h2⟩ := h
          simp only [Prod.mk.injEq] at h2
          rw [← h2.2]; exact cons l (ih hps h1)

/-- the name alone excludes -/
def nameExcl (cs : List (Cond α)) (i : List α) : Bool := decide ((selectFilename cs i).map (·.1) = some .excl)

/-- one name, for plain conditions -/
theorem entry_eq {cs : List (Cond α)} (hp : ∀ c ∈ cs, C26.Plain c) (a : Access α) (i : List α) (f : File) :
    entry a cs i f =
      if nameExcl cs i = true then some (none, cs, [])
      else match a.stat i with
        | .fails => some (none, cs, [.file i])
        | .gone => some (none, cs, [])
        | .ok => (Selection.entry cs i f).map fun r => (r.1, r.2, []) := by
  obtain ⟨w, hw⟩ := C26.selectName_state hp .excl i
  have hw' : selectFilename cs i = some (w, cs) := hw
  simp only [entry, nameExcl, hw', Selection.entry]
  cases w with
  | excl => simp
  | incl =>
    simp only [Option.map_some, Option.some.injEq, reduceCtorEq, decide_false, Bool.false_eq_true, if_false]
    cases a.stat i
    · cases selectDefault cs i (some f) with
      | none => rfl
      | some r => obtain ⟨v, l⟩ := r; cases v <;> rfl
    · rfl
    · rfl
  | scan =>
    simp only [Option.map_some, Option.some.injEq, reduceCtorEq, decide_false, Bool.false_eq_true, if_false]
    cases a.stat i
    · cases selectDefault cs i (some f) with
      | none => rfl
      | some r => obtain ⟨v, l⟩ := r; cases v <;> rfl
    · rfl
    · rfl

theorem sel_entry_excl {cs : List (Cond α)} (hp : ∀ c ∈ cs, C26.Plain c) {i : List α} (h : nameExcl cs i = true) (f : File) :
    Selection.entry cs i f = some (none, cs) := by
  obtain ⟨w, hw⟩ := C26.selectName_state hp .excl i
  have hw' : selectFilename cs i = some (w, cs) := hw
  have : w = .excl := by simpa [nameExcl, hw'] using h
  subst this
  simp only [Selection.entry, hw']

theorem entry_plain {cs cs' : List (Cond α)} (hp : ∀ c ∈ cs, C26.Plain c) {i : List α} {f : File} {v : Option Val}
    (h : Selection.entry cs i f = some (v, cs')) : ∀ c ∈ cs', C26.Plain c := by
  obtain ⟨w, hw⟩ := C26.selectName_state hp .excl i
  have hw' : selectFilename cs i = some (w, cs) := hw
  simp only [Selection.entry, hw'] at h
  cases hs : selectDefault cs i (some f) with
  | none => cases w <;> simp [hs] at h; rw [← h.2]; exact hp
  | some r =>
    obtain ⟨u, l⟩ := r
    have := select_plain hp hs
    cases w <;> cases u <;> simp [hs] at h <;> rw [← h.2] <;> assumption

/-- the walk is the walk through what can be seen -/
theorem walkLoop_prune (a : Access α) (cs : List (Cond α)) (delayed : List (List α)) (st : List (List α × Forest α)) (hp : ∀ c ∈ cs, C26.Plain c) :
    (walkLoop a cs delayed st).map (·.1) = Selection.walkLoop cs delayed (st.map fun x => (x.1, prune a x.1 x.2)) := by
  match st with
  | [] => simp [walkLoop, Selection.walkLoop]
  | (d, .nil) :: st =>
    rw [walkLoop, walkLoop_prune a cs delayed.tail st hp]
    simp only [List.map_cons, prune]
    rw [Selection.walkLoop]
  | (d, .cons n f ch rest) :: st =>
    have again : ∀ del, (walkLoop a cs del ((d, rest) :: st)).map (·.1) = Selection.walkLoop cs del (((d, rest) :: st).map fun x => (x.1, prune a x.1 x.2)) :=
      fun del => walkLoop_prune a cs del _ hp
    rw [walkLoop, entry_eq hp]
    by_cases hx : nameExcl cs (d ++ [n]) = true
    · simp only [hx, if_true, Option.map_map, Function.comp_def]
      rw [again]
      simp only [List.map_cons, prune]
      by_cases hs : a.stat (d ++ [n]) = .ok
      · simp only [hs, if_true]
        rw [Selection.walkLoop, sel_entry_excl hp hx]
      · simp only [hs, if_false]
    · simp only [hx, Bool.false_eq_true, if_false]
      cases hs : a.stat (d ++ [n]) with
      | fails =>
        simp only [Option.map_map, Function.comp_def]
        rw [again]
        simp [prune, hs]
      | gone =>
        simp only [Option.map_map, Function.comp_def]
        rw [again]
        simp [prune, hs]
      | ok =>
        simp only [List.map_cons, prune, hs, if_true]
        rw [Selection.walkLoop]
        cases he : Selection.entry cs (d ++ [n]) f with
        | none => simp
        | some r =>
          obtain ⟨v, cs'⟩ := r
          have hp' := entry_plain hp he
          simp only [Option.map_some]
          have h1 := fun del => walkLoop_prune a cs' del ((d ++ [n], (listdir a (d ++ [n]) ch).1) :: (d, rest) :: st) hp'
          have h2 := fun del => walkLoop_prune a cs' del ((d, rest) :: st) hp'
          simp only [List.map_cons, prune_listdir] at h1 h2
          rcases v with _ | v
          · simp only [Option.map_map, Function.comp_def]
            rw [← h2]
          · cases v with
            | excl =>
              simp only [Option.map_map, Function.comp_def]
              rw [← h2]
            | incl =>
              simp only
              split
              · rw [← h1]; simp [Option.map_map, Function.comp_def]
              · rw [← h2]; simp [Option.map_map, Function.comp_def]
            | scan =>
              simp only
              rw [← h1]; simp [Option.map_map, Function.comp_def]
  termination_by (st.map fun x => x.2.size).sum
  decreasing_by
    all_goals simp only [List.map_cons, List.sum_cons, Forest.size]
    all_goals first
      | omega
      | exact Nat.lt_of_le_of_lt (Nat.add_le_add_right (listdir_size _ _ _) _) (by omega)

theorem prune_names (a : Access α) (d : List α) (F : Forest α) : ∀ m ∈ (prune a d F).names, m ∈ F.names := by
  induction F with
  | nil => simp [prune, Forest.names]
  | cons n f ch rest _ ih =>
    intro m hm
    simp only [prune] at hm
    split at hm
    · simp only [Forest.names, List.mem_cons] at hm ⊢
      exact hm.imp id (ih m)
    · simp only [Forest.names, List.mem_cons]
      exact .inr (ih m hm)

theorem prune_ok (a : Access α) (d : List α) (F : Forest α) (h : F.Ok) : (prune a d F).Ok := by
  induction F generalizing d with
  | nil => simp [prune, Forest.Ok]
  | cons n f ch rest ihc ihr =>
    obtain ⟨h1, h2, h3⟩ := h
    simp only [prune]
    split
    · refine ⟨fun m hm => h1 m (prune_names a d rest m hm), ?_, ihr d h3⟩
      split
      · exact ihc _ h2
      · simp [Forest.Ok]
    · exact ihr d h3

theorem prefix_snoc_cases {d i j : List α} {n : α} (hj : j <+: i) (hi : (d ++ [n]) <+: i) (hl : d.length < j.length) : (d ++ [n]) <+: j :=
  List.prefix_of_prefix_length_le hi hj (by simp; omega)

/-- what remains after pruning -/
theorem mem_prune (a : Access α) (d : List α) (F : Forest α) (i : List α) (g : File) :
    (i, g) ∈ listing d (prune a d F) ↔ (i, g) ∈ listing d F ∧ (∀ j, j <+: i → d.length < j.length → a.stat j = .ok) ∧
      (∀ j, j <+: i → j ≠ i → d.length < j.length → a.lists j = true) := by
  induction F generalizing d with
  | nil => simp [prune, listing]
  | cons n f ch rest ihc ihr =>
    have hdn : d.length < (d ++ [n]).length := by simp
    by_cases hs : a.stat (d ++ [n]) = .ok
    · simp only [prune, hs, if_true, listing, List.cons_append, List.mem_cons, List.mem_append, Prod.mk.injEq, ihr]
      constructor
      · rintro (⟨rfl, rfl⟩ | h | h)
        · refine ⟨.inl ⟨rfl, rfl⟩, ?_, ?_⟩
          · intro j hj hl
            have := (prefix_snoc_cases hj (List.prefix_refl _) hl).eq_of_length_le hj.length_le
            rw [← this]; exact hs
          · intro j hj hne hl
            exact absurd ((prefix_snoc_cases hj (List.prefix_refl _) hl).eq_of_length_le hj.length_le).symm hne
        · split at h
          · next hd =>
            by_cases hl' : a.lists (d ++ [n]) = true
            · simp only [hl', if_true] at h
              obtain ⟨h1, h2, h3⟩ := (ihc _).1 h
              have hb : (d ++ [n]) <+: i := (below_of_mem (f := f) (by rw [if_pos hd]; exact h1)).1
              refine ⟨.inr (.inl (by rw [if_pos hd]; exact h1)), ?_, ?_⟩
              · intro j hj hl
                have hpj := prefix_snoc_cases hj hb hl
                by_cases he : d ++ [n] = j
                · rw [← he]; exact hs
                · exact h2 j hj (lt_of_le_of_ne hpj.length_le fun e => he (hpj.eq_of_length e))
              · intro j hj hne hl
                have hpj := prefix_snoc_cases hj hb hl
                by_cases he : d ++ [n] = j
                · rw [← he]; exact hl'
                · exact h3 j hj hne (lt_of_le_of_ne hpj.length_le fun e => he (hpj.eq_of_length e))
            · simp only [hl', Bool.false_eq_true, if_false, listing] at h
              exact absurd h List.not_mem_nil
          · simp at h
        · exact ⟨.inr (.inr h.1), h.2⟩
      · rintro ⟨h | h | h, h2, h3⟩
        · exact .inl h
        · right; left
          obtain ⟨hb, hbn⟩ := below_of_mem h
          split at h
          · next hd =>
            have hl' := h3 (d ++ [n]) hb hbn hdn
            simp only [hl', if_true]
            have hlt : ∀ j : List α, (d ++ [n]).length < j.length → d.length < j.length := fun j h => Nat.lt_trans hdn h
            rw [if_pos hd]
            exact (ihc _).2 ⟨h, fun j hj hl => h2 j hj (hlt j hl), fun j hj hne hl => h3 j hj hne (hlt j hl)⟩
          · simp at h
        · exact .inr (.inr ⟨h, h2, h3⟩)
    · simp only [prune, hs, if_false, ihr, listing, List.cons_append, List.mem_cons, List.mem_append, Prod.mk.injEq]
      constructor
      · rintro ⟨h, h2⟩; exact ⟨.inr (.inr h), h2⟩
      · rintro ⟨h | h | h, h2, h3⟩
        · exact absurd (h2 (d ++ [n]) (by rw [h.1]; exact List.prefix_refl _) hdn) hs
        · exact absurd (h2 (d ++ [n]) (below_of_mem h).1 hdn) hs
        · exact ⟨h, h2, h3⟩

theorem selected_congr {sel : List α → File → Val} {p q : List (List α × File)} (h : ∀ x, x ∈ p ↔ x ∈ q) (i : List α) : Selected sel p i ↔ Selected sel q i := by
  simp only [Selected, Open, h]

/-! ## The errors -/

/-- the errors of a walk with fixed decisions; `nm`: the name alone excludes -/
def pureErrs (a : Access α) (sel : List α → File → Val) (nm : List α → Bool) (d : List α) : Forest α → List (Err α)
  | .nil => []
  | .cons n f ch rest =>
    (if nm (d ++ [n]) then []
     else match a.stat (d ++ [n]) with
      | .fails => [.file (d ++ [n])]
      | .gone => []
      | .ok =>
        if f.isdir = true ∧ sel (d ++ [n]) f ≠ .excl then
          if a.lists (d ++ [n]) then pureErrs a sel nm (d ++ [n]) ch else [.dir (d ++ [n])]
        else []) ++ pureErrs a sel nm d rest

theorem name_rel {i : List α} {cs cs₀ : List (Cond α)} (h : RelAll i cs cs₀) (hp : ∀ c ∈ cs₀, C26.Plain c) (scanned : Val) :
    (selectNameFrom scanned i cs).map (·.1) = (selectNameFrom scanned i cs₀).map (·.1) := by
  induction h generalizing scanned with
  | nil => rfl
  | @cons c c₀ cs cs₀ hc hcs ih =>
    have hps : ∀ c ∈ cs₀, C26.Plain c := fun c hc => hp c (List.mem_cons_of_mem _ hc)
    rcases hc with rfl | ⟨rest, rest₀, e, rfl, rfl, -⟩
    · rw [selectNameFrom, selectNameFrom]
      split
      · rfl
      · split
        · rfl
        · rfl
        · rfl
        · simp only [Option.map_map, Function.comp_def]; exact ih hps .scan
        · simp only [Option.map_map, Function.comp_def]; exact ih hps scanned
    · have he : e = false := hp _ List.mem_cons_self
      subst he
      rfl

theorem nameExcl_rel {i : List α} {cs cs₀ : List (Cond α)} (h : RelAll i cs cs₀) (hp : ∀ c ∈ cs₀, C26.Plain c) : nameExcl cs i = nameExcl cs₀ i := by
  have := name_rel h hp .excl
  exact decide_eq_decide.mpr (by rw [selectFilename, selectFilename, this])

/-- the conditions are as good as new for all that is still to come -/
structure Inv (cs₀ cs : List (Cond α)) (st : List (List α × Forest α)) : Prop where
  rel : ∀ x ∈ st, ∀ m ∈ x.2.names, RelAll (x.1 ++ [m]) cs cs₀
  ok : ∀ x ∈ st, x.2.Ok
  order : st.Pairwise fun x y => ∀ m ∈ x.2.names, ∀ i, (x.1 ++ [m]) <+: i → ∀ m' ∈ y.2.names, i < y.1 ++ [m']

theorem errs_pure {cs₀ : List (Cond α)} (hp : ∀ c ∈ cs₀, C26.Plain c) (a : Access α) (cs : List (Cond α)) (delayed : List (List α))
    (st : List (List α × Forest α)) (hi : Inv cs₀ cs st) :
    ∃ o, walkLoop a cs delayed st = some (o, st.flatMap fun x => pureErrs a (decide' cs₀) (nameExcl cs₀) x.1 x.2) := by
  match st with
  | [] => exact ⟨[], by simp [walkLoop]⟩
  | (d, .nil) :: st =>
    obtain ⟨o, ho⟩ := errs_pure hp a cs delayed.tail st
      ⟨fun x hx => hi.rel x (List.mem_cons_of_mem _ hx), fun x hx => hi.ok x (List.mem_cons_of_mem _ hx), (List.pairwise_cons.mp hi.order).2⟩
    exact ⟨o, by rw [walkLoop, ho]; simp [pureErrs]⟩
  | (d, .cons n f ch rest) :: st =>
    obtain ⟨hn, hch, hrest⟩ := hi.ok _ (List.mem_cons_self)
    obtain ⟨ho1, ho2⟩ := List.pairwise_cons.mp hi.order
    have hrel := hi.rel _ List.mem_cons_self n (by simp [Forest.names])
    simp only at hrel hn
    have hpl := hrel.plain hp
    -- what comes later is greater than everything at and below this name
    have later : ∀ x ∈ (d, rest) :: st, ∀ m ∈ x.2.names, ∀ i, (d ++ [n]) <+: i → i < x.1 ++ [m] := by
      intro x hx m hm i hi'
      rcases List.mem_cons.mp hx with rfl | hx
      · exact snoc_lt (hn m hm) hi' (List.prefix_refl _)
      · exact ho1 x hx n (by simp [Forest.names]) i hi' m hm
    have okl : ∀ x ∈ (d, rest) :: st, x.2.Ok := by
      intro x hx
      rcases List.mem_cons.mp hx with rfl | hx
      · exact hrest
      · exact hi.ok x (List.mem_cons_of_mem _ hx)
    have ordl : ((d, rest) :: st).Pairwise fun x y => ∀ m ∈ x.2.names, ∀ i, (x.1 ++ [m]) <+: i → ∀ m' ∈ y.2.names, i < y.1 ++ [m'] :=
      List.pairwise_cons.mpr ⟨fun y hy m hm => ho1 y hy m (by simp [Forest.names, hm]), ho2⟩
    have invRest : ∀ cs1 : List (Cond α), (∀ j, d ++ [n] < j → RelAll j cs1 cs₀) → Inv cs₀ cs1 ((d, rest) :: st) := by
      intro cs1 h1
      exact ⟨fun x hx m hm => h1 _ (later x hx m hm _ (List.prefix_refl _)), okl, ordl⟩
    have invChild : ∀ cs1 : List (Cond α), (∀ j, d ++ [n] < j → RelAll j cs1 cs₀) →
        Inv cs₀ cs1 ((d ++ [n], (listdir a (d ++ [n]) ch).1) :: (d, rest) :: st) := by
      intro cs1 h1
      refine ⟨?_, ?_, ?_⟩
      · intro x hx m hm
        rcases List.mem_cons.mp hx with rfl | hx
        · exact h1 _ (lt_of_prefix_ne (List.prefix_append _ _) (by simp))
        · exact (invRest cs1 h1).rel x hx m hm
      · intro x hx
        rcases List.mem_cons.mp hx with rfl | hx
        · simp only [listdir]; split
          · exact hch
          · simp [Forest.Ok]
        · exact okl x hx
      · refine List.pairwise_cons.mpr ⟨?_, ordl⟩
        intro y hy m _ i hi' m' hm'
        exact later y hy m' hm' i ((List.prefix_append _ _).trans hi')
    have hkeep : ∀ j, d ++ [n] < j → RelAll j cs cs₀ := fun j hj => RelAll.mono (le_of_lt hj) hrel
    rw [walkLoop, entry_eq hpl, nameExcl_rel hrel hp]
    by_cases hx : nameExcl cs₀ (d ++ [n]) = true
    · simp only [hx, if_true]
      obtain ⟨o, ho⟩ := errs_pure hp a cs delayed ((d, rest) :: st) (invRest cs hkeep)
      exact ⟨o, by rw [ho]; simp [pureErrs, hx]⟩
    · simp only [hx, Bool.false_eq_true, if_false]
      cases hs : a.stat (d ++ [n]) with
      | fails =>
        obtain ⟨o, ho⟩ := errs_pure hp a cs delayed ((d, rest) :: st) (invRest cs hkeep)
        exact ⟨o, by simp [ho, pureErrs, hx, hs]⟩
      | gone =>
        obtain ⟨o, ho⟩ := errs_pure hp a cs delayed ((d, rest) :: st) (invRest cs hkeep)
        exact ⟨o, by simp [ho, pureErrs, hx, hs]⟩
      | ok =>
        obtain ⟨cs1, h1, h2⟩ := entry_pure hrel hp f
        simp only [h1, Option.map_some]
        obtain ⟨o1, hr1⟩ := errs_pure hp a cs1 delayed ((d, rest) :: st) (invRest cs1 h2)
        obtain ⟨o2, hr2⟩ := errs_pure hp a cs1 [] ((d, rest) :: st) (invRest cs1 h2)
        obtain ⟨o3, hr3⟩ := errs_pure hp a cs1 [] ((d ++ [n], (listdir a (d ++ [n]) ch).1) :: (d, rest) :: st) (invChild cs1 h2)
        obtain ⟨o4, hr4⟩ := errs_pure hp a cs1 ((d ++ [n]) :: delayed) ((d ++ [n], (listdir a (d ++ [n]) ch).1) :: (d, rest) :: st) (invChild cs1 h2)
        have sub : (listdir a (d ++ [n]) ch).2 ++ pureErrs a (decide' cs₀) (nameExcl cs₀) (d ++ [n]) (listdir a (d ++ [n]) ch).1 =
            if a.lists (d ++ [n]) then pureErrs a (decide' cs₀) (nameExcl cs₀) (d ++ [n]) ch else [.dir (d ++ [n])] := by
          simp only [listdir]; split <;> simp [pureErrs]
        cases hv : decide' cs₀ (d ++ [n]) f with
        | excl => exact ⟨o1, by simp [gen, hr1, pureErrs, hx, hs, hv]⟩
        | incl =>
          by_cases hd : f.isdir = true
          · refine ⟨delayed.reverse ++ (d ++ [n]) :: o3, ?_⟩
            simp only [gen, hd, if_true, hr3, Option.map_some, List.flatMap_cons, pureErrs, hx, hs, hv, List.nil_append]
            simp only [Bool.false_eq_true, if_false, ne_eq, reduceCtorEq, not_false_eq_true, and_self, if_true, ← sub, List.append_assoc]
          · refine ⟨delayed.reverse ++ (d ++ [n]) :: o2, ?_⟩
            simp [gen, hd, hr2, pureErrs, hx, hs]
        | scan =>
          by_cases hd : f.isdir = true
          · refine ⟨o4, ?_⟩
            simp only [gen, hd, if_true, hr4, Option.map_some, List.flatMap_cons, pureErrs, hx, hs, hv, List.nil_append]
            simp only [Bool.false_eq_true, if_false, ne_eq, reduceCtorEq, not_false_eq_true, and_self, if_true, ← sub, List.append_assoc]
          · exact ⟨o1, by simp [gen, hd, hr1, pureErrs, hx, hs]⟩
  termination_by (st.map fun x => x.2.size).sum
  decreasing_by
    all_goals simp only [List.map_cons, List.sum_cons, Forest.size]
    all_goals first
      | omega
      | exact Nat.lt_of_le_of_lt (Nat.add_le_add_right (listdir_size _ _ _) _) (by omega)

/-- all between `d` and `i` can be passed -/
def Passable (a : Access α) (d i : List α) : Prop := ∀ j, j <+: i → j ≠ i → d.length < j.length → a.stat j = .ok ∧ a.lists j = true

/-- the walk comes to this path -/
def Reached (a : Access α) (sel : List α → File → Val) (paths : List (List α × File)) (d i : List α) (f : File) : Prop :=
  (i, f) ∈ paths ∧ Open sel paths i ∧ Passable a d i

theorem reached_cons {a : Access α} {sel : List α → File → Val} {d : List α} {n : α} {f : File} {ch rest : Forest α} (hF : (Forest.cons n f ch rest).Ok)
    (i : List α) (g : File) :
    Reached a sel (listing d (.cons n f ch rest)) d i g ↔ (i = d ++ [n] ∧ g = f) ∨
      (f.isdir = true ∧ sel (d ++ [n]) f ≠ .excl ∧ a.stat (d ++ [n]) = .ok ∧ a.lists (d ++ [n]) = true ∧ Reached a sel (listing (d ++ [n]) ch) (d ++ [n]) i g) ∨
      Reached a sel (listing d rest) d i g := by
  have memc : ∀ x, x ∈ listing d (.cons n f ch rest) ↔ x = (d ++ [n], f) ∨ x ∈ (if f.isdir then listing (d ++ [n]) ch else []) ∨ x ∈ listing d rest := by
    intro x; rw [listing]; simp
  have hdn : d.length < (d ++ [n]).length := by simp
  constructor
  · rintro ⟨hm, ho, hpa⟩
    rcases (memc _).1 hm with he | hm | hm
    · simp only [Prod.mk.injEq] at he; exact .inl he
    · right; left
      obtain ⟨hb, hbn⟩ := below_of_mem hm
      obtain ⟨h1, h2⟩ := (open_child hF hb hbn).1 ho
      have h3 := hpa _ hb hbn hdn
      split at hm
      · next hd =>
        rw [if_pos hd] at h2
        exact ⟨hd, h1, h3.1, h3.2, hm, h2, fun j hj hne hl => hpa j hj hne (Nat.lt_trans hdn hl)⟩
      · simp at hm
    · right; right
      obtain ⟨m, hm', hmi⟩ := mem_listing hm
      exact ⟨hm, (open_rest hF hm' hmi).1 ho, hpa⟩
  · rintro (⟨rfl, rfl⟩ | ⟨hd, hx, hs, hl, hm, ho, hpa⟩ | ⟨hm, ho, hpa⟩)
    · refine ⟨(memc _).2 (.inl rfl), open_head, ?_⟩
      intro j hj hne hl
      exact absurd ((prefix_snoc_cases hj (List.prefix_refl _) hl).eq_of_length_le hj.length_le).symm hne
    · have hm' : (i, g) ∈ (if f.isdir then listing (d ++ [n]) ch else []) := by rw [if_pos hd]; exact hm
      obtain ⟨hb, hbn⟩ := below_of_mem hm'
      refine ⟨(memc _).2 (.inr (.inl hm')), (open_child hF hb hbn).2 ⟨hx, by rw [if_pos hd]; exact ho⟩, ?_⟩
      intro j hj hne hlj
      have hpj := prefix_snoc_cases hj hb hlj
      by_cases he : d ++ [n] = j
      · rw [← he]; exact ⟨hs, hl⟩
      · exact hpa j hj hne (lt_of_le_of_ne hpj.length_le fun e => he (hpj.eq_of_length e))
    · obtain ⟨m, hm', hmi⟩ := mem_listing hm
      exact ⟨(memc _).2 (.inr (.inr hm)), (open_rest hF hm' hmi).2 ho, hpa⟩

/-- the errors about files -/
theorem mem_errs_file {a : Access α} {sel : List α → File → Val} {nm : List α → Bool} (F : Forest α) (hF : F.Ok) (d i : List α) :
    Err.file i ∈ pureErrs a sel nm d F ↔ a.stat i = .fails ∧ nm i = false ∧ (∃ f, Reached a (fun j g => if nm j then .excl else sel j g) (listing d F) d i f) := by
  induction F generalizing d with
  | nil => simp [pureErrs, listing, Reached]
  | cons n f ch rest ihc ihr =>
    have hch := ihc hF.2.1 (d ++ [n])
    have hr := ihr hF.2.2 d
    simp only [reached_cons hF, exists_or, and_or_left]
    rw [pureErrs, List.mem_append, hr, ← or_assoc]
    apply or_congr_left
    by_cases hx : nm (d ++ [n]) = true
    · simp only [hx, if_true, List.not_mem_nil, false_iff]
      rintro (⟨-, h2, g, rfl, -⟩ | ⟨-, -, g, -, h, -⟩)
      · rw [hx] at h2; simp at h2
      · simp at h
    · have hx' : nm (d ++ [n]) = false := by simpa using hx
      cases hs : a.stat (d ++ [n]) with
      | fails =>
        simp only [hx', Bool.false_eq_true, if_false, List.mem_singleton, Err.file.injEq]
        constructor
        · rintro rfl; exact .inl ⟨hs, hx', f, rfl, rfl⟩
        · rintro (⟨-, -, g, h, -⟩ | ⟨-, -, g, -, -, h, -⟩)
          · exact h
          · simp at h
      | gone =>
        simp only [hx', Bool.false_eq_true, if_false, List.not_mem_nil, false_iff]
        rintro (⟨h1, -, g, rfl, -⟩ | ⟨-, -, g, -, -, h, -⟩)
        · rw [hs] at h1; simp at h1
        · simp at h
      | ok =>
        simp only [hx', Bool.false_eq_true, if_false]
        have hno : ¬ (a.stat i = .fails ∧ nm i = false ∧ ∃ g, i = d ++ [n] ∧ g = f) := by
          rintro ⟨h1, -, g, rfl, -⟩; rw [hs] at h1; simp at h1
        simp only [hno, false_or, true_and]
        by_cases hc : f.isdir = true ∧ sel (d ++ [n]) f ≠ .excl
        · rw [if_pos hc]
          by_cases hl : a.lists (d ++ [n]) = true
          · simp only [hl, if_true, hch, hc.1, hc.2, ne_eq, not_false_eq_true, true_and]
          · simp [hl]
        · rw [if_neg hc]
          simp only [List.not_mem_nil, false_iff]
          rintro ⟨-, -, g, h1, h2, -⟩
          exact hc ⟨h1, h2⟩

/-- the errors about directories -/
theorem mem_errs_dir {a : Access α} {sel : List α → File → Val} {nm : List α → Bool} (F : Forest α) (hF : F.Ok) (d i : List α) :
    Err.dir i ∈ pureErrs a sel nm d F ↔ a.lists i = false ∧ a.stat i = .ok ∧
      (∃ f, Reached a (fun j g => if nm j then .excl else sel j g) (listing d F) d i f ∧ f.isdir = true ∧ nm i = false ∧ sel i f ≠ .excl) := by
  induction F generalizing d with
  | nil => simp [pureErrs, listing, Reached]
  | cons n f ch rest ihc ihr =>
    have hch := ihc hF.2.1 (d ++ [n])
    have hr := ihr hF.2.2 d
    simp only [reached_cons hF, or_and_right, exists_or, and_or_left]
    rw [pureErrs, List.mem_append, hr, ← or_assoc]
    apply or_congr_left
    by_cases hx : nm (d ++ [n]) = true
    · simp only [hx, if_true, List.not_mem_nil, false_iff]
      rintro (⟨-, -, g, ⟨rfl, -⟩, -, h2, -⟩ | ⟨-, -, g, ⟨-, h, -⟩, -⟩)
      · rw [hx] at h2; simp at h2
      · simp at h
    · have hx' : nm (d ++ [n]) = false := by simpa using hx
      cases hs : a.stat (d ++ [n]) with
      | fails =>
        simp only [hx', Bool.false_eq_true, if_false, List.mem_singleton, reduceCtorEq, false_iff]
        rintro (⟨-, h1, g, ⟨rfl, -⟩, -⟩ | ⟨-, -, g, ⟨-, -, h, -⟩, -⟩)
        · rw [hs] at h1; simp at h1
        · simp at h
      | gone =>
        simp only [hx', Bool.false_eq_true, if_false, List.not_mem_nil, false_iff]
        rintro (⟨-, h1, g, ⟨rfl, -⟩, -⟩ | ⟨-, -, g, ⟨-, -, h, -⟩, -⟩)
        · rw [hs] at h1; simp at h1
        · simp at h
      | ok =>
        simp only [hx', Bool.false_eq_true, if_false, true_and]
        by_cases hc : f.isdir = true ∧ sel (d ++ [n]) f ≠ .excl
        · rw [if_pos hc]
          by_cases hl : a.lists (d ++ [n]) = true
          · simp only [hl, if_true, hch, hc.1, hc.2, ne_eq, not_false_eq_true, true_and]
            constructor
            · exact .inr
            · rintro (⟨h1, -, g, ⟨rfl, -⟩, -⟩ | h)
              · rw [hl] at h1; simp at h1
              · exact h
          · have hl' : a.lists (d ++ [n]) = false := by simpa using hl
            simp only [hl', Bool.false_eq_true, if_false, List.mem_singleton, Err.dir.injEq]
            constructor
            · rintro rfl; exact .inl ⟨hl', hs, f, ⟨rfl, rfl⟩, hc.1, hx', hc.2⟩
            · rintro (⟨-, -, g, ⟨h, -⟩, -⟩ | ⟨-, -, g, ⟨-, -, h, -⟩, -⟩)
              · exact h
              · simp at h
        · rw [if_neg hc]
          simp only [List.not_mem_nil, false_iff]
          rintro (⟨-, -, g, ⟨rfl, rfl⟩, h1, -, h2⟩ | ⟨-, -, g, ⟨h1, h2, -⟩, -⟩)
          · exact hc ⟨h1, h2⟩
          · exact hc ⟨h1, h2⟩

end Verif.WalkErrors
