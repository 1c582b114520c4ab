import Verif.Props.C26
import Verif.Props.C29
import Mathlib.Data.List.Forall2
/- The walk through a directory and the filter of a listing, as recursive functions. -/
set_option linter.unusedSectionVars false
namespace Verif.Selection
variable {α : Type} [LinearOrder α]

/-! ### the walk -/

/-- the loop `walkLoop` as a recursion over the tree -/
def walk (cs : List (Cond α)) (d : List α) : Forest α → Option (List (List α) × List (Cond α))
  | .nil => some ([], cs)
  | .cons n f ch rest =>
    match entry cs (d ++ [n]) f with
    | none => none
    | some (some .incl, cs') =>
      match (if f.isdir then walk cs' (d ++ [n]) ch else some ([], cs')) with
      | none => none
      | some (o1, cs1) =>
        match walk cs1 d rest with
        | none => none
        | some (o2, cs2) => some ((d ++ [n]) :: o1 ++ o2, cs2)
    | some (some .scan, cs') =>
      match walk cs' (d ++ [n]) ch with
      | none => none
      | some (o1, cs1) =>
        match walk cs1 d rest with
        | none => none
        | some (o2, cs2) => some ((if o1 = [] then [] else (d ++ [n]) :: o1) ++ o2, cs2)
    | some (_, cs') => walk cs' d rest

/-- what the loop does after the walk through one directory -/
def afterWalk (delayed : List (List α)) (st : List (List α × Forest α)) : Option (List (List α) × List (Cond α)) → Option (List (List α))
  | none => none
  | some (o, cs) => if o = [] then walkLoop cs delayed.tail st else (walkLoop cs [] st).map (delayed.reverse ++ o ++ ·)

theorem afterWalk_nil (st : List (List α × Forest α)) (o : List (List α)) (cs : List (Cond α)) :
    afterWalk [] st (some (o, cs)) = (walkLoop cs [] st).map (o ++ ·) := by
  simp only [afterWalk]
  by_cases h : o = []
  · simp [h]
  · simp [h]

theorem walkLoop_eq (F : Forest α) (cs : List (Cond α)) (d : List α) (delayed : List (List α)) (st : List (List α × Forest α)) :
    walkLoop cs delayed ((d, F) :: st) = afterWalk delayed st (walk cs d F) := by
  induction F generalizing cs d delayed st with
  | nil => rw [walkLoop]; simp [walk, afterWalk]
  | cons n f ch rest ihc ihr =>
    rw [walkLoop, walk]
    cases hE : entry cs (d ++ [n]) f with
    | none => simp [afterWalk]
    | some r =>
      obtain ⟨v, cs'⟩ := r
      rcases v with _ | v
      · simp only; exact ihr _ _ _ _
      · cases v with
        | excl => simp only; exact ihr _ _ _ _
        | incl =>
          simp only
          by_cases hd : f.isdir = true
          · rw [if_pos hd, if_pos hd, ihc]
            cases walk cs' (d ++ [n]) ch with
            | none => simp [afterWalk]
            | some r1 =>
              obtain ⟨o1, cs1⟩ := r1
              simp only
              rw [afterWalk_nil, ihr]
              cases walk cs1 d rest with
              | none => simp [afterWalk]
              | some r2 =>
                obtain ⟨o2, cs2⟩ := r2
                simp only
                rw [afterWalk_nil]
                simp only [afterWalk, List.cons_append, reduceCtorEq, if_false, Option.map_map]
                congr 1
                funext x; simp
          · rw [if_neg hd, if_neg hd, ihr]
            simp only
            cases walk cs' d rest with
            | none => simp [afterWalk]
            | some r2 =>
              obtain ⟨o2, cs2⟩ := r2
              simp only
              rw [afterWalk_nil]
              simp only [afterWalk, List.cons_append, reduceCtorEq, if_false, Option.map_map]
              congr 1
              funext x; simp
        | scan =>
          simp only
          rw [ihc]
          cases walk cs' (d ++ [n]) ch with
          | none => simp [afterWalk]
          | some r1 =>
            obtain ⟨o1, cs1⟩ := r1
            simp only [afterWalk, List.tail_cons]
            by_cases ho : o1 = []
            · simp only [ho, if_true]
              rw [ihr]
              cases walk cs1 d rest with
              | none => simp [afterWalk]
              | some r2 =>
                obtain ⟨o2, cs2⟩ := r2
                simp [afterWalk]
            · simp only [ho, if_false]
              rw [ihr]
              cases walk cs1 d rest with
              | none => simp [afterWalk]
              | some r2 =>
                obtain ⟨o2, cs2⟩ := r2
                simp only
                rw [afterWalk_nil]
                simp only [List.cons_append, reduceCtorEq, if_false, Option.map_map]
                congr 1
                funext x; simp

theorem iterate_eq (cs : List (Cond α)) (root : File) (content : Forest α) (hd : root.isdir = true) :
    iterate cs root content = (walk cs [] content).map fun r => [] :: r.1 := by
  rw [iterate, if_pos hd, walkLoop_eq]
  cases walk cs [] content with
  | none => rfl
  | some r =>
    obtain ⟨o, cs'⟩ := r
    rw [afterWalk_nil, walkLoop]
    simp

/-! ### selection by a fixed function -/

/-- what `diryield` makes of a decision -/
def gen (v : Val) (f : File) : Option Val :=
  match v with
  | .incl => some .incl
  | .scan => if f.isdir then some .scan else none
  | .excl => none

def pureWalk (sel : List α → File → Val) (d : List α) : Forest α → List (List α)
  | .nil => []
  | .cons n f ch rest =>
    (match gen (sel (d ++ [n]) f) f with
     | some .incl => (d ++ [n]) :: (if f.isdir then pureWalk sel (d ++ [n]) ch else [])
     | some .scan => if pureWalk sel (d ++ [n]) ch = [] then [] else (d ++ [n]) :: pureWalk sel (d ++ [n]) ch
     | _ => []) ++ pureWalk sel d rest

def Forest.names : Forest α → List α
  | .nil => []
  | .cons n _ _ rest => n :: rest.names

/-- directory listings are sorted and names are unique (selection.py 311-321 `_listdir_sorted`) -/
def Forest.Ok : Forest α → Prop
  | .nil => True
  | .cons n _ ch rest => (∀ m ∈ rest.names, n < m) ∧ ch.Ok ∧ rest.Ok

theorem mem_listing {d : List α} {F : Forest α} {x : List α × File} (h : x ∈ listing d F) : ∃ m ∈ F.names, (d ++ [m]) <+: x.1 := by
  induction F generalizing d with
  | nil => simp [listing] at h
  | cons n f ch rest ihc ihr =>
    rw [listing] at h
    simp only [List.cons_append, List.mem_cons, List.mem_append] at h
    rcases h with rfl | h | h
    · exact ⟨n, by simp [Forest.names], List.prefix_refl _⟩
    · split at h
      · obtain ⟨m, -, hm⟩ := ihc h
        exact ⟨n, by simp [Forest.names], (List.prefix_append _ _).trans hm⟩
      · simp at h
    · obtain ⟨m, hm, h⟩ := ihr h
      exact ⟨m, by simp [Forest.names, hm], h⟩

theorem snoc_prefix_inj {d i : List α} {n m : α} (h1 : (d ++ [n]) <+: i) (h2 : (d ++ [m]) <+: i) : n = m := by
  have := List.prefix_of_prefix_length_le h1 h2 (by simp)
  have := this.eq_of_length (by simp)
  simpa using this

/-- below smaller names is before below greater names -/
theorem snoc_lt {d i j : List α} {n m : α} (h : n < m) (h1 : (d ++ [n]) <+: i) (h2 : (d ++ [m]) <+: j) : i < j := by
  obtain ⟨t, rfl⟩ := h1
  obtain ⟨u, rfl⟩ := h2
  induction d with
  | nil => simp [List.cons_lt_cons_iff, h]
  | cons x d ih => simpa [List.cons_lt_cons_iff] using ih

theorem lt_of_prefix_ne {i j : List α} (h : i <+: j) (hne : i ≠ j) : i < j := lt_of_le_of_ne (prefix_le h) hne

/-! ### conditions act like a fixed function -/

/-- the condition has moved on, but answers for paths from `i` on as at first -/
def Rel (i : List α) (c c₀ : Cond α) : Prop :=
  c = c₀ ∨ ∃ rest rest₀ e, c = .filelist rest e ∧ c₀ = .filelist rest₀ e ∧ ∀ j, i ≤ j → (filelistFn j rest).1 = (filelistFn j rest₀).1

theorem Rel.mono {i j : List α} (h : i ≤ j) {c c₀ : Cond α} (hr : Rel i c c₀) : Rel j c c₀ := by
  rcases hr with rfl | ⟨rest, rest₀, e, h1, h2, h3⟩
  · exact .inl rfl
  · exact .inr ⟨rest, rest₀, e, h1, h2, fun k hk => h3 k (le_trans h hk)⟩

theorem apply_state (c : Cond α) (i : List α) (f : File) :
    (∃ v, c.apply i (some f) = some (v, c)) ∨ ∃ rest e, c = .filelist rest e := by
  cases c with
  | filelist rest e => exact .inr ⟨rest, e, rfl⟩
  | special | kind | regexp | presence | all | tuple | glob => exact .inl ⟨_, rfl⟩
  | otherFs => exact .inl ⟨_, rfl⟩
  | size n mx =>
    left
    simp only [Cond.apply]
    split <;> exact ⟨_, rfl⟩

theorem Rel.step {i : List α} {c c₀ : Cond α} (h : Rel i c c₀) (f : File) :
    ∃ v c' c₀', c.apply i (some f) = some (v, c') ∧ c₀.apply i (some f) = some (v, c₀') ∧ ∀ j, i < j → Rel j c' c₀ := by
  have hfl : ∀ (rest rest₀ : List (List α × Bool)) (e : Bool), (∀ j, i ≤ j → (filelistFn j rest).1 = (filelistFn j rest₀).1) →
      ∃ v c' c₀', (Cond.filelist rest e).apply i (some f) = some (v, c') ∧ (Cond.filelist rest₀ e).apply i (some f) = some (v, c₀') ∧
        ∀ j, i < j → Rel j c' (.filelist rest₀ e) := by
    intro rest rest₀ e h
    refine ⟨(filelistFn i rest).1, .filelist (filelistFn i rest).2 e, .filelist (filelistFn i rest₀).2 e, rfl, ?_, ?_⟩
    · rw [h i (le_refl i)]; rfl
    · intro j hj
      refine .inr ⟨_, _, e, rfl, rfl, fun k hk => ?_⟩
      rw [C29.later (lt_of_lt_of_le hj hk), h k (le_trans (le_of_lt hj) hk)]
  rcases h with rfl | ⟨rest, rest₀, e, rfl, rfl, h⟩
  · rcases apply_state c i f with ⟨v, hv⟩ | ⟨rest, e, rfl⟩
    · exact ⟨v, c, c, hv, hv, fun _ _ => .inl rfl⟩
    · exact hfl rest rest e fun _ _ => rfl
  · exact hfl rest rest₀ e h

/-- all conditions are related -/
abbrev RelAll (i : List α) (cs cs₀ : List (Cond α)) : Prop := List.Forall₂ (Rel i) cs cs₀

theorem RelAll.refl (i : List α) (cs : List (Cond α)) : RelAll i cs cs := by
  induction cs with
  | nil => exact .nil
  | cons c cs ih => exact .cons (.inl rfl) ih

theorem RelAll.mono {i j : List α} (h : i ≤ j) {cs cs₀ : List (Cond α)} (hr : RelAll i cs cs₀) : RelAll j cs cs₀ :=
  List.Forall₂.imp (fun _ _ => Rel.mono h) hr

theorem RelAll.select {i : List α} {cs cs₀ : List (Cond α)} (h : RelAll i cs cs₀) (scanned : Val) (f : File) :
    ∃ v cs' cs₀', selectFrom scanned i (some f) cs = some (v, cs') ∧ selectFrom scanned i (some f) cs₀ = some (v, cs₀') ∧
      ∀ j, i < j → RelAll j cs' cs₀ := by
  induction h generalizing scanned with
  | nil => exact ⟨.incl, [], [], rfl, rfl, fun _ _ => .nil⟩
  | @cons c c₀ cs cs₀ hc hcs ih =>
    obtain ⟨v, c', c₀', h1, h2, h3⟩ := hc.step f
    rw [selectFrom, selectFrom, h1, h2]
    have htail : ∀ j, i < j → RelAll j (c' :: cs) (c₀ :: cs₀) := fun j hj => .cons (h3 j hj) (RelAll.mono (le_of_lt hj) hcs)
    rcases v with _ | v
    · obtain ⟨w, cs1, cs2, h4, h5, h6⟩ := ih scanned
      exact ⟨w, c' :: cs1, c₀' :: cs2, by simp [h4], by simp [h5], fun j hj => .cons (h3 j hj) (h6 j hj)⟩
    · cases v with
      | incl => exact ⟨_, _, _, rfl, rfl, htail⟩
      | excl => exact ⟨_, _, _, rfl, rfl, htail⟩
      | scan =>
        obtain ⟨w, cs1, cs2, h4, h5, h6⟩ := ih .scan
        exact ⟨w, c' :: cs1, c₀' :: cs2, by simp [h4], by simp [h5], fun j hj => .cons (h3 j hj) (h6 j hj)⟩

/-- the decision about a file, asked first -/
def decide' (cs : List (Cond α)) (i : List α) (f : File) : Val := ((selectDefault cs i (some f)).map (·.1)).getD .excl

theorem decide'_eq {cs : List (Cond α)} {i : List α} {f : File} {v : Val} {cs' : List (Cond α)} (h : selectDefault cs i (some f) = some (v, cs')) :
    decide' cs i f = v := by simp [decide', h]

theorem Rel.plain {i : List α} {c c₀ : Cond α} (h : Rel i c c₀) (hp : C26.Plain c₀) : C26.Plain c := by
  rcases h with rfl | ⟨rest, rest₀, e, rfl, rfl, -⟩
  exacts [hp, hp]

theorem RelAll.plain {i : List α} {cs cs₀ : List (Cond α)} (h : RelAll i cs cs₀) (hp : ∀ c ∈ cs₀, C26.Plain c) : ∀ c ∈ cs, C26.Plain c := by
  induction h with
  | nil => simp
  | @cons c c₀ cs cs₀ hc hcs ih =>
    intro x hx
    rcases List.mem_cons.1 hx with rfl | hx
    · exact hc.plain (hp c₀ List.mem_cons_self)
    · exact ih (fun c h => hp c (List.mem_cons_of_mem _ h)) x hx

theorem entry_pure {i : List α} {cs cs₀ : List (Cond α)} (h : RelAll i cs cs₀) (hp : ∀ c ∈ cs₀, C26.Plain c) (f : File) :
    ∃ cs', entry cs i f = some (gen (decide' cs₀ i f) f, cs') ∧ ∀ j, i < j → RelAll j cs' cs₀ := by
  have hpc := h.plain hp
  obtain ⟨v, cs1, cs2, h1, h2, h3⟩ := h.select .excl f
  have hv := decide'_eq h2
  obtain ⟨w, hw⟩ := C26.selectName_state hpc .excl i
  simp only [entry, selectFilename, hw, hv]
  by_cases he : w = .excl
  · subst he
    obtain ⟨cs3, h4⟩ := C26.name_excl hpc i f hw
    rw [h1] at h4
    simp only [Option.some.injEq, Prod.mk.injEq] at h4
    exact ⟨cs, by rw [h4.1]; rfl, fun j hj => RelAll.mono (le_of_lt hj) h⟩
  · have hsel : selectDefault cs i (some f) = some (v, cs1) := h1
    refine ⟨cs1, ?_, h3⟩
    cases w <;> first | exact absurd rfl he | (simp only [hsel]; cases v <;> rfl)

theorem walk_pure {cs₀ : List (Cond α)} (hp : ∀ c ∈ cs₀, C26.Plain c) (F : Forest α) (hF : F.Ok) (d : List α) (cs : List (Cond α))
    (h : ∀ m ∈ F.names, RelAll (d ++ [m]) cs cs₀) :
    ∃ cs', walk cs d F = some (pureWalk (decide' cs₀) d F, cs') ∧
      ∀ j, (∀ m ∈ F.names, ∀ i, (d ++ [m]) <+: i → i < j) → RelAll j cs cs₀ → RelAll j cs' cs₀ := by
  induction F generalizing d cs with
  | nil => exact ⟨cs, rfl, fun j _ h => h⟩
  | cons n f ch rest ihc ihr =>
    obtain ⟨hn, hch, hrest⟩ := hF
    have hmn : n ∈ (Forest.cons n f ch rest).names := by simp [Forest.names]
    obtain ⟨cs1, h1, h2⟩ := entry_pure (h n hmn) hp f
    have hlt : ∀ m ∈ rest.names, ∀ i, (d ++ [n]) <+: i → i < d ++ [m] := fun m hm i hi => snoc_lt (hn m hm) hi (List.prefix_refl _)
    -- the rest, from conditions cs2 reached within the subtree at d ++ [n]
    have goRest : ∀ cs2 : List (Cond α), (∀ j, (∀ i, (d ++ [n]) <+: i → i < j) → RelAll j cs2 cs₀) →
        ∃ cs', walk cs2 d rest = some (pureWalk (decide' cs₀) d rest, cs') ∧
          ∀ j, (∀ m ∈ (Forest.cons n f ch rest).names, ∀ i, (d ++ [m]) <+: i → i < j) → RelAll j cs' cs₀ := by
      intro cs2 hcs2
      obtain ⟨cs', h3, h4⟩ := ihr hrest d cs2 fun m hm => hcs2 _ (hlt m hm)
      exact ⟨cs', h3, fun j hj => h4 j (fun m hm => hj m (by simp [Forest.names, hm])) (hcs2 j (hj n hmn))⟩
    have goChild : ∀ cs1 : List (Cond α), (∀ j, d ++ [n] < j → RelAll j cs1 cs₀) →
        ∃ cs', walk cs1 (d ++ [n]) ch = some (pureWalk (decide' cs₀) (d ++ [n]) ch, cs') ∧
          ∀ j, (∀ i, (d ++ [n]) <+: i → i < j) → RelAll j cs' cs₀ := by
      intro cs1 hcs1
      obtain ⟨cs', h3, h4⟩ := ihc hch (d ++ [n]) cs1 fun m _ => hcs1 _ (lt_of_prefix_ne (List.prefix_append _ _) (by simp))
      refine ⟨cs', h3, fun j hj => h4 j ?_ (hcs1 j (hj _ (List.prefix_refl _)))⟩
      intro m _ i hi
      exact hj i ((List.prefix_append _ _).trans hi)
    have hcs1 : ∀ j, (∀ i, (d ++ [n]) <+: i → i < j) → RelAll j cs1 cs₀ := fun j hj => h2 j (hj _ (List.prefix_refl _))
    rw [walk, h1, pureWalk]
    cases hg : gen (decide' cs₀ (d ++ [n]) f) f with
    | none =>
      obtain ⟨cs', h3, h4⟩ := goRest cs1 hcs1
      exact ⟨cs', by simpa using h3, fun j hj _ => h4 j hj⟩
    | some v =>
      cases v with
      | excl =>
        obtain ⟨cs', h3, h4⟩ := goRest cs1 hcs1
        exact ⟨cs', by simpa using h3, fun j hj _ => h4 j hj⟩
      | incl =>
        simp only
        by_cases hd : f.isdir = true
        · obtain ⟨cs2, h3, h4⟩ := goChild cs1 h2
          obtain ⟨cs', h5, h6⟩ := goRest cs2 h4
          exact ⟨cs', by simp [hd, h3, h5], fun j hj _ => h6 j hj⟩
        · obtain ⟨cs', h5, h6⟩ := goRest cs1 hcs1
          exact ⟨cs', by simp [hd, h5], fun j hj _ => h6 j hj⟩
      | scan =>
        simp only
        obtain ⟨cs2, h3, h4⟩ := goChild cs1 h2
        obtain ⟨cs', h5, h6⟩ := goRest cs2 h4
        exact ⟨cs', by simp [h3, h5], fun j hj _ => h6 j hj⟩

/-! ### what the walk generates -/

/-- no directory above `i` is excluded -/
def Open (sel : List α → File → Val) (paths : List (List α × File)) (i : List α) : Prop :=
  ∀ j g, (j, g) ∈ paths → j <+: i → j ≠ i → sel j g ≠ .excl

/-- included, or a directory to be scanned which contains something included -/
def Selected (sel : List α → File → Val) (paths : List (List α × File)) (i : List α) : Prop :=
  ∃ f, (i, f) ∈ paths ∧ Open sel paths i ∧
    (sel i f = .incl ∨ sel i f = .scan ∧ ∃ k g, (k, g) ∈ paths ∧ i <+: k ∧ i ≠ k ∧ Open sel paths k ∧ sel k g = .incl)

theorem isdir_of_below {d : List α} {F : Forest α} (hF : F.Ok) {i k : List α} {f g : File} (h1 : (i, f) ∈ listing d F) (h2 : (k, g) ∈ listing d F)
    (hp : i <+: k) (hne : i ≠ k) : f.isdir = true := by
  induction F generalizing d with
  | nil => simp [listing] at h1
  | cons n f' ch rest ihc ihr =>
    obtain ⟨hn, hch, hrest⟩ := hF
    have cross : ∀ {x y : List α × File} {m}, m ∈ rest.names → (d ++ [n]) <+: y.1 → (d ++ [m]) <+: x.1 → ¬ x.1 <+: y.1 ∧ ¬ y.1 <+: x.1 := by
      intro x y m hm hy hx
      have hlt := hn m hm
      exact ⟨fun h => absurd (snoc_prefix_inj hy (hx.trans h)) (ne_of_lt hlt), fun h => absurd (snoc_prefix_inj (hy.trans h) hx) (ne_of_lt hlt)⟩
    rw [listing] at h1 h2
    simp only [List.cons_append, List.mem_cons, List.mem_append, Prod.mk.injEq] at h1 h2
    by_cases hd : f'.isdir = true
    · simp only [hd, if_true] at h1 h2
      rcases h1 with ⟨rfl, rfl⟩ | h1 | h1
      · exact hd
      · rcases h2 with ⟨rfl, rfl⟩ | h2 | h2
        · obtain ⟨m, -, hm⟩ := mem_listing h1
          have := (hm.trans hp).length_le
          simp at this
        · exact ihc hch h1 h2
        · obtain ⟨m, -, hm⟩ := mem_listing h1
          obtain ⟨m', hm', h⟩ := mem_listing h2
          exact absurd hp (cross (x := (k, g)) (y := (i, f)) hm' ((List.prefix_append _ _).trans hm) h).2
      · obtain ⟨m', hm', h⟩ := mem_listing h1
        rcases h2 with ⟨rfl, rfl⟩ | h2 | h2
        · exact absurd hp (cross (x := (i, f)) (y := (d ++ [n], f)) hm' (List.prefix_refl _) h).1
        · obtain ⟨m, -, hm⟩ := mem_listing h2
          exact absurd hp (cross (x := (i, f)) (y := (k, g)) hm' ((List.prefix_append _ _).trans hm) h).1
        · exact ihr hrest h1 h2
    · simp only [hd, List.not_mem_nil, false_or, Bool.false_eq_true, if_false] at h1 h2
      rcases h1 with ⟨rfl, rfl⟩ | h1
      · rcases h2 with ⟨rfl, rfl⟩ | h2
        · exact absurd rfl hne
        · obtain ⟨m', hm', h⟩ := mem_listing h2
          exact absurd hp (cross (x := (k, g)) (y := (d ++ [n], f)) hm' (List.prefix_refl _) h).2
      · obtain ⟨m', hm', h⟩ := mem_listing h1
        rcases h2 with ⟨rfl, rfl⟩ | h2
        · exact absurd hp (cross (x := (i, f)) (y := (d ++ [n], f)) hm' (List.prefix_refl _) h).1
        · exact ihr hrest h1 h2

theorem open_child {sel : List α → File → Val} {d : List α} {n : α} {f : File} {ch rest : Forest α} (hF : (Forest.cons n f ch rest).Ok) {i : List α}
    (hi : (d ++ [n]) <+: i) (hne : d ++ [n] ≠ i) :
    Open sel (listing d (.cons n f ch rest)) i ↔ sel (d ++ [n]) f ≠ .excl ∧ Open sel (if f.isdir then listing (d ++ [n]) ch else []) i := by
  constructor
  · intro h
    refine ⟨h _ f (by rw [listing]; simp) hi hne, fun j g hj => h j g ?_⟩
    rw [listing]; simp only [List.cons_append, List.mem_cons, List.mem_append]; exact .inr (.inl hj)
  · rintro ⟨h1, h2⟩ j g hj hp hn
    rw [listing] at hj
    simp only [List.cons_append, List.mem_cons, List.mem_append, Prod.mk.injEq] at hj
    rcases hj with ⟨rfl, rfl⟩ | hj | hj
    · exact h1
    · exact h2 j g hj hp hn
    · obtain ⟨m, hm, hmj⟩ := mem_listing hj
      exact absurd (snoc_prefix_inj hi (hmj.trans hp)) (ne_of_lt (hF.1 m hm))

theorem open_rest {sel : List α → File → Val} {d : List α} {n : α} {f : File} {ch rest : Forest α} (hF : (Forest.cons n f ch rest).Ok) {i : List α}
    {m : α} (hm : m ∈ rest.names) (hi : (d ++ [m]) <+: i) :
    Open sel (listing d (.cons n f ch rest)) i ↔ Open sel (listing d rest) i := by
  constructor
  · intro h j g hj
    refine h j g ?_
    rw [listing]; simp only [List.cons_append, List.mem_cons, List.mem_append]; exact .inr (.inr hj)
  · intro h j g hj hp hn
    have no : (d ++ [n]) <+: j → False := fun hx => absurd (snoc_prefix_inj (hx.trans hp) hi) (ne_of_lt (hF.1 m hm))
    rw [listing] at hj
    simp only [List.cons_append, List.mem_cons, List.mem_append, Prod.mk.injEq] at hj
    rcases hj with ⟨rfl, rfl⟩ | hj | hj
    · exact (no (List.prefix_refl _)).elim
    · split at hj
      · obtain ⟨m', -, hm'⟩ := mem_listing hj
        exact (no ((List.prefix_append _ _).trans hm')).elim
      · simp at hj
    · exact h j g hj hp hn

theorem open_head {sel : List α → File → Val} {d : List α} {n : α} {f : File} {ch rest : Forest α} :
    Open sel (listing d (.cons n f ch rest)) (d ++ [n]) := by
  intro j g hj hp hn
  obtain ⟨m, -, hm⟩ := mem_listing hj
  have h1 := hp.length_le
  have h2 := hm.length_le
  exact absurd (hp.eq_of_length (by simp at h1 h2 ⊢; omega)) hn

theorem below_of_mem {d : List α} {n : α} {f : File} {ch : Forest α} {i : List α} {g : File}
    (h : (i, g) ∈ (if f.isdir then listing (d ++ [n]) ch else [])) : (d ++ [n]) <+: i ∧ d ++ [n] ≠ i := by
  split at h
  · obtain ⟨m, -, hm⟩ := mem_listing h
    refine ⟨(List.prefix_append _ _).trans hm, ?_⟩
    intro he
    have := hm.length_le
    simp [← he] at this
  · simp at h

theorem selected_cons {sel : List α → File → Val} {d : List α} {n : α} {f : File} {ch rest : Forest α} (hF : (Forest.cons n f ch rest).Ok) (i : List α) :
    Selected sel (listing d (.cons n f ch rest)) i ↔
      (i = d ++ [n] ∧ (sel (d ++ [n]) f = .incl ∨ sel (d ++ [n]) f = .scan ∧
        ∃ k g, (k, g) ∈ (if f.isdir then listing (d ++ [n]) ch else []) ∧ Open sel (if f.isdir then listing (d ++ [n]) ch else []) k ∧ sel k g = .incl)) ∨
      (sel (d ++ [n]) f ≠ .excl ∧ Selected sel (if f.isdir then listing (d ++ [n]) ch else []) i) ∨ Selected sel (listing d rest) i := by
  have memc : ∀ x, x ∈ listing d (.cons n f ch rest) ↔ x = (d ++ [n], f) ∨ x ∈ (if f.isdir then listing (d ++ [n]) ch else []) ∨ x ∈ listing d rest := by
    intro x; rw [listing]; simp
  have nor : ∀ {k : List α} {g : File}, (k, g) ∈ listing d rest → (d ++ [n]) <+: k → False := by
    intro k g hk hp
    obtain ⟨m, hm, h⟩ := mem_listing hk
    exact absurd (snoc_prefix_inj hp h) (ne_of_lt (hF.1 m hm))
  constructor
  · rintro ⟨g, hg, ho, hs⟩
    rcases (memc _).1 hg with he | hg | hg
    · simp only [Prod.mk.injEq] at he
      obtain ⟨rfl, rfl⟩ := he
      left
      refine ⟨rfl, ?_⟩
      rcases hs with hs | ⟨hs, k, g', hk, hp, hne, hok, hsk⟩
      · exact .inl hs
      · refine .inr ⟨hs, k, g', ?_, ((open_child hF hp hne).1 hok).2, hsk⟩
        rcases (memc _).1 hk with he | hk | hk
        · simp only [Prod.mk.injEq] at he; exact absurd he.1.symm hne
        · exact hk
        · exact (nor hk hp).elim
    · right; left
      obtain ⟨hb, hbn⟩ := below_of_mem hg
      obtain ⟨h1, h2⟩ := (open_child hF hb hbn).1 ho
      refine ⟨h1, g, hg, h2, ?_⟩
      rcases hs with hs | ⟨hs, k, g', hk, hp, hne, hok, hsk⟩
      · exact .inl hs
      · have hbk := hb.trans hp
        rcases (memc _).1 hk with he | hk | hk
        · simp only [Prod.mk.injEq] at he
          have e : d ++ [n] = i := List.IsPrefix.eq_of_length_le hb (by rw [← he.1]; exact hp.length_le)
          exact absurd e hbn
        · obtain ⟨hbk, hbkn⟩ := below_of_mem hk
          exact .inr ⟨hs, k, g', hk, hp, hne, ((open_child hF hbk hbkn).1 hok).2, hsk⟩
        · exact (nor hk hbk).elim
    · right; right
      obtain ⟨m, hm, hmi⟩ := mem_listing hg
      refine ⟨g, hg, (open_rest hF hm hmi).1 ho, ?_⟩
      rcases hs with hs | ⟨hs, k, g', hk, hp, hne, hok, hsk⟩
      · exact .inl hs
      · refine .inr ⟨hs, k, g', ?_, hp, hne, (open_rest hF hm (hmi.trans hp)).1 hok, hsk⟩
        rcases (memc _).1 hk with he | hk | hk
        · simp only [Prod.mk.injEq] at he
          exact absurd (snoc_prefix_inj (by rw [← he.1]; exact List.prefix_refl _) (hmi.trans hp)) (ne_of_lt (hF.1 m hm))
        · exact absurd (snoc_prefix_inj (below_of_mem hk).1 (hmi.trans hp)) (ne_of_lt (hF.1 m hm))
        · exact hk
  · rintro (⟨rfl, hs⟩ | ⟨hx, g, hg, ho, hs⟩ | ⟨g, hg, ho, hs⟩)
    · refine ⟨f, (memc _).2 (.inl rfl), open_head, ?_⟩
      rcases hs with hs | ⟨hs, k, g, hk, hok, hsk⟩
      · exact .inl hs
      · obtain ⟨hb, hbn⟩ := below_of_mem hk
        exact .inr ⟨hs, k, g, (memc _).2 (.inr (.inl hk)), hb, hbn, (open_child hF hb hbn).2 ⟨by rw [hs]; simp, hok⟩, hsk⟩
    · obtain ⟨hb, hbn⟩ := below_of_mem hg
      refine ⟨g, (memc _).2 (.inr (.inl hg)), (open_child hF hb hbn).2 ⟨hx, ho⟩, ?_⟩
      rcases hs with hs | ⟨hs, k, g', hk, hp, hne, hok, hsk⟩
      · exact .inl hs
      · obtain ⟨hb, hbn⟩ := below_of_mem hk
        exact .inr ⟨hs, k, g', (memc _).2 (.inr (.inl hk)), hp, hne, (open_child hF hb hbn).2 ⟨hx, hok⟩, hsk⟩
    · obtain ⟨m, hm, hmi⟩ := mem_listing hg
      refine ⟨g, (memc _).2 (.inr (.inr hg)), (open_rest hF hm hmi).2 ho, ?_⟩
      rcases hs with hs | ⟨hs, k, g', hk, hp, hne, hok, hsk⟩
      · exact .inl hs
      · exact .inr ⟨hs, k, g', (memc _).2 (.inr (.inr hk)), hp, hne, (open_rest hF hm (hmi.trans hp)).2 hok, hsk⟩

theorem not_selected_nil {sel : List α → File → Val} {i : List α} : ¬ Selected sel [] i := by
  rintro ⟨f, hf, -⟩; simp at hf

theorem mem_pureWalk {sel : List α → File → Val} {F : Forest α} (hF : F.Ok) (d i : List α) :
    i ∈ pureWalk sel d F ↔ Selected sel (listing d F) i := by
  induction F generalizing d i with
  | nil => simp [pureWalk, listing, not_selected_nil]
  | cons n f ch rest ihc ihr =>
    rw [pureWalk, selected_cons hF, List.mem_append, ihr hF.2.2, ← or_assoc]
    apply or_congr_left
    have ne_nil : pureWalk sel (d ++ [n]) ch ≠ [] ↔ ∃ k g, (k, g) ∈ listing (d ++ [n]) ch ∧ Open sel (listing (d ++ [n]) ch) k ∧ sel k g = .incl := by
      constructor
      · intro h
        obtain ⟨j, hj⟩ := List.exists_mem_of_ne_nil _ h
        obtain ⟨g, h1, h2, h3⟩ := (ihc hF.2.1 _ _).1 hj
        rcases h3 with h3 | ⟨-, k, g', hk, -, -, hok, hsk⟩
        · exact ⟨j, g, h1, h2, h3⟩
        · exact ⟨k, g', hk, hok, hsk⟩
      · rintro ⟨k, g, h1, h2, h3⟩
        exact List.ne_nil_of_mem ((ihc hF.2.1 _ _).2 ⟨g, h1, h2, .inl h3⟩)
    by_cases hd : f.isdir = true
    · simp only [hd, if_true]
      cases hs : sel (d ++ [n]) f with
      | excl => simp [gen]
      | incl => simp [gen, ihc hF.2.1]
      | scan =>
        simp only [gen, hd, if_true, reduceCtorEq, false_or, true_and, ne_eq, not_false_eq_true]
        rw [← ne_nil]
        by_cases he : pureWalk sel (d ++ [n]) ch = []
        · rw [if_pos he, ← ihc hF.2.1]; simp [he]
        · rw [if_neg he, ← ihc hF.2.1]; simp [he]
    · simp only [hd, Bool.false_eq_true, if_false]
      cases hs : sel (d ++ [n]) f with
      | excl => simp [gen]
      | incl => simp [gen, not_selected_nil]
      | scan => simp [gen, hd, not_selected_nil]

theorem pureWalk_below {sel : List α → File → Val} {F : Forest α} (hF : F.Ok) {d i : List α} (h : i ∈ pureWalk sel d F) : ∃ m ∈ F.names, (d ++ [m]) <+: i := by
  obtain ⟨f, hf, -⟩ := (mem_pureWalk hF d i).1 h
  exact mem_listing hf

theorem pureWalk_sorted {sel : List α → File → Val} {F : Forest α} (hF : F.Ok) (d : List α) : (pureWalk sel d F).Pairwise (· < ·) := by
  induction F generalizing d with
  | nil => simp [pureWalk]
  | cons n f ch rest ihc ihr =>
    have child : ((d ++ [n]) :: pureWalk sel (d ++ [n]) ch).Pairwise (· < ·) := by
      rw [List.pairwise_cons]
      refine ⟨fun k hk => ?_, ihc hF.2.1 _⟩
      obtain ⟨m, -, hm⟩ := pureWalk_below hF.2.1 hk
      exact lt_of_prefix_ne ((List.prefix_append _ _).trans hm) (fun e => by have := hm.length_le; simp [← e] at this)
    have low : ∀ i, i ∈ (d ++ [n]) :: pureWalk sel (d ++ [n]) ch → (d ++ [n]) <+: i := by
      intro i hi
      rcases List.mem_cons.1 hi with rfl | hi
      · exact List.prefix_refl _
      · obtain ⟨m, -, hm⟩ := pureWalk_below hF.2.1 hi
        exact (List.prefix_append _ _).trans hm
    rw [pureWalk]
    have key : ∀ l : List (List α), l.Sublist ((d ++ [n]) :: pureWalk sel (d ++ [n]) ch) → (l ++ pureWalk sel d rest).Pairwise (· < ·) := by
      intro l hl
      rw [List.pairwise_append]
      refine ⟨child.sublist hl, ihr hF.2.2 d, fun a ha b hb => ?_⟩
      obtain ⟨m, hm, hmb⟩ := pureWalk_below hF.2.2 hb
      exact snoc_lt (hF.1 m hm) (low a (hl.subset ha)) hmb
    apply key
    cases gen (sel (d ++ [n]) f) f with
    | none => simp
    | some v =>
      cases v with
      | excl => simp
      | incl => by_cases hd : f.isdir = true <;> simp [hd]
      | scan => by_cases hd : pureWalk sel (d ++ [n]) ch = [] <;> simp [hd]

end Verif.Selection
