import Verif.Proof.Selection
/- `FilterIter` on the listing of a directory, as a recursive function. -/
set_option linter.unusedSectionVars false
namespace Verif.Selection
variable {α : Type} [LinearOrder α]

/-- what `FilterIter` generates for the content of the directory `d`, and the queue afterwards; `e`: branch_excluded of `d` -/
def filtWalk (sel : List α → File → Val) (e : Bool) (d : List α) : Forest α → List (List α) → List (List α) × List (List α)
  | .nil, q => ([], q)
  | .cons n f ch rest, q =>
    let r1 : List (List α) × List (List α) :=
      if f.isdir then
        match sel (d ++ [n]) f with
        | .excl => filtWalk sel true (d ++ [n]) ch q
        | .incl => let r := filtWalk sel false (d ++ [n]) ch []; (q.reverse ++ [d ++ [n]] ++ r.1, r.2)
        | .scan => filtWalk sel false (d ++ [n]) ch ((d ++ [n]) :: q.dropWhile (· ≠ d))
      else if e then ([], q)
      else
        match sel (d ++ [n]) f with
        | .incl => (q.reverse ++ [d ++ [n]], [])
        | _ => ([], q)
    let r2 := filtWalk sel e d rest r1.2
    (r1.1 ++ r2.1, r2.2)

theorem selectDefault_rel {i : List α} {cs cs₀ : List (Cond α)} (h : RelAll i cs cs₀) (f : File) :
    ∃ cs', selectDefault cs i (some f) = some (decide' cs₀ i f, cs') ∧ ∀ j, i < j → RelAll j cs' cs₀ := by
  obtain ⟨v, cs1, cs2, h1, h2, h3⟩ := h.select .excl f
  exact ⟨cs1, by rw [decide'_eq h2]; exact h1, h3⟩

/-- the state is ready for the content `F` of the directory `d` -/
structure Ready (cs₀ : List (Cond α)) (d : List α) (e : Bool) (bs : List (List α × Bool)) (F : Forest α) (s : FSt α) : Prop where
  rel : ∀ m ∈ F.names, RelAll (d ++ [m]) s.cs cs₀
  index : ∃ cur, s.index = some cur ∧ ∀ m ∈ F.names, cur < d ++ [m]
  branches : ∃ Y, s.branches = Y ++ (d, e) :: bs ∧ ∀ y ∈ Y, ∀ m ∈ F.names, ¬ y.1 <+: d ++ [m]

/-- the state after the content `F` of `d`, started from `s` -/
structure After (cs₀ : List (Cond α)) (d : List α) (e : Bool) (bs : List (List α × Bool)) (F : Forest α) (s s' : FSt α) : Prop where
  rel : ∀ j, (∀ m ∈ F.names, ∀ i, (d ++ [m]) <+: i → i < j) → RelAll j s.cs cs₀ → RelAll j s'.cs cs₀
  index : ∀ cur, s.index = some cur → ∃ cur', s'.index = some cur' ∧ (cur' = cur ∨ ∃ m ∈ F.names, (d ++ [m]) <+: cur')
  branches : ∀ Y, s.branches = Y ++ (d, e) :: bs → ∃ Y', s'.branches = Y' ++ (d, e) :: bs ∧
    ∀ y ∈ Y', y ∈ Y ∨ ∃ m ∈ F.names, (d ++ [m]) <+: y.1

theorem drop_branches {Y bs : List (List α × Bool)} {d i : List α} {e : Bool} (hY : ∀ y ∈ Y, ¬ y.1 <+: i) (hd : d <+: i) :
    (Y ++ (d, e) :: bs).dropWhile (fun b => decide (b.1 ≠ i.take b.1.length)) = (d, e) :: bs := by
  induction Y with
  | nil =>
    simp only [List.nil_append]
    rw [List.dropWhile_cons_of_neg]
    simpa using List.prefix_iff_eq_take.1 hd
  | cons y Y ih =>
    rw [List.cons_append, List.dropWhile_cons_of_pos, ih fun z hz => hY z (List.mem_cons_of_mem _ hz)]
    simpa using fun h => hY y List.mem_cons_self (List.prefix_iff_eq_take.2 h)

theorem filter_walk {cs₀ : List (Cond α)} (F : Forest α) (hF : F.Ok) (d : List α) (e : Bool) (bs : List (List α × Bool))
    (hscan : ∀ i f, (i, f) ∈ listing d F → decide' cs₀ i f = .scan → f.isdir = true) (s : FSt α) (hs : Ready cs₀ d e bs F s) :
    ∃ s', s'.queue = (filtWalk (decide' cs₀) e d F s.queue).2 ∧ After cs₀ d e bs F s s' ∧
      ∀ L, filterFrom s (listing d F ++ L) = (filterFrom s' L).map ((filtWalk (decide' cs₀) e d F s.queue).1 ++ ·) := by
  induction F generalizing d e bs s with
  | nil =>
    refine ⟨s, rfl, ⟨fun j _ h => h, fun cur h => ⟨cur, h, .inl rfl⟩, fun Y h => ⟨Y, h, fun y hy => .inl hy⟩⟩, fun L => ?_⟩
    simp [listing, filtWalk]
  | cons n f ch rest ihc ihr =>
    have hmn : n ∈ (Forest.cons n f ch rest).names := by simp [Forest.names]
    obtain ⟨hn, hch, hrest⟩ := hF
    obtain ⟨hrel, ⟨cur, hcur, hcurlt⟩, ⟨Y, hY, hYok⟩⟩ := hs
    obtain ⟨cs1, hsel, hrel1⟩ := selectDefault_rel (hrel n hmn) f
    have hscanrest : ∀ i f', (i, f') ∈ listing d rest → decide' cs₀ i f' = .scan → f'.isdir = true := by
      intro i f' h; refine hscan i f' ?_; rw [listing]; simp [h]
    have hlt : ∀ m ∈ rest.names, ∀ i, (d ++ [n]) <+: i → i < d ++ [m] := fun m hm i hi => snoc_lt (hn m hm) hi (List.prefix_refl _)
    have hnp : ∀ m ∈ rest.names, ∀ i, (d ++ [n]) <+: i → ¬ i <+: d ++ [m] := fun m hm i hi h =>
      absurd (snoc_prefix_inj (hi.trans h) (List.prefix_refl _)) (ne_of_lt (hn m hm))
    have hdrop : s.branches.dropWhile (fun b => decide (b.1 ≠ (d ++ [n]).take b.1.length)) = (d, e) :: bs := by
      rw [hY]; exact drop_branches (fun y hy => hYok y hy n hmn) (List.prefix_append _ _)
    -- the first step, as far as the branch is concerned
    have hstep : filterStep s (d ++ [n]) f =
        (if f.isdir then startDir { s with branches := (d, e) :: bs } (d ++ [n]) f else fastFile { s with branches := (d, e) :: bs } e (d ++ [n]) f).map
          fun r => ({ r.1 with index := some (d ++ [n]) }, r.2) := by
      have h1 : d ++ [n] ≠ cur := ne_of_gt (hcurlt n hmn)
      have h2 : ¬ d ++ [n] < cur := not_lt.2 (le_of_lt (hcurlt n hmn))
      have h3 : s.branches ≠ [] := by rw [hY]; simp
      simp only [filterStep, hcur, h1, h2, h3, if_false, hdrop]
    -- continuing with the rest
    have finish : ∀ (s2 : FSt α) (o1 : List (List α)),
        (∀ j, (∀ i, (d ++ [n]) <+: i → i < j) → RelAll j s.cs cs₀ → RelAll j s2.cs cs₀) →
        (∃ cur', s2.index = some cur' ∧ (d ++ [n]) <+: cur') →
        (∃ Y', s2.branches = Y' ++ (d, e) :: bs ∧ ∀ y ∈ Y', (d ++ [n]) <+: y.1) →
        (∀ L, filterFrom s (listing d (.cons n f ch rest) ++ L) = (filterFrom s2 (listing d rest ++ L)).map (o1 ++ ·)) →
        ∃ s', s'.queue = (filtWalk (decide' cs₀) e d rest s2.queue).2 ∧ After cs₀ d e bs (.cons n f ch rest) s s' ∧
          ∀ L, filterFrom s (listing d (.cons n f ch rest) ++ L) =
            (filterFrom s' L).map ((o1 ++ (filtWalk (decide' cs₀) e d rest s2.queue).1) ++ ·) := by
      intro s2 o1 h1 h2 h3 h4
      obtain ⟨cur', hc1, hc2⟩ := h2
      obtain ⟨Y', hy1, hy2⟩ := h3
      obtain ⟨s', hq, hA, hL⟩ := ihr hrest d e bs hscanrest s2
        ⟨fun m hm => h1 _ (hlt m hm) (hrel m (by simp [Forest.names, hm])), ⟨cur', hc1, fun m hm => hlt m hm _ hc2⟩,
          ⟨Y', hy1, fun y hy m hm => hnp m hm _ (hy2 y hy)⟩⟩
      refine ⟨s', hq, ⟨?_, ?_, ?_⟩, ?_⟩
      · intro j hj hr
        exact hA.rel j (fun m hm => hj m (by simp [Forest.names, hm])) (h1 j (hj n hmn) hr)
      · intro _ _
        obtain ⟨c, hc, hcc⟩ := hA.index cur' hc1
        refine ⟨c, hc, .inr ?_⟩
        rcases hcc with rfl | ⟨m, hm, h⟩
        · exact ⟨n, hmn, hc2⟩
        · exact ⟨m, by simp [Forest.names, hm], h⟩
      · intro _ _
        obtain ⟨Z, hz, hzz⟩ := hA.branches Y' hy1
        refine ⟨Z, hz, fun y hy => .inr ?_⟩
        rcases hzz y hy with h | ⟨m, hm, h⟩
        · exact ⟨n, hmn, hy2 y h⟩
        · exact ⟨m, by simp [Forest.names, hm], h⟩
      · intro L
        rw [h4, hL, Option.map_map]
        congr 1
        funext x; simp
    have hrel1' : ∀ j, (∀ i, (d ++ [n]) <+: i → i < j) → RelAll j cs1 cs₀ := fun j hj => hrel1 j (hj _ (List.prefix_refl _))
    by_cases hd : f.isdir = true
    · -- a directory
      have hscanch : ∀ i f', (i, f') ∈ listing (d ++ [n]) ch → decide' cs₀ i f' = .scan → f'.isdir = true := by
        intro i f' h; refine hscan i f' ?_; rw [listing]; simp [h, hd]
      -- into the directory with flag e' and queue q'
      have child : ∀ (e' : Bool) (q' : List (List α)) (o1 : List (List α)),
          filterStep s (d ++ [n]) f = some (⟨cs1, some (d ++ [n]), (d ++ [n], e') :: (d, e) :: bs, q'⟩, o1) →
          ∃ s2, s2.queue = (filtWalk (decide' cs₀) e' (d ++ [n]) ch q').2 ∧
            (∀ j, (∀ i, (d ++ [n]) <+: i → i < j) → RelAll j s.cs cs₀ → RelAll j s2.cs cs₀) ∧
            (∃ cur', s2.index = some cur' ∧ (d ++ [n]) <+: cur') ∧
            (∃ Y', s2.branches = Y' ++ (d, e) :: bs ∧ ∀ y ∈ Y', (d ++ [n]) <+: y.1) ∧
            ∀ L, filterFrom s (listing d (.cons n f ch rest) ++ L) =
              (filterFrom s2 (listing d rest ++ L)).map ((o1 ++ (filtWalk (decide' cs₀) e' (d ++ [n]) ch q').1) ++ ·) := by
        intro e' q' o1 h1
        obtain ⟨s2, hq, hA, hL⟩ := ihc hch (d ++ [n]) e' ((d, e) :: bs) hscanch ⟨cs1, some (d ++ [n]), (d ++ [n], e') :: (d, e) :: bs, q'⟩
          ⟨fun m _ => hrel1 _ (lt_of_prefix_ne (List.prefix_append _ _) (by simp)),
            ⟨d ++ [n], rfl, fun m _ => lt_of_prefix_ne (List.prefix_append _ _) (by simp)⟩, ⟨[], rfl, by simp⟩⟩
        refine ⟨s2, hq, ?_, ?_, ?_, ?_⟩
        · intro j hj _
          exact hA.rel j (fun m _ i hi => hj i ((List.prefix_append _ _).trans hi)) (hrel1' j hj)
        · obtain ⟨c, hc, hcc⟩ := hA.index _ rfl
          refine ⟨c, hc, ?_⟩
          rcases hcc with rfl | ⟨m, -, h⟩
          · exact List.prefix_refl _
          · exact (List.prefix_append _ _).trans h
        · obtain ⟨Z, hz, hzz⟩ := hA.branches [] rfl
          refine ⟨Z ++ [(d ++ [n], e')], by rw [hz]; simp, ?_⟩
          intro y hy
          rcases List.mem_append.1 hy with hy | hy
          · rcases hzz y hy with h | ⟨m, -, h⟩
            · simp at h
            · exact (List.prefix_append _ _).trans h
          · simp only [List.mem_singleton] at hy
            rw [hy]; exact List.prefix_refl _
        · intro L
          have e1 : listing d (.cons n f ch rest) ++ L = (d ++ [n], f) :: (listing (d ++ [n]) ch ++ (listing d rest ++ L)) := by
            rw [listing]; simp [hd]
          rw [e1, filterFrom, h1]
          simp only [hL, Option.map_map]
          congr 1
          funext x; simp
      cases hv : decide' cs₀ (d ++ [n]) f with
      | excl =>
        obtain ⟨s2, hq, h1, h2, h3, h4⟩ := child true s.queue [] (by simp [hstep, hd, startDir, hsel, hv])
        obtain ⟨s', hq', hA, hL⟩ := finish s2 _ h1 h2 h3 h4
        refine ⟨s', ?_, hA, ?_⟩
        · simp [filtWalk, hd, hv, hq', hq]
        · intro L; rw [hL]; simp [filtWalk, hd, hv, hq]
      | incl =>
        obtain ⟨s2, hq, h1, h2, h3, h4⟩ := child false [] (s.queue.reverse ++ [d ++ [n]]) (by simp [hstep, hd, startDir, hsel, hv])
        obtain ⟨s', hq', hA, hL⟩ := finish s2 _ h1 h2 h3 h4
        refine ⟨s', ?_, hA, ?_⟩
        · simp [filtWalk, hd, hv, hq', hq]
        · intro L; rw [hL]; simp [filtWalk, hd, hv, hq]
      | scan =>
        obtain ⟨s2, hq, h1, h2, h3, h4⟩ := child false ((d ++ [n]) :: s.queue.dropWhile (· ≠ d)) []
          (by simp [hstep, hd, startDir, hsel, hv])
        obtain ⟨s', hq', hA, hL⟩ := finish s2 _ h1 h2 h3 h4
        refine ⟨s', ?_, hA, ?_⟩
        · simp [filtWalk, hd, hv, hq', hq]
        · intro L; rw [hL]; simp [filtWalk, hd, hv, hq]
    · -- another file
      have one : ∀ (cs' : List (Cond α)) (q' : List (List α)) (o1 : List (List α)), (∀ j, d ++ [n] < j → RelAll j s.cs cs₀ → RelAll j cs' cs₀) →
          filterStep s (d ++ [n]) f = some (⟨cs', some (d ++ [n]), (d, e) :: bs, q'⟩, o1) →
          ∃ s', s'.queue = (filtWalk (decide' cs₀) e d rest q').2 ∧ After cs₀ d e bs (.cons n f ch rest) s s' ∧
            ∀ L, filterFrom s (listing d (.cons n f ch rest) ++ L) =
              (filterFrom s' L).map ((o1 ++ (filtWalk (decide' cs₀) e d rest q').1) ++ ·) := by
        intro cs' q' o1 hr h1
        refine finish ⟨cs', some (d ++ [n]), (d, e) :: bs, q'⟩ o1 (fun j hj => hr j (hj _ (List.prefix_refl _))) ⟨_, rfl, List.prefix_refl _⟩
          ⟨[], rfl, by simp⟩ ?_
        intro L
        have e1 : listing d (.cons n f ch rest) ++ L = (d ++ [n], f) :: (listing d rest ++ L) := by
          rw [listing]; simp [hd]
        rw [e1, filterFrom, h1]
      by_cases he : e = true
      · subst he
        obtain ⟨s', hq', hA, hL⟩ := one s.cs s.queue [] (fun _ _ h => h) (by simp [hstep, hd, fastFile])
        refine ⟨s', ?_, hA, ?_⟩
        · simp [filtWalk, hd, hq']
        · intro L; rw [hL]; simp [filtWalk, hd]
      · have he' : e = false := by simpa using he
        subst he'
        cases hv : decide' cs₀ (d ++ [n]) f with
        | excl =>
          obtain ⟨s', hq', hA, hL⟩ := one cs1 s.queue [] (fun j hj _ => hrel1 j hj) (by simp [hstep, hd, fastFile, hsel, hv])
          refine ⟨s', ?_, hA, ?_⟩
          · simp [filtWalk, hd, hv, hq']
          · intro L; rw [hL]; simp [filtWalk, hd, hv]
        | incl =>
          obtain ⟨s', hq', hA, hL⟩ := one cs1 [] (s.queue.reverse ++ [d ++ [n]]) (fun j hj _ => hrel1 j hj) (by simp [hstep, hd, fastFile, hsel, hv])
          refine ⟨s', ?_, hA, ?_⟩
          · simp [filtWalk, hd, hv, hq']
          · intro L; rw [hL]; simp [filtWalk, hd, hv]
        | scan =>
          exact absurd (hscan (d ++ [n]) f (by rw [listing]; simp) hv) hd


/-! ### compared with the walk -/

/-- nothing is generated below an excluded directory if the directories below it are excluded -/
theorem filtWalk_excl {sel : List α → File → Val} (F : Forest α) (d : List α) (q : List (List α))
    (h : ∀ i f, (i, f) ∈ listing d F → f.isdir = true → sel i f = .excl) : filtWalk sel true d F q = ([], q) := by
  induction F generalizing d q with
  | nil => rfl
  | cons n f ch rest ihc ihr =>
    have hr : ∀ q, filtWalk sel true d rest q = ([], q) := fun q => ihr d q fun i g hi => h i g (by rw [listing]; simp [hi])
    by_cases hd : f.isdir = true
    · have hv := h (d ++ [n]) f (by rw [listing]; simp) hd
      have hc : ∀ q, filtWalk sel true (d ++ [n]) ch q = ([], q) := fun q => ihc (d ++ [n]) q fun i g hi => h i g (by rw [listing]; simp [hi, hd])
      simp [filtWalk, hd, hv, hr, hc]
    · simp [filtWalk, hd, hr]

/-- the queue of a directory which is not excluded: `X` lies below it, `P` is to be generated with the first file selected in it -/
structure QueueAt (d : List α) (q X P : List (List α)) : Prop where
  eq : q = X ++ P
  below : ∀ x ∈ X, d <+: x ∧ d ≠ x
  head : P = [] ∨ ∃ P', P = d :: P'

theorem QueueAt.drop {d : List α} {q X P : List (List α)} (h : QueueAt d q X P) : q.dropWhile (· ≠ d) = P := by
  obtain ⟨rfl, hX, hP⟩ := h
  induction X with
  | nil => rcases hP with rfl | ⟨P', rfl⟩ <;> simp
  | cons x X ih =>
    rw [List.cons_append, List.dropWhile_cons_of_pos (by simpa using (hX x List.mem_cons_self).2.symm)]
    exact ih fun y hy => hX y (List.mem_cons_of_mem _ hy)

theorem filt_spec {sel : List α → File → Val} (F : Forest α) (hF : F.Ok) (d : List α) (q X P : List (List α)) (hq : QueueAt d q X P)
    (hscan : ∀ i f, (i, f) ∈ listing d F → sel i f = .scan → f.isdir = true)
    (hex : ∀ j g i f, (j, g) ∈ listing d F → (i, f) ∈ listing d F → sel j g = .excl → j <+: i → f.isdir = true → sel i f = .excl) :
    let r := filtWalk sel false d F q
    (∃ X', (∀ x ∈ X', d <+: x ∧ d ≠ x) ∧ (r.2 = X' ++ P ∧ r.1 = [] ∨ r.2 = X' ∧ P ⊆ r.1)) ∧
    pureWalk sel d F ⊆ r.1 ∧
    (r.1 ++ r.2.reverse).Sublist (q.reverse ++ (listing d F).map Prod.fst) ∧
    (∀ i ∈ r.1, i ∈ q ∨ ∃ f, (i, f) ∈ listing d F ∧ Open sel (listing d F) i ∧ sel i f ≠ .excl) ∧
    (∀ i ∈ r.2, i ∈ q ∨ ∃ f, (i, f) ∈ listing d F ∧ Open sel (listing d F) i ∧ sel i f ≠ .excl) := by
  induction F generalizing d q X P with
  | nil =>
    intro r
    simp only [filtWalk, r, pureWalk, listing]
    exact ⟨⟨X, hq.below, .inl ⟨hq.eq, trivial⟩⟩, by simp, by simp, by simp, fun i hi => .inl hi⟩
  | cons n f ch rest ihc ihr =>
    have hFc := hF
    obtain ⟨hn, hch, hrest⟩ := hF
    have memh : (d ++ [n], f) ∈ listing d (.cons n f ch rest) := by rw [listing]; simp
    have memr : ∀ x, x ∈ listing d rest → x ∈ listing d (.cons n f ch rest) := by intro x hx; rw [listing]; simp [hx]
    have memc : f.isdir = true → ∀ x, x ∈ listing (d ++ [n]) ch → x ∈ listing d (.cons n f ch rest) := by
      intro hd x hx; rw [listing]; simp [hx, hd]
    have hbn : d <+: d ++ [n] ∧ d ≠ d ++ [n] := ⟨List.prefix_append _ _, by simp⟩
    let G := fun i : List α => ∃ g, (i, g) ∈ listing d (.cons n f ch rest) ∧ Open sel (listing d (.cons n f ch rest)) i ∧ sel i g ≠ .excl
    have grest : ∀ i, (∃ g, (i, g) ∈ listing d rest ∧ Open sel (listing d rest) i ∧ sel i g ≠ .excl) → G i := by
      rintro i ⟨g, h1, h2, h3⟩
      obtain ⟨m, hm, hmi⟩ := mem_listing h1
      exact ⟨g, memr _ h1, (open_rest hFc hm hmi).2 h2, h3⟩
    have gchild : f.isdir = true → sel (d ++ [n]) f ≠ .excl → ∀ i,
        (∃ g, (i, g) ∈ listing (d ++ [n]) ch ∧ Open sel (listing (d ++ [n]) ch) i ∧ sel i g ≠ .excl) → G i := by
      rintro hd hv i ⟨g, h1, h2, h3⟩
      have hb : (d ++ [n]) <+: i ∧ d ++ [n] ≠ i := below_of_mem (f := f) (ch := ch) (g := g) (by rw [if_pos hd]; exact h1)
      exact ⟨g, memc hd _ h1, (open_child hFc hb.1 hb.2).2 ⟨hv, by rw [if_pos hd]; exact h2⟩, h3⟩
    have ghead : sel (d ++ [n]) f ≠ .excl → G (d ++ [n]) := fun hv => ⟨f, memh, open_head, hv⟩
    -- the rest, after the first name generated `o1` and left the queue `q1`
    have finish : ∀ (o1 q1 X1 P1 W1 : List (List α)), QueueAt d q1 X1 P1 →
        filtWalk sel false d (.cons n f ch rest) q = (o1 ++ (filtWalk sel false d rest q1).1, (filtWalk sel false d rest q1).2) →
        pureWalk sel d (.cons n f ch rest) = W1 ++ pureWalk sel d rest → W1 ⊆ o1 →
        (P1 = P ∧ o1 = [] ∨ P1 = [] ∧ P ⊆ o1) →
        (o1 ++ q1.reverse).Sublist (q.reverse ++ ((d ++ [n]) :: (if f.isdir then listing (d ++ [n]) ch else []).map Prod.fst)) →
        (∀ i ∈ o1, i ∈ q ∨ G i) → (∀ i ∈ q1, i ∈ q ∨ G i) →
        let r := filtWalk sel false d (.cons n f ch rest) q
        (∃ X', (∀ x ∈ X', d <+: x ∧ d ≠ x) ∧ (r.2 = X' ++ P ∧ r.1 = [] ∨ r.2 = X' ∧ P ⊆ r.1)) ∧
        pureWalk sel d (.cons n f ch rest) ⊆ r.1 ∧
        (r.1 ++ r.2.reverse).Sublist (q.reverse ++ (listing d (.cons n f ch rest)).map Prod.fst) ∧
        (∀ i ∈ r.1, i ∈ q ∨ G i) ∧ (∀ i ∈ r.2, i ∈ q ∨ G i) := by
      intro o1 q1 X1 P1 W1 hq1 hr hw hW hP hsub ho1 hq1'
      obtain ⟨⟨X', hX', h1⟩, h2, h3, h4, h5⟩ := ihr hrest d q1 X1 P1 hq1 (fun i g hi => hscan i g (memr _ hi))
        (fun j g i g' hj hi => hex j g i g' (memr _ hj) (memr _ hi))
      simp only [hr, hw]
      refine ⟨⟨X', hX', ?_⟩, ?_, ?_, ?_, ?_⟩
      · rcases hP with ⟨rfl, rfl⟩ | ⟨rfl, hPo⟩
        · rcases h1 with ⟨h1, h1'⟩ | ⟨h1, h1'⟩
          · exact .inl ⟨h1, by simp [h1']⟩
          · exact .inr ⟨h1, by simpa using h1'⟩
        · right
          refine ⟨?_, List.subset_append_of_subset_left _ hPo⟩
          rcases h1 with ⟨h1, -⟩ | ⟨h1, -⟩ <;> simpa using h1
      · exact List.append_subset.2 ⟨List.subset_append_of_subset_left _ hW, List.subset_append_of_subset_right _ h2⟩
      · rw [listing, List.append_assoc]
        refine (List.Sublist.append_left h3 o1).trans ?_
        rw [← List.append_assoc, List.map_append, List.map_cons, ← List.append_assoc]
        exact List.Sublist.append_right hsub _
      · intro i hi
        rcases List.mem_append.1 hi with hi | hi
        · exact ho1 i hi
        · rcases h4 i hi with h | h
          · exact hq1' i h
          · exact .inr (grest i h)
      · intro i hi
        rcases h5 i hi with h | h
        · exact hq1' i h
        · exact .inr (grest i h)
    by_cases hd : f.isdir = true
    · have hscanc : ∀ i g, (i, g) ∈ listing (d ++ [n]) ch → sel i g = .scan → g.isdir = true := fun i g hi => hscan i g (memc hd _ hi)
      have hexc : ∀ j g i g', (j, g) ∈ listing (d ++ [n]) ch → (i, g') ∈ listing (d ++ [n]) ch → sel j g = .excl → j <+: i →
          g'.isdir = true → sel i g' = .excl := fun j g i g' hj hi => hex j g i g' (memc hd _ hj) (memc hd _ hi)
      have hfall : ∀ x, d ++ [n] <+: x ∧ d ++ [n] ≠ x → d <+: x ∧ d ≠ x := by
        rintro x ⟨hx, -⟩
        refine ⟨hbn.1.trans hx, ?_⟩
        rintro rfl
        have := hx.length_le
        simp at this
        omega
      cases hv : sel (d ++ [n]) f with
      | excl =>
        have hc := filtWalk_excl (sel := sel) ch (d ++ [n]) q fun i g hi hg => by
          obtain ⟨m, -, hm⟩ := mem_listing hi
          exact hex (d ++ [n]) f i g memh (memc hd _ hi) hv ((List.prefix_append _ _).trans hm) hg
        refine finish [] q X P [] hq (by simp [filtWalk, hd, hv, hc]) (by simp [pureWalk, hv, gen]) (by simp) (.inl ⟨rfl, rfl⟩) ?_ (by simp)
          (fun i hi => .inl hi)
        simp
      | incl =>
        obtain ⟨⟨X', hX', h1⟩, h2, h3, h4, h5⟩ := ihc hch (d ++ [n]) [] [] [] ⟨rfl, by simp, .inl rfl⟩ hscanc hexc
        have hX2 : ∀ x ∈ (filtWalk sel false (d ++ [n]) ch []).2, d <+: x ∧ d ≠ x := by
          intro x hx
          have : (filtWalk sel false (d ++ [n]) ch []).2 = X' := by rcases h1 with ⟨h1, -⟩ | ⟨h1, -⟩ <;> simpa using h1
          rw [this] at hx
          exact hfall x (hX' x hx)
        refine finish (q.reverse ++ [d ++ [n]] ++ (filtWalk sel false (d ++ [n]) ch []).1) (filtWalk sel false (d ++ [n]) ch []).2
          (filtWalk sel false (d ++ [n]) ch []).2 [] ((d ++ [n]) :: pureWalk sel (d ++ [n]) ch) ⟨by simp, hX2, .inl rfl⟩
          (by simp [filtWalk, hd, hv]) (by simp [pureWalk, hv, gen, hd]) ?_ (.inr ⟨rfl, ?_⟩) ?_ ?_ ?_
        · intro x hx
          rcases List.mem_cons.1 hx with rfl | hx
          · simp
          · exact List.mem_append_right _ (h2 hx)
        · intro x hx
          simp [hq.eq, hx]
        · simp only [hd, if_true, List.append_assoc, List.singleton_append]
          refine List.Sublist.append_left (List.Sublist.cons_cons _ ?_) _
          simpa using h3
        · intro i hi
          simp only [List.mem_append, List.mem_reverse, List.mem_singleton] at hi
          rcases hi with (hi | rfl) | hi
          · exact .inl hi
          · exact .inr (ghead (by simp [hv]))
          · rcases h4 i hi with h | h
            · simp at h
            · exact .inr (gchild hd (by simp [hv]) i h)
        · intro i hi
          rcases h5 i hi with h | h
          · simp at h
          · exact .inr (gchild hd (by simp [hv]) i h)
      | scan =>
        have hPd := hq.drop
        obtain ⟨⟨X', hX', h1⟩, h2, h3, h4, h5⟩ := ihc hch (d ++ [n]) ((d ++ [n]) :: P) [] ((d ++ [n]) :: P) ⟨rfl, by simp, .inr ⟨P, rfl⟩⟩ hscanc hexc
        have hPq : ∀ x ∈ P, x ∈ q := by intro x hx; simp [hq.eq, hx]
        have hin : ∀ i, i ∈ (d ++ [n]) :: P → i ∈ q ∨ G i := by
          intro i hi
          rcases List.mem_cons.1 hi with rfl | hi
          · exact .inr (ghead (by simp [hv]))
          · exact .inl (hPq i hi)
        have hr : filtWalk sel false d (.cons n f ch rest) q =
            ((filtWalk sel false (d ++ [n]) ch ((d ++ [n]) :: P)).1 ++ (filtWalk sel false d rest (filtWalk sel false (d ++ [n]) ch ((d ++ [n]) :: P)).2).1,
              (filtWalk sel false d rest (filtWalk sel false (d ++ [n]) ch ((d ++ [n]) :: P)).2).2) := by
          simp only [filtWalk, hd, hv, if_true, hPd]
        have hw : pureWalk sel d (.cons n f ch rest) =
            (if pureWalk sel (d ++ [n]) ch = [] then [] else (d ++ [n]) :: pureWalk sel (d ++ [n]) ch) ++ pureWalk sel d rest := by
          simp [pureWalk, hv, gen, hd]
        have hsub : ((filtWalk sel false (d ++ [n]) ch ((d ++ [n]) :: P)).1 ++ (filtWalk sel false (d ++ [n]) ch ((d ++ [n]) :: P)).2.reverse).Sublist
            (q.reverse ++ ((d ++ [n]) :: (if f.isdir then listing (d ++ [n]) ch else []).map Prod.fst)) := by
          refine h3.trans ?_
          simp only [hd, if_true, List.reverse_cons, List.append_assoc, List.singleton_append]
          refine List.Sublist.append_right ?_ _
          rw [hq.eq, List.reverse_append]
          exact List.sublist_append_left _ _
        have ho : ∀ i ∈ (filtWalk sel false (d ++ [n]) ch ((d ++ [n]) :: P)).1, i ∈ q ∨ G i := fun i hi => by
          rcases h4 i hi with h | h
          · exact hin i h
          · exact .inr (gchild hd (by simp [hv]) i h)
        have hq2 : ∀ i ∈ (filtWalk sel false (d ++ [n]) ch ((d ++ [n]) :: P)).2, i ∈ q ∨ G i := fun i hi => by
          rcases h5 i hi with h | h
          · exact hin i h
          · exact .inr (gchild hd (by simp [hv]) i h)
        rcases h1 with ⟨h1, h1'⟩ | ⟨h1, h1'⟩
        · have hnil : pureWalk sel (d ++ [n]) ch = [] := List.subset_nil.1 (by rw [← h1']; exact h2)
          refine finish _ _ (X' ++ [d ++ [n]]) P _ ⟨by rw [h1]; simp, ?_, hq.head⟩ hr hw (by simp [hnil]) (.inl ⟨rfl, h1'⟩) hsub ho hq2
          intro x hx
          rcases List.mem_append.1 hx with hx | hx
          · exact hfall x (hX' x hx)
          · simp only [List.mem_singleton] at hx; rw [hx]; exact hbn
        · refine finish _ _ X' [] _ ⟨by simpa using h1, fun x hx => hfall x (hX' x hx), .inl rfl⟩ hr hw ?_ (.inr ⟨rfl, fun x hx => h1' (List.mem_cons_of_mem _ hx)⟩)
            hsub ho hq2
          split
          · simp
          · exact List.cons_subset.2 ⟨h1' List.mem_cons_self, h2⟩
    · cases hv : sel (d ++ [n]) f with
      | excl =>
        refine finish [] q X P [] hq (by simp [filtWalk, hd, hv]) (by simp [pureWalk, hv, gen]) (by simp) (.inl ⟨rfl, rfl⟩) ?_ (by simp)
          (fun i hi => .inl hi)
        simp
      | incl =>
        refine finish (q.reverse ++ [d ++ [n]]) [] [] [] [d ++ [n]] ⟨rfl, by simp, .inl rfl⟩ (by simp [filtWalk, hd, hv]) (by simp [pureWalk, hv, gen, hd]) (by simp)
          (.inr ⟨rfl, fun x hx => by simp [hq.eq, hx]⟩) ?_ ?_ (by simp)
        · simp [hd]
        · intro i hi
          simp only [List.mem_append, List.mem_reverse, List.mem_singleton] at hi
          rcases hi with hi | rfl
          · exact .inl hi
          · exact .inr (ghead (by simp [hv]))
      | scan => exact absurd (hscan _ _ memh hv) hd

theorem listing_sorted {F : Forest α} (hF : F.Ok) (d : List α) : ((listing d F).map Prod.fst).Pairwise (· < ·) := by
  have h := pureWalk_sorted (sel := fun _ _ => .incl) hF d
  have e : ∀ (F : Forest α) (d : List α), pureWalk (fun _ _ => .incl) d F = (listing d F).map Prod.fst := by
    intro F
    induction F with
    | nil => intro d; rfl
    | cons n f ch rest ihc ihr =>
      intro d
      by_cases hd : f.isdir = true <;> simp [pureWalk, listing, gen, hd, ihc, ihr]
  rwa [e] at h

end Verif.Selection
