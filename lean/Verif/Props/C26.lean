import Verif.Model.Selection
/-
C26 First matching selection wins.
-/
namespace Verif.C26
open Verif.Selection
variable {α : Type} [LinearOrder α]

/-- the answer of a condition for a file -/
def Says (c : Cond α) (i : List α) (file : Option File) (v : Option Val) : Prop := ∃ c', c.apply i file = some (v, c')

/-- the condition matches neither way (it may ask for the directory to be scanned) -/
def Undecided (c : Cond α) (i : List α) (file : Option File) : Prop := Says c i file none ∨ Says c i file (some .scan)

/-- What is documented: conditions are taken in their order and the first one which includes or excludes the file decides; a file none
of them says anything about is included. A directory excluded this way is to be scanned if an earlier condition asked for that. -/
inductive Decision (cs : List (Cond α)) (i : List α) (file : Option File) : Val → Prop
  | included (pre post : List (Cond α)) (c : Cond α) : cs = pre ++ c :: post → (∀ x ∈ pre, Undecided x i file) →
      Says c i file (some .incl) → Decision cs i file .incl
  | default : (∀ x ∈ cs, Undecided x i file) → Decision cs i file .incl
  | excluded (pre post : List (Cond α)) (c : Cond α) : cs = pre ++ c :: post → (∀ x ∈ pre, Says x i file none) →
      Says c i file (some .excl) → Decision cs i file .excl
  | scanned (pre post : List (Cond α)) (c : Cond α) : cs = pre ++ c :: post → (∀ x ∈ pre, Undecided x i file) →
      (∃ x ∈ pre, Says x i file (some .scan)) → Says c i file (some .excl) → Decision cs i file .scan

theorem Says.unique {c : Cond α} {i : List α} {file : Option File} {v v' : Option Val} (h : Says c i file v) (h' : Says c i file v') :
    v = v' := by
  obtain ⟨c1, h1⟩ := h
  obtain ⟨c2, h2⟩ := h'
  rw [h1] at h2
  exact (Prod.mk.inj (Option.some.inj h2)).1

theorem selectFrom_spec (scanned : Val) (hs : scanned = .excl ∨ scanned = .scan) (cs : List (Cond α)) (i : List α) (file : Option File)
    (v : Val) (cs' : List (Cond α)) (h : selectFrom scanned i file cs = some (v, cs')) :
    (v = .incl ∧ Decision cs i file .incl) ∨
    (v = scanned ∧ ∃ pre c post, cs = pre ++ c :: post ∧ (∀ x ∈ pre, Says x i file none) ∧ Says c i file (some .excl)) ∨
    (v = .scan ∧ Decision cs i file .scan) := by
  induction cs generalizing scanned v cs' with
  | nil =>
    simp only [selectFrom, Option.some.injEq, Prod.mk.injEq] at h
    exact .inl ⟨h.1.symm, .default (by simp)⟩
  | cons c cs ih =>
    have push : ∀ {w}, Undecided c i file → Decision cs i file w → w ≠ .excl → Decision (c :: cs) i file w := by
      intro w hc hw hne
      have all : ∀ pre : List (Cond α), (∀ x ∈ pre, Undecided x i file) → ∀ x ∈ c :: pre, Undecided x i file := by
        intro pre hp x hx
        rcases List.mem_cons.1 hx with rfl | hx
        exacts [hc, hp x hx]
      cases hw with
      | included pre post d h1 h2 h3 => exact .included (c :: pre) post d (by rw [h1]; rfl) (all _ h2) h3
      | default h2 => exact .default (all _ h2)
      | excluded => exact absurd rfl hne
      | scanned pre post d h1 h2 h3 h4 =>
        exact .scanned (c :: pre) post d (by rw [h1]; rfl) (all _ h2) (by obtain ⟨x, hx, h⟩ := h3; exact ⟨x, List.mem_cons_of_mem _ hx, h⟩) h4
    rw [selectFrom] at h
    split at h
    · simp at h
    · next c' hc =>
      simp only [Option.some.injEq, Prod.mk.injEq] at h
      exact .inl ⟨h.1.symm, .included [] cs c rfl (by simp) ⟨_, hc⟩⟩
    · next c' hc =>
      simp only [Option.some.injEq, Prod.mk.injEq] at h
      exact .inr (.inl ⟨h.1.symm, [], c, cs, rfl, by simp, _, hc⟩)
    · next c' hc =>
      rw [Option.map_eq_some_iff] at h
      obtain ⟨⟨w, cs1⟩, h1, h2⟩ := h
      simp only [Prod.mk.injEq] at h2
      obtain ⟨rfl, -⟩ := h2
      have hu : Undecided c i file := .inr ⟨_, hc⟩
      rcases ih .scan (.inr rfl) w cs1 h1 with ⟨h1, h2⟩ | ⟨h1, pre, d, post, h2, h3, h4⟩ | ⟨h1, h2⟩
      · exact .inl ⟨h1, push hu h2 (by simp)⟩
      · refine .inr (.inr ⟨h1, .scanned (c :: pre) post d (by rw [h2]; rfl) ?_ ⟨c, List.mem_cons_self, _, hc⟩ h4⟩)
        intro x hx
        rcases List.mem_cons.1 hx with rfl | hx
        exacts [hu, .inl (h3 x hx)]
      · exact .inr (.inr ⟨h1, push hu h2 (by simp)⟩)
    · next c' hc =>
      rw [Option.map_eq_some_iff] at h
      obtain ⟨⟨w, cs1⟩, h1, h2⟩ := h
      simp only [Prod.mk.injEq] at h2
      obtain ⟨rfl, -⟩ := h2
      have hu : Undecided c i file := .inl ⟨_, hc⟩
      rcases ih scanned hs w cs1 h1 with ⟨h1, h2⟩ | ⟨h1, pre, d, post, h2, h3, h4⟩ | ⟨h1, h2⟩
      · exact .inl ⟨h1, push hu h2 (by simp)⟩
      · refine .inr (.inl ⟨h1, c :: pre, d, post, by rw [h2]; rfl, ?_, h4⟩)
        intro x hx
        rcases List.mem_cons.1 hx with rfl | hx
        exacts [⟨_, hc⟩, h3 x hx]
      · exact .inr (.inr ⟨h1, push hu h2 (by simp)⟩)

/-- C26: the decision about a file is the documented one, for every list of conditions and every file. -/
theorem first_match_wins (cs : List (Cond α)) (i : List α) (file : Option File) (v : Val) (cs' : List (Cond α))
    (h : selectDefault cs i file = some (v, cs')) : Decision cs i file v := by
  rcases selectFrom_spec .excl (.inl rfl) cs i file v cs' h with ⟨e, hd⟩ | ⟨e, pre, c, post, h1, h2, h3⟩ | ⟨e, hd⟩
  · rw [e]; exact hd
  · rw [e]; exact .excluded pre post c h1 h2 h3
  · rw [e]; exact hd

theorem split_unique {β : Type} {P : β → Prop} {pre pre' post post' : List β} {c c' : β} (h : pre ++ c :: post = pre' ++ c' :: post')
    (h1 : ∀ x ∈ pre, P x) (h1' : ∀ x ∈ pre', P x) (hc : ¬ P c) (hc' : ¬ P c') : pre = pre' ∧ c = c' := by
  induction pre generalizing pre' with
  | nil =>
    cases pre' with
    | nil => simp at h; exact ⟨rfl, h.1⟩
    | cons x pre' => simp at h; exact absurd (h.1 ▸ h1' x List.mem_cons_self) hc
  | cons y pre ih =>
    cases pre' with
    | nil => simp at h; exact absurd (h.1 ▸ h1 y List.mem_cons_self) hc'
    | cons x pre' =>
      simp at h
      obtain ⟨h2, h3⟩ := ih h.2 (fun z hz => h1 z (List.mem_cons_of_mem _ hz)) (fun z hz => h1' z (List.mem_cons_of_mem _ hz))
      exact ⟨by rw [h.1, h2], h3⟩

/-- The documented decision is unique, so `first_match_wins` fixes the outcome. -/
theorem decision_unique {cs : List (Cond α)} {i : List α} {file : Option File} {v w : Val} (h : Decision cs i file v) (h' : Decision cs i file w) :
    v = w := by
  have hU : ∀ c : Cond α, ∀ x, Says c i file (some x) → x ≠ .scan → ¬ Undecided c i file := by
    rintro c x hx hne (h | h)
    · simpa using hx.unique h
    · exact hne (Option.some.inj (hx.unique h))
  have hN : ∀ c : Cond α, Says c i file none → Undecided c i file := fun c h => .inl h
  -- the first deciding condition, or none
  have norm : ∀ {v}, Decision cs i file v → (∀ x ∈ cs, Undecided x i file) ∧ v = .incl ∨
      ∃ pre c post, cs = pre ++ c :: post ∧ (∀ x ∈ pre, Undecided x i file) ∧
        (Says c i file (some .incl) ∧ v = .incl ∨ Says c i file (some .excl) ∧ v = .excl ∧ (∀ x ∈ pre, Says x i file none) ∨
          Says c i file (some .excl) ∧ v = .scan ∧ ∃ x ∈ pre, Says x i file (some .scan)) := by
    intro v h
    cases h with
    | included pre post c h1 h2 h3 => exact .inr ⟨pre, c, post, h1, h2, .inl ⟨h3, rfl⟩⟩
    | default h => exact .inl ⟨h, rfl⟩
    | excluded pre post c h1 h2 h3 => exact .inr ⟨pre, c, post, h1, fun x hx => hN x (h2 x hx), .inr (.inl ⟨h3, rfl, h2⟩)⟩
    | scanned pre post c h1 h2 h3 h4 => exact .inr ⟨pre, c, post, h1, h2, .inr (.inr ⟨h4, rfl, h3⟩)⟩
  have dec : ∀ {c : Cond α} {v : Val} {P Q : Prop}, (Says c i file (some .incl) ∧ v = .incl ∨ Says c i file (some .excl) ∧ v = .excl ∧ P ∨
      Says c i file (some .excl) ∧ v = .scan ∧ Q) → ¬ Undecided c i file := by
    rintro c v P Q (h | h | h)
    exacts [hU c _ h.1 (by simp), hU c _ h.1 (by simp), hU c _ h.1 (by simp)]
  rcases norm h with ⟨h1, h2⟩ | ⟨pre, c, post, h1, h2, h3⟩ <;> rcases norm h' with ⟨h1', h2'⟩ | ⟨pre', c', post', h1', h2', h3'⟩
  · rw [h2, h2']
  · exact absurd (h1 c' (by rw [h1']; simp)) (dec h3')
  · exact absurd (h1' c (by rw [h1]; simp)) (dec h3)
  · obtain ⟨rfl, rfl⟩ := split_unique (h1.symm.trans h1') h2 h2' (dec h3) (dec h3')
    rcases h3 with ⟨a, rfl⟩ | ⟨a, rfl, b⟩ | ⟨a, rfl, b⟩ <;> rcases h3' with ⟨a', rfl⟩ | ⟨a', rfl, b'⟩ | ⟨a', rfl, b'⟩
    · rfl
    · cases a.unique a'
    · cases a.unique a'
    · cases a.unique a'
    · rfl
    · obtain ⟨x, hx, hs⟩ := b'
      cases hs.unique (b x hx)
    · cases a.unique a'
    · obtain ⟨x, hx, hs⟩ := b
      cases hs.unique (b' x hx)
    · rfl

/-- the index lies at or below the directory `rdiff-backup-data` -/
def InRbdir (rb : α) (i : List α) : Prop := ∃ r, i = rb :: r

/-- C26: nothing at or below the repository's own data directory is ever selected, whatever the conditions given by the user. -/
theorem rbdir_never_selected (rb : α) (cs : List (Cond α)) {i : List α} (hi : InRbdir rb i) (file : Option File) :
    (selectDefault (withRbdir rb cs) i file).map (·.1) = some .excl ∧
    ∀ f, (entry (withRbdir rb cs) i f).map (·.1) = some none := by
  obtain ⟨r, rfl⟩ := hi
  constructor
  · simp [selectDefault, withRbdir, selectFrom, Cond.apply]
  · intro f
    simp [entry, selectFilename, withRbdir, selectNameFrom, Cond.checkFilename, Cond.apply]

/-- Options whose condition is not disturbed by being asked twice, the first time without knowing the file: all but
`--exclude-other-filesystems` (F19) and file lists which exclude something (F18). -/
def Plain : Cond α → Prop
  | .otherFs _ incl => incl = true
  | .filelist _ e => e = false
  | _ => True

theorem name_apply {c : Cond α} (hp : Plain c) (hn : ¬ (!c.checkFilename && !c.exclude) = true) (i : List α) (f : File) :
    ∃ v, c.apply i none = some (v, c) ∧
      (c.apply i (some f) = some (v, c) ∨ v = none ∧ (c.apply i (some f) = some (none, c) ∨ c.apply i (some f) = some (some .excl, c))) := by
  have hone : ∀ incl : Bool, c.exclude = !incl → c.checkFilename = false → incl = false := by
    intro incl h1 h2
    cases incl with
    | true => simp [h1, h2] at hn
    | false => rfl
  cases c with
  | otherFs root incl => simp [Plain] at hp; subst hp; simp [Cond.checkFilename, Cond.exclude] at hn
  | filelist rest e => simp [Plain] at hp; subst hp; simp [Cond.checkFilename, Cond.exclude] at hn
  | special incl =>
    obtain rfl := hone incl rfl rfl
    refine ⟨none, by simp [Cond.apply], .inr ⟨rfl, ?_⟩⟩
    simp only [Cond.apply, val]; split <;> simp
  | kind k incl =>
    obtain rfl := hone incl rfl rfl
    refine ⟨none, by simp [Cond.apply], .inr ⟨rfl, ?_⟩⟩
    simp only [Cond.apply, val]; split <;> simp
  | size n mx =>
    refine ⟨none, by simp [Cond.apply], .inr ⟨rfl, ?_⟩⟩
    simp only [Cond.apply]
    split
    · split <;> split <;> simp
    · simp
  | presence here parent incl =>
    obtain rfl := hone incl rfl rfl
    refine ⟨none, by simp [Cond.apply], .inr ⟨rfl, ?_⟩⟩
    simp only [Cond.apply, val]; split <;> simp
  | regexp p incl => exact ⟨_, rfl, .inl rfl⟩
  | all incl => exact ⟨_, rfl, .inl rfl⟩
  | tuple t incl => exact ⟨_, rfl, .inl rfl⟩
  | glob g s incl => exact ⟨_, rfl, .inl rfl⟩

/-- conditions after the first check by name are the same -/
theorem selectName_state {cs : List (Cond α)} (hp : ∀ c ∈ cs, Plain c) (scanned : Val) (i : List α) :
    ∃ v, selectNameFrom scanned i cs = some (v, cs) := by
  induction cs generalizing scanned with
  | nil => exact ⟨_, rfl⟩
  | cons c cs ih =>
    rw [selectNameFrom]
    split
    · exact ⟨_, rfl⟩
    · next hn =>
      obtain ⟨v, h, -⟩ := name_apply (hp c List.mem_cons_self) hn i ⟨.reg, 0, 0⟩
      rw [h]
      rcases v with _ | v
      · obtain ⟨w, hw⟩ := ih (fun c hc => hp c (List.mem_cons_of_mem _ hc)) scanned
        exact ⟨w, by simp [hw]⟩
      · cases v
        · exact ⟨scanned, rfl⟩
        · exact ⟨.incl, rfl⟩
        · obtain ⟨w, hw⟩ := ih (fun c hc => hp c (List.mem_cons_of_mem _ hc)) .scan
          exact ⟨w, by simp [hw]⟩

/-- a condition never raises for a real file -/
theorem apply_total (c : Cond α) (i : List α) (f : File) : ∃ v c', c.apply i (some f) = some (v, c') := by
  cases c <;> simp only [Cond.apply]
  all_goals first | exact ⟨_, _, rfl⟩ | (split <;> exact ⟨_, _, rfl⟩)

theorem select_total (scanned : Val) (cs : List (Cond α)) (i : List α) (f : File) : ∃ v cs', selectFrom scanned i (some f) cs = some (v, cs') := by
  induction cs generalizing scanned with
  | nil => exact ⟨_, _, rfl⟩
  | cons c cs ih =>
    obtain ⟨v, c', h⟩ := apply_total c i f
    rw [selectFrom, h]
    rcases v with _ | v
    · obtain ⟨w, cs', hw⟩ := ih scanned
      simp [hw]
    · cases v
      · exact ⟨_, _, rfl⟩
      · exact ⟨_, _, rfl⟩
      · obtain ⟨w, cs', hw⟩ := ih .scan
        simp [hw]

theorem name_not_excl {cs : List (Cond α)} (hp : ∀ c ∈ cs, Plain c) (i : List α) : selectNameFrom .scan i cs ≠ some (.excl, cs) := by
  induction cs with
  | nil => simp [selectNameFrom]
  | cons c cs ih =>
    rw [selectNameFrom]
    split
    · simp
    · next hn =>
      obtain ⟨v, h, -⟩ := name_apply (hp c List.mem_cons_self) hn i ⟨.reg, 0, 0⟩
      have ih := ih fun c hc => hp c (List.mem_cons_of_mem _ hc)
      rw [h]
      rcases v with _ | v
      · simpa [Option.map_eq_some_iff] using ih
      · cases v
        · simp
        · simp
        · simpa [Option.map_eq_some_iff] using ih

theorem name_excl {cs : List (Cond α)} (hp : ∀ c ∈ cs, Plain c) (i : List α) (f : File)
    (h : selectNameFrom .excl i cs = some (.excl, cs)) : ∃ cs', selectFrom .excl i (some f) cs = some (.excl, cs') := by
  induction cs with
  | nil => simp [selectNameFrom] at h
  | cons c cs ih =>
    rw [selectNameFrom] at h
    split at h
    · simp at h
    · next hn =>
      obtain ⟨v, h1, h2⟩ := name_apply (hp c List.mem_cons_self) hn i f
      have hp' := fun c hc => hp c (List.mem_cons_of_mem _ hc)
      rw [h1] at h
      rw [selectFrom]
      rcases v with _ | v
      · simp [Option.map_eq_some_iff] at h
        obtain ⟨cs', hr⟩ := ih hp' h
        rcases h2 with h2 | ⟨-, h2 | h2⟩ <;> rw [h2]
        · exact ⟨c :: cs', by simp [hr]⟩
        · exact ⟨c :: cs', by simp [hr]⟩
        · exact ⟨_, rfl⟩
      · have h2 : c.apply i (some f) = some (some v, c) := by simpa using h2
        rw [h2]
        cases v
        · exact ⟨_, rfl⟩
        · simp at h
        · simp [Option.map_eq_some_iff] at h
          exact absurd h (name_not_excl hp' i)

/-- The first look at the name only (to save reading the file's attributes) changes nothing: what is generated, and how, is decided
by all conditions in their order, for all options but those of findings F18 and F19. -/
theorem name_check_sound_partial {cs : List (Cond α)} (hp : ∀ c ∈ cs, Plain c) (i : List α) (f : File) :
    ∃ v cs', selectDefault cs i (some f) = some (v, cs') ∧
      (entry cs i f).map (·.1) = some (match v with | .incl => some .incl | .scan => if f.isdir then some .scan else none | .excl => none) := by
  obtain ⟨v, cs', h⟩ := select_total .excl cs i f
  refine ⟨v, cs', h, ?_⟩
  obtain ⟨w, hw⟩ := selectName_state hp .excl i
  simp only [entry, selectFilename, hw]
  by_cases he : w = .excl
  · subst he
    obtain ⟨cs2, h2⟩ := name_excl hp i f hw
    rw [h] at h2
    simp only [Option.some.injEq, Prod.mk.injEq] at h2
    rw [h2.1]; rfl
  · have hsel : selectDefault cs i (some f) = some (v, cs') := h
    cases w <;> first | exact absurd rfl he | (simp only [hsel]; cases v <;> rfl)

/-- Conditions of each kind, with names as natural numbers; 0 is `rdiff-backup-data`. -/
def demo : List (Cond Nat) := withRbdir 0
  [.tuple [1, 2] true, .size 10 true, .glob (fun i => i.length == 5) (fun i => i.head? == some 3) true, .tuple [1] false, .tuple [3] false]

example : (selectDefault demo [1] (some ⟨.dir, 0, 0⟩)).map (·.1) = some .incl ∧
    (selectDefault demo [1, 3] (some ⟨.reg, 0, 0⟩)).map (·.1) = some .excl ∧
    (selectDefault demo [3] (some ⟨.dir, 0, 0⟩)).map (·.1) = some .scan ∧
    (selectDefault demo [4] (some ⟨.reg, 11, 0⟩)).map (·.1) = some .excl ∧
    (selectDefault demo [4] (some ⟨.reg, 10, 0⟩)).map (·.1) = some .incl ∧
    (selectDefault demo [0, 4] (some ⟨.reg, 10, 0⟩)).map (·.1) = some .excl ∧ ∀ c ∈ demo, Plain c := by
  refine ⟨by decide +kernel, by decide +kernel, by decide +kernel, by decide +kernel, by decide +kernel, by decide +kernel, ?_⟩
  simp [demo, withRbdir, Plain]

/-- Finding F19: with `--exclude-other-filesystems` (as the first option) every backup of a directory which is not empty raises an
exception: the condition is asked about a path without attributes. -/
theorem exclude_other_filesystems_fails (rb : α) (root : Nat) (cs : List (Cond α)) (rootFile : File) (hd : rootFile.isdir = true) (n : α) (hn : n ≠ rb)
    (f : File) (ch rest : Forest α) :
    iterate (withRbdir rb (.otherFs root false :: cs)) rootFile (.cons n f ch rest) = none := by
  have : entry (withRbdir rb (.otherFs root false :: cs)) [n] f = none := by
    simp [entry, selectFilename, withRbdir, selectNameFrom, Cond.checkFilename, Cond.exclude, Cond.apply, hn]
  rw [iterate, if_pos hd, walkLoop]
  simp [this]

/-- Finding F18: a file listed as included in a file list which also excludes another file is not included: being asked twice about the
file the list has already moved on, and the next condition (here: exclude everything) decides. -/
theorem included_by_mixed_list_lost :
    let list := [([1], true), ([2], false)]
    (selectDefault [.filelist list true, .all false] ([1] : List Nat) (some ⟨.reg, 0, 0⟩)).map (·.1) = some .incl ∧
    (entry [.filelist list true, .all false] ([1] : List Nat) ⟨.reg, 0, 0⟩).map (·.1) = some none := by decide +kernel

end Verif.C26
