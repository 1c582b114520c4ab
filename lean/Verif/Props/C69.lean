import Verif.Proof.Prepare
/-
C69: Preparing an action loses nothing unless `--force` is given. Model: Verif.Model.Prepare; specification: Verif.Spec.Prepare.
-/
namespace Verif.C69
open Verif.Prepare Verif.Quoting Verif.FlatFile

variable {e : Env} {o : Opts} {options : Bool} {fs : FS}

theorem setup_read (b : Bool) (r : Path) : (repoSetup e o false b fs r).1 = fs := by
  unfold repoSetup
  simp only [Bool.false_eq_true, if_false]
  split
  · rfl
  · have : (lock e false fs r).1 = fs := by unfold lock; split <;> [rfl; (split <;> rfl)]
    split <;> exact this

theorem setup_write (b : Bool) (r q : Path) (h : q ≠ lockFile r) : look (repoSetup e o true b fs r).1 q = look (repoCreate e o fs r).1 q := by
  unfold repoSetup
  simp only [if_true]
  generalize repoCreate e o fs r = c
  obtain ⟨fs1, ok⟩ := c
  cases ok with
  | false => rfl
  | true =>
    simp only []
    split
    · rfl
    · split <;> exact lock_look e true fs1 r q (.inl h)

theorem setup_write_ok {b : Bool} {r : Path} (h : (repoSetup e o true b fs r).2 = true) : (repoCreate e o fs r).2 = true := by
  unfold repoSetup at h
  simp only [if_true] at h
  generalize repoCreate e o fs r = c at h
  obtain ⟨fs1, ok⟩ := c
  cases ok with
  | false => simp at h
  | true => rfl

/-- what the preparation of an action does to a repository to which it writes -/
theorem prepare_write {a : Action} {r : Path} (h : a.writes = some r) : ∃ b, prepare e o options fs a = if check o options fs a then repoSetup e o true b fs r else (fs, false) := by
  cases a <;> simp [Action.writes] at h <;> subst h
  · exact ⟨true, rfl⟩
  · exact ⟨false, rfl⟩
  · exact ⟨false, rfl⟩

/-- what the preparation of a restore does -/
theorem prepare_restore (r t : Path) : ∃ b : Bool, (prepare e o options fs (.restore r t)).1 = (if b then (create e o fs t).1 else fs) ∧
    ((prepare e o options fs (.restore r t)).2 = true → b = true ∧ check o options fs (.restore r t) = true ∧ (create e o fs t).2 = true) := by
  unfold prepare
  by_cases hc : check o options fs (.restore r t) = true
  · rw [if_pos hc]
    have h1 := setup_read (e := e) (o := o) (fs := fs) false r
    simp only [setup]
    revert h1
    generalize repoSetup e o false false fs r = c
    obtain ⟨fs1, ok⟩ := c
    rintro rfl
    cases ok with
    | false => exact ⟨false, by simp, by simp⟩
    | true =>
      refine ⟨true, ?_⟩
      simp only [if_true]
      generalize create e o _ t = c
      obtain ⟨fs2, ok⟩ := c
      cases ok <;> simp [hc]
  · rw [if_neg hc]; exact ⟨false, by simp, by simp⟩

/-- **C69 (loss, in general).** Preparing an action, whether it succeeds or not: everything which was there is still there and as it was, but, in the repository to which the action writes, the lock file, and the data directory if there
hasn't been a completed backup (and if there is no lock file, or `--force` is given); and, with `--force`, something at the place of the repository or of the target of the restore which isn't a directory. -/
theorem lost_only (a : Action) (q : Path) (x : Obj) (h : look fs q = some x) :
    look (prepare e o options fs a).1 q = some x ∨
    (∃ r, a.writes = some r ∧ (q = lockFile r ∨ (dataDir r <+: q ∧ ¬ Completed fs r ∧ (o.force = true ∨ ¬ There fs (lockFile r))))) ∨
    (o.force = true ∧ a.makes = some q ∧ x ≠ .dir) := by
  cases hw : a.writes with
  | some r =>
    obtain ⟨b, hb⟩ := prepare_write (e := e) (o := o) (options := options) (fs := fs) hw
    have hm : a.makes = some r := by cases a <;> simp [Action.writes] at hw <;> simp [Action.makes, hw]
    rw [hb]
    by_cases hc : check o options fs a = true
    · rw [if_pos hc]
      by_cases hq : q = lockFile r
      · exact .inr (.inl ⟨r, rfl, .inl hq⟩)
      · rw [setup_write b r q hq]
        rcases (repoCreate_spec e o fs r).1 q x h with h1 | ⟨rfl, h1, h2⟩ | h1
        · exact .inl h1
        · exact .inr (.inr ⟨h1, hm, h2⟩)
        · exact .inr (.inl ⟨r, rfl, .inr h1⟩)
    · rw [if_neg hc]; exact .inl h
  | none =>
    cases a with
    | backup => simp [Action.writes] at hw
    | regress => simp [Action.writes] at hw
    | remove => simp [Action.writes] at hw
    | restore r t =>
      obtain ⟨b, hb, _⟩ := prepare_restore (e := e) (o := o) (options := options) (fs := fs) r t
      rw [hb]
      cases b with
      | false => exact .inl h
      | true =>
        simp only [if_true]
        rcases (create_spec e o fs t).1 q x h with h1 | ⟨rfl, h1, h2⟩
        · exact .inl h1
        · exact .inr (.inr ⟨h1, rfl, h2⟩)
    | compare s r =>
      left; unfold prepare; split
      · simp only [setup, setup_read]; exact h
      · exact h
    | read r =>
      left; unfold prepare; split
      · simp only [setup, setup_read]; exact h
      · exact h

/-- **C69 (nothing is lost).** Without `--force` everything which was there is still there and as it was, but the lock file of the repository to which the action writes, and its data directory if there hasn't been a completed
backup and there is no lock file. -/
theorem nothing_lost (hf : o.force = false) (a : Action) (q : Path) (x : Obj) (h : look fs q = some x) :
    look (prepare e o options fs a).1 q = some x ∨
    ∃ r, a.writes = some r ∧ (q = lockFile r ∨ (dataDir r <+: q ∧ ¬ Completed fs r ∧ ¬ There fs (lockFile r))) := by
  rcases lost_only (e := e) (o := o) (options := options) a q x h with h1 | ⟨r, h1, h2⟩ | ⟨h1, _⟩
  · exact .inl h1
  · exact .inr ⟨r, h1, h2.imp_right fun ⟨a, b, c⟩ => ⟨a, b, by rcases c with c | c <;> [(rw [hf] at c; cases c); exact c]⟩⟩
  · rw [hf] at h1; cases h1

/-- **C69 (repositories).** Even with `--force`, a repository with a completed backup keeps all it has but its lock file. -/
theorem repository_kept (a : Action) {r : Path} (hw : a.writes = some r) (hr : look fs r = some .dir) (hc : Completed fs r) (q : Path) (hq : q ≠ lockFile r) (x : Obj) (h : look fs q = some x) :
    look (prepare e o options fs a).1 q = some x := by
  have hm : a.makes = some r := by cases a <;> simp [Action.writes] at hw <;> simp [Action.makes, hw]
  rcases lost_only (e := e) (o := o) (options := options) a q x h with h1 | ⟨r', h1, h2⟩ | ⟨_, h1, h2⟩
  · exact h1
  · rw [hw] at h1
    cases h1
    rcases h2 with h2 | ⟨_, h2, _⟩
    · exact absurd h2 hq
    · exact absurd hc h2
  · rw [hm] at h1
    cases h1
    rw [hr] at h
    cases h
    exact absurd rfl h2

/-- **C69 (new).** What is new are only directories on the way to the target of a restore or to the increments of the repository to which the action writes, and its lock file. -/
theorem new_only (a : Action) (q : Path) (h : look fs q = none) (h' : There (prepare e o options fs a).1 q) :
    (∃ r, a.writes = some r ∧ (q = lockFile r ∨ (q <+: incsDir r ∧ look (prepare e o options fs a).1 q = some .dir))) ∨
    (∃ r t, a = .restore r t ∧ q <+: t ∧ look (prepare e o options fs a).1 q = some .dir) := by
  cases hw : a.writes with
  | some r =>
    left
    obtain ⟨b, hb⟩ := prepare_write (e := e) (o := o) (options := options) (fs := fs) hw
    rw [hb] at h' ⊢
    refine ⟨r, rfl, ?_⟩
    by_cases hc : check o options fs a = true
    · rw [if_pos hc] at h' ⊢
      by_cases hq : q = lockFile r
      · exact .inl hq
      · rw [There, setup_write b r q hq] at h'
        rw [setup_write b r q hq]
        rcases (repoCreate_spec e o fs r).2 q h with h1 | h1
        · exact absurd h1 h'
        · exact .inr h1
    · rw [if_neg hc] at h'; exact absurd h h'
  | none =>
    right
    cases a with
    | backup => simp [Action.writes] at hw
    | regress => simp [Action.writes] at hw
    | remove => simp [Action.writes] at hw
    | restore r t =>
      refine ⟨r, t, rfl, ?_⟩
      obtain ⟨b, hb, _⟩ := prepare_restore (e := e) (o := o) (options := options) (fs := fs) r t
      rw [There, hb] at h'
      rw [hb]
      cases b with
      | false => exact absurd h h'
      | true =>
        simp only [if_true] at h' ⊢
        rcases (create_spec e o fs t).2.1 q h with h1 | h1
        · exact absurd h1 h'
        · exact h1
    | compare s r =>
      exfalso; apply h'; unfold prepare; split
      · simp only [setup, setup_read]; exact h
      · exact h
    | read r =>
      exfalso; apply h'; unfold prepare; split
      · simp only [setup, setup_read]; exact h
      · exact h

/-- **C69 (readers).** Comparing, listing, verifying and calculating prepare without changing anything, even with `--force`. -/
theorem readers_change_nothing (a : Action) (h : a.makes = none) : (prepare e o options fs a).1 = fs := by
  cases a <;> simp [Action.makes] at h <;>
  · unfold prepare
    split
    · simp only [setup, setup_read]
    · rfl

/-- **C69 (restore).** Without `--force` a restore begins only in a directory which is empty. -/
theorem restore_target (hf : o.force = false) (hcl : Closed fs) (r t : Path) (h : (prepare e o options fs (.restore r t)).2 = true) : EmptyDir (prepare e o options fs (.restore r t)).1 t := by
  obtain ⟨b, hb, hok⟩ := prepare_restore (e := e) (o := o) (options := options) (fs := fs) r t
  obtain ⟨rfl, hc, hcr⟩ := hok h
  rw [hb, if_pos rfl]
  obtain ⟨_, _, c3, c4⟩ := create_spec e o fs t
  simp only [check, writeDirCheck, isWritable, hf, Bool.and_eq_true] at hc
  have hd : look fs t = some .dir ∨ look fs t = none := by
    cases hx : look fs t with
    | none => exact .inr rfl
    | some x =>
      left
      have := hc.1.2.1
      simpa [isDir, hx] using this
  have he : ∀ n, look fs (t ++ [n]) = none := by
    rcases hd with hd | hd
    · have := hc.1.2.2
      apply names_nil.1
      simpa [isDir, hd] using this
    · intro n
      by_contra hn
      have := hcl t n hn
      rw [hd] at this; cases this
  refine ⟨c3 hcr (by rcases hd with h | h <;> simp [h]), fun n hn => ?_⟩
  rcases (c4 hf).new _ (he n) with h2 | ⟨h2, _⟩
  · exact hn h2
  · have := (mem_above.1 h2).length_le
    simp at this
    omega

/-- **C69 (refusals).** Without `--force`: a restore to something which isn't a directory or isn't empty is refused, and so is a backup to something which isn't a directory, or is a directory with something but no
`rdiff-backup-data`; a source which isn't a directory, and a repository which must exist and doesn't, are refused always. Nothing is changed then. -/
theorem refused (a : Action)
    (h : (o.force = false ∧ ((∃ r t, a = .restore r t ∧ There fs t ∧ ¬ EmptyDir fs t) ∨
          (∃ s r, a = .backup s r ∧ There fs r ∧ look fs r ≠ some .dir) ∨
          (∃ s r, a = .backup s r ∧ (∃ n, There fs (r ++ [n])) ∧ look fs r = some .dir ∧ ¬ There fs (dataDir r)))) ∨
        (∃ s r, (a = .backup s r ∨ a = .compare s r) ∧ look fs s ≠ some .dir) ∨
        (∃ r, (a = .regress r ∨ a = .remove r ∨ a = .read r ∨ (∃ s, a = .compare s r) ∨ ∃ t, a = .restore r t) ∧ (look fs r ≠ some .dir ∨ look fs (dataDir r) ≠ some .dir))) :
    prepare e o options fs a = (fs, false) := by
  have key : check o options fs a = false := by
    rcases h with ⟨hf, ⟨r, t, rfl, h1, h2⟩ | ⟨s, r, rfl, h1, h2⟩ | ⟨s, r, rfl, ⟨n, h1⟩, h2, h3⟩⟩ | ⟨s, r, h1, h2⟩ | ⟨r, h1, h2⟩
    · have : writeDirCheck o fs t = false := by
        unfold writeDirCheck isWritable
        by_cases hd : look fs t = some .dir
        · have hn : names fs t ≠ [] := fun hn => h2 ⟨hd, fun n h => h (names_nil.1 hn n)⟩
          simp [isDir, hd, hn, hf]
        · have : (look fs t).isSome = true := by simpa [There, Option.isSome_iff_ne_none] using h1
          simp [isDir, hd, this, hf]
      simp [check, this]
    · have : (look fs r).isSome = true := by simpa [There, Option.isSome_iff_ne_none] using h1
      simp [check, repoCheck, repoIsWritable, isWritable, this, isDir, h2, hf]
    · have hn : names fs r ≠ [] := fun hn => h1 (names_nil.1 hn n)
      have : look fs (dataDir r) = none := by simpa [There] using h3
      simp [check, repoCheck, repoIsWritable, isDir, h2, hf, hn, this]
    · have : isExisting fs s = false := by simp [isExisting, isDir, h2]
      rcases h1 with rfl | rfl <;> simp [check, this]
    · have : repoIsExisting fs r = false := by
        unfold repoIsExisting isExisting isDir
        rcases h2 with h2 | h2 <;> simp [h2]
      rcases h1 with rfl | rfl | rfl | ⟨s, rfl⟩ | ⟨t, rfl⟩ <;> simp [check, repoCheck, this]
  rw [prepare, key]; rfl

/-- **C69 (prepared).** If the preparation of an action which writes to a repository succeeds, the repository and its data directory are directories, its increments are there, and the lock file has been written
unless another process has the lock. -/
theorem prepared (a : Action) {r : Path} (hw : a.writes = some r) (h : (prepare e o options fs a).2 = true) :
    look (prepare e o options fs a).1 r = some .dir ∧ look (prepare e o options fs a).1 (dataDir r) = some .dir ∧ There (prepare e o options fs a).1 (incsDir r) ∧
    ((look (prepare e o options fs a).1 (lockFile r) = some (.file e.identifier) ∧ e.locked = false) ∨ (e.locked = true ∧ o.force = true)) := by
  obtain ⟨b, hb⟩ := prepare_write (e := e) (o := o) (options := options) (fs := fs) hw
  rw [hb] at h ⊢
  by_cases hc : check o options fs a = true
  swap
  · rw [if_neg hc] at h; cases h
  rw [if_pos hc] at h ⊢
  have hwr : isWritable o fs r = true := by
    cases a <;> simp [Action.writes] at hw <;> subst hw <;> simp [check, repoCheck, repoIsWritable] at hc
    · exact hc.1.2.1
    · exact hc.1.2.1
    · exact hc.1.2.1
  obtain ⟨t1, t2, t3⟩ := repoCreate_there (setup_write_ok h) hwr
  have n1 : r ≠ lockFile r := fun hh => by have := congrArg List.length hh; simp [lockFile, dataDir] at this
  have n2 : dataDir r ≠ lockFile r := fun hh => by have := congrArg List.length hh; simp [lockFile] at this
  have n3 : incsDir r ≠ lockFile r := fun hh => by
    have := List.append_cancel_left hh
    exact absurd this (by decide +kernel)
  refine ⟨by rw [setup_write b r _ n1]; exact t1, by rw [setup_write b r _ n2]; exact t2, by rw [There, setup_write b r _ n3]; exact t3, ?_⟩
  have hok := setup_write_ok h
  unfold repoSetup at h ⊢
  simp only [if_true] at h ⊢
  generalize repoCreate e o fs r = c at h hok
  obtain ⟨fs1, ok⟩ := c
  simp only [] at hok
  subst hok
  simp only [] at h ⊢
  by_cases hp : (b && e.notPast fs1) = true
  · rw [if_pos hp] at h; cases h
  rw [if_neg hp] at h ⊢
  by_cases hl : e.locked = true
  · right
    refine ⟨hl, ?_⟩
    by_contra hfo
    simp only [Bool.not_eq_true] at hfo
    rw [if_pos (by simp [lock, hl, hfo])] at h
    cases h
  · simp only [Bool.not_eq_true] at hl
    left
    refine ⟨?_, hl⟩
    have hk : look (lock e true fs1 r).1 (lockFile r) = some (.file e.identifier) := by
      have h1 : look (fs1.filter fun x => x.1 ≠ lockFile r) (lockFile r) = none := by
        rw [look_filter (f := fun q => decide (q ≠ lockFile r)) (by simp [lockFile])]; simp
      have h2 := look_append (x := Obj.file e.identifier) h1 (lockFile r)
      rw [if_pos rfl] at h2
      simpa [lock, hl] using h2
    split <;> exact hk

/-! ### going ahead -/

theorem ensure_ok (he : Permits e) {p : Path} (h : look fs p.dropLast = some .dir) : (ensure e fs p).2 = true := by
  unfold ensure
  split
  · next hn =>
    have : look fs p = none := by simpa using hn
    simp [mkdir, this, isDir, h, he.mkdir]
  · rfl

theorem finish_ok (he : Permits e) {r : Path} (h : look fs r = some .dir) (hd : look fs (dataDir r) = none ∨ look fs (dataDir r) = some .dir) : (finish e fs r).2 = true := by
  unfold finish
  have h1 := ensure_ok (fs := fs) he (p := dataDir r) (by rw [dataDir, List.dropLast_concat]; exact h)
  have h2 : look (ensure e fs (dataDir r)).1 (dataDir r) = some .dir := by
    rcases hd with hd | hd
    · rcases (ensure_grows e fs (dataDir r)).new _ hd with h3 | h3
      · exact absurd h3 (ensure_there h1)
      · exact h3.2
    · exact (ensure_grows e fs (dataDir r)).kept _ _ hd
  generalize ensure e fs (dataDir r) = c at h1 h2
  obtain ⟨fs1, ok⟩ := c
  simp only [] at h1 h2
  subst h1
  exact ensure_ok he (by rw [incsDir, List.dropLast_concat]; exact h2)

theorem setup_ok (he : Permits e) {b : Bool} {r : Path} (h : (repoCreate e o fs r).2 = true) : (repoSetup e o true b fs r).2 = true := by
  unfold repoSetup
  simp only [if_true]
  generalize repoCreate e o fs r = c at h
  obtain ⟨fs1, ok⟩ := c
  simp only [] at h
  subst h
  simp [he.past, lock, he.free, he.rest]

theorem create_ok (he : Permits e) {p : Path} (h : look fs p = some .dir ∨ (look fs p = none ∧ look fs p.dropLast = some .dir ∧ o.createFullPath = false)) : (create e o fs p).2 = true := by
  unfold create
  rcases h with h | ⟨h, h', hc⟩
  · simp [h, isDir]
  · simp [h, isDir, hc, mkdir, h', he.mkdir]

theorem create_dir {p : Path} (h : look fs p = some .dir) : create e o fs p = (fs, true) := by
  unfold create; simp [h, isDir]

theorem failed_iff (hu : Unique fs) {r : Path} (hd : look fs (dataDir r) = some .dir) : failedInitial fs r = some true ↔ ¬ Completed fs r := by
  refine ⟨failed_not_completed, fun h => ?_⟩
  have hn : (names fs (dataDir r)).Nodup := by
    have : names fs (dataDir r) = (fs.map (·.1)).filterMap fun q => if q.dropLast = dataDir r then q.getLast? else none := by
      rw [List.filterMap_map]; rfl
    rw [this]
    refine List.Pairwise.filterMap _ ?_ hu
    intro a a' hne b hb b' hb' hbb
    subst hbb
    simp only [Option.ite_none_right_eq_some] at hb hb'
    apply hne
    have e1 := List.dropLast_append_getLast? b hb.2
    have e2 := List.dropLast_append_getLast? b hb'.2
    rw [← e1, ← e2, hb.1, hb'.1]
  have two : ∀ s : Bytes, ¬ HasTwo fs r s → ((names fs (dataDir r)).filter fun n => s.isPrefixOf n).length ≤ 1 := by
    intro s hs
    have hnf := hn.filter (fun n => s.isPrefixOf n)
    have hmem : ∀ n ∈ (names fs (dataDir r)).filter (fun n => s.isPrefixOf n), s <+: n ∧ There fs (dataDir r ++ [n]) := by
      intro n hn
      rw [List.mem_filter] at hn
      exact ⟨by simpa using hn.2, mem_names.1 hn.1⟩
    generalize (names fs (dataDir r)).filter (fun n => s.isPrefixOf n) = l at hnf hmem
    match l with
    | [] => simp
    | [a] => simp
    | a :: b :: l =>
      exfalso
      refine hs ⟨a, b, ?_, (hmem a (by simp)).1, (hmem b (by simp)).1, (hmem a (by simp)).2, (hmem b (by simp)).2⟩
      intro hab
      simp [hab] at hnf
  simp only [Completed, not_or] at h
  have h1 : (names fs (dataDir r)).any (fun n => (lit "current_mirror").isPrefixOf n) = false := by
    rw [List.any_eq_false]
    intro n hn hp
    exact h.1 ⟨n, by simpa using hp, mem_names.1 hn⟩
  simp only [failedInitial, hd, h1, two _ h.2.1, two _ h.2.2]
  rfl

/-- **C69 (going ahead).** Where nothing hinders, a backup of a directory is prepared, without `--force`, for a repository which isn't there yet (but the directory where it shall be is), for an
empty directory, for a repository with a completed backup, and for one whose first backup failed and has no lock file. -/
theorem goes_ahead (he : Permits e) (hcl : Closed fs) (s r : Path) (hs : look fs s = some .dir)
    (h : (look fs r = none ∧ look fs r.dropLast = some .dir ∧ o.createFullPath = false) ∨ EmptyDir fs r ∨
      (look fs r = some .dir ∧ look fs (dataDir r) = some .dir ∧ (Completed fs r ∨ ¬ There fs (lockFile r)))) :
    (prepare e o true fs (.backup s r)).2 = true := by
  have hcheck : check o true fs (.backup s r) = true := by
    have hsrc : isExisting fs s = true := by simp [isExisting, isDir, hs]
    have hr : repoIsWritable o fs r = true := by
      unfold repoIsWritable isWritable
      rcases h with ⟨h, _⟩ | ⟨h, h'⟩ | ⟨h, h', _⟩
      · simp [h, isDir]
      · have : names fs r = [] := names_nil.2 fun n => by simpa [There] using h' n
        simp [h, isDir, this]
      · simp [h, h', isDir]
    simp [check, repoCheck, hsrc, hr]
  unfold prepare
  rw [if_pos hcheck]
  refine setup_ok he ?_
  have hcr : (create e o fs r).2 = true := create_ok he (by rcases h with h | ⟨h, _⟩ | ⟨h, _⟩ <;> [exact .inr h; exact .inl h; exact .inl h])
  obtain ⟨c1, c2, c3, _⟩ := create_spec e o fs r
  have hr1 : look (create e o fs r).1 r = some .dir := c3 hcr (by rcases h with ⟨h, _⟩ | ⟨h, _⟩ | ⟨h, _⟩ <;> [exact .inr (.inl h); exact .inl h; exact .inl h])
  rw [repoCreate_eq, if_neg (by simp [hcr])]
  rcases h with h | h | ⟨h, hd, h'⟩
  · have hd : look fs (dataDir r) = none := by
      by_contra hn
      have := hcl _ _ hn
      rw [h.1] at this; cases this
    have hd1 : look (create e o fs r).1 (dataDir r) = none := by
      rcases c2 _ hd with h1 | ⟨h1, _⟩
      · exact h1
      · have := h1.length_le
        simp [dataDir] at this
        omega
    have : failedInitial (create e o fs r).1 r = some false := by simp [failedInitial, hd1]
    rw [this]
    exact finish_ok he hr1 (.inl hd1)
  · have hd : look fs (dataDir r) = none := by simpa [There, dataDir] using h.2 (lit "rdiff-backup-data")
    rw [create_dir h.1]
    have : failedInitial fs r = some false := by simp [failedInitial, hd]
    rw [this]
    exact finish_ok he h.1 (.inl hd)
  · rw [create_dir h]
    simp only []
    cases hf : failedInitial fs r with
    | none => simp [failedInitial, hd] at hf
    | some b =>
      cases b with
      | false => exact finish_ok he h (.inr hd)
      | true =>
        have hnc := failed_not_completed hf
        have hl : look fs (lockFile r) = none := by
          rcases h' with h' | h'
          · exact absurd h' hnc
          · simpa [There] using h'
        have hrm : (rmtree e fs (dataDir r)).2 = true := by simp [rmtree, he.goes]
        simp only [hl, hrm]
        simp only [Option.isSome_none, Bool.false_and, Bool.false_eq_true, if_false, Bool.true_eq_false]
        refine finish_ok he ?_ ?_
        · rw [rmtree_look e fs (dataDir_ne r), if_neg]
          · exact h
          · rintro ⟨hp, _⟩
            have := hp.length_le
            simp [dataDir] at this
            omega
        · rw [rmtree_look e fs (dataDir_ne r)]
          split
          · exact .inl rfl
          · exact .inr hd

/-- **C69 (a first backup which failed).** When an action which writes to a repository is prepared, and there has been no completed backup, then the data directory has nothing afterwards but an empty `increments` and the lock file. -/
theorem first_failed (hu : Unique fs) (a : Action) {r : Path} (hw : a.writes = some r) (hr : look fs r = some .dir) (hd : look fs (dataDir r) = some .dir) (hnc : ¬ Completed fs r)
    (h : (prepare e o options fs a).2 = true) (q : Path) (hq : dataDir r <+: q) (ht : There (prepare e o options fs a).1 q) : q = dataDir r ∨ q = incsDir r ∨ q = lockFile r := by
  obtain ⟨b, hb⟩ := prepare_write (e := e) (o := o) (options := options) (fs := fs) hw
  rw [hb] at h ht
  by_cases hc : check o options fs a = true
  swap
  · rw [if_neg hc] at h; cases h
  rw [if_pos hc] at h ht
  by_cases hl : q = lockFile r
  · exact .inr (.inr hl)
  rw [There, setup_write b r q hl] at ht
  have hok := setup_write_ok h
  rw [repoCreate_eq, create_dir hr] at ht hok
  simp only [Bool.true_eq_false, if_false, (failed_iff hu hd).2 hnc] at ht hok
  split at hok
  · cases hok
  · next h1 =>
    rw [if_neg h1] at ht
    split at hok
    · cases hok
    · next h2 =>
      rw [if_neg h2] at ht
      have hg := finish_grows e (rmtree e fs (dataDir r)).1 r
      have hs : ∀ x, (q, x) ∈ fs → e.stays q = false := by
        intro x hx
        simp only [rmtree, Bool.not_eq_false', List.any_eq_true, Bool.and_eq_true, not_exists, not_and] at h2
        have := h2 (q, x) hx
        simpa [hq] using this
      have hgone : look (rmtree e fs (dataDir r)).1 q = none := by
        rw [rmtree_look e fs (dataDir_ne r)]
        split
        · rfl
        · next hst =>
          cases hx : look fs q with
          | none => rfl
          | some x =>
            exfalso
            have hqn : q ≠ [] := by rintro rfl; simp [dataDir] at hq
            exact hst ⟨hq, hs x (look_some hqn hx)⟩
      rcases hg.new q hgone with h3 | ⟨h3, _⟩
      · exact absurd h3 ht
      · simp only [List.mem_cons, List.not_mem_nil, or_false] at h3
        rcases h3 with h3 | h3
        · exact .inl h3
        · exact .inr (.inl h3)

/-- **C69 (a first backup which is still running, perhaps).** Without a completed backup but with a lock file, an action which writes is refused without `--force`, and nothing is changed. -/
theorem running_refused (hf : o.force = false) (hu : Unique fs) (a : Action) {r : Path} (hw : a.writes = some r) (hr : look fs r = some .dir) (hd : look fs (dataDir r) = some .dir) (hnc : ¬ Completed fs r)
    (hl : There fs (lockFile r)) : prepare e o options fs a = (fs, false) := by
  obtain ⟨b, hb⟩ := prepare_write (e := e) (o := o) (options := options) (fs := fs) hw
  rw [hb]
  split
  · have : repoCreate e o fs r = (fs, false) := by
      rw [repoCreate_eq, create_dir hr]
      have h1 : (look fs (lockFile r)).isSome = true := by simpa [There, Option.isSome_iff_ne_none] using hl
      simp only [Bool.true_eq_false, if_false, (failed_iff hu hd).2 hnc, h1, hf]
      rfl
    unfold repoSetup
    rw [if_pos rfl, this]
  · rfl

/-- **C69 (F90).** Preparing an action leaves a lock file: what is left of a first backup which was interrupted after its preparation is refused without `--force`, though no other process has it. -/
theorem interrupted_refused {e' : Env} {o' : Opts} {options' : Bool} {fs' : FS} (a a' : Action) {r : Path} (hw : a.writes = some r) (hw' : a'.writes = some r) (h : (prepare e o options fs a).2 = true) (hfree : e.locked = false)
    (later : ∀ q x, look (prepare e o options fs a).1 q = some x → look fs' q = some x) (hu : Unique fs') (hnc : ¬ Completed fs' r) (hf : o'.force = false) :
    prepare e' o' options' fs' a' = (fs', false) := by
  obtain ⟨p1, p2, _, p4⟩ := prepared a hw h
  rcases p4 with ⟨p4, _⟩ | ⟨p4, _⟩
  · exact running_refused hf hu a' hw' (later _ _ p1) (later _ _ p2) hnc (by rw [There, later _ _ p4]; simp)
  · rw [hfree] at p4; cases p4

/-! ### what is lost nevertheless -/

/-- **C69 (F88, F89).** A backup, a regress and a removal (even a dry run) begin, with or without `--force`, with the deletion of everything in `rdiff-backup-data`, if it has no marker, no two metadata files, no two error logs and no lock
file: whatever else there is, increments or the user's own files. -/
theorem deleted_without_force (he : Permits e) (hcl : Closed fs) (hu : Unique fs) (a : Action) {r : Path} (hw : a.writes = some r) (hs : ∀ s, a = .backup s r → look fs s = some .dir)
    (hr : look fs r = some .dir) (hd : look fs (dataDir r) = some .dir) (hnc : ¬ Completed fs r) (hl : ¬ There fs (lockFile r)) (q : Path) (hq : dataDir r <+: q) (h1 : q ≠ dataDir r) (h2 : q ≠ incsDir r) (h3 : q ≠ lockFile r) :
    (prepare e o true fs a).2 = true ∧ ¬ There (prepare e o true fs a).1 q := by
  have hok : (prepare e o true fs a).2 = true := by
    have hb := goes_ahead (o := o) he hcl [] r (look_nil fs) (.inr (.inr ⟨hr, hd, .inr hl⟩))
    have hex : repoIsExisting fs r = true := by simp [repoIsExisting, isExisting, isDir, hr, hd]
    have hwr : repoIsWritable o fs r = true := by simp [repoIsWritable, isWritable, isDir, hr, hd]
    have hcr : (repoCreate e o fs r).2 = true := by
      refine setup_write_ok (b := true) ?_
      rw [prepare] at hb
      split at hb
      · exact hb
      · cases hb
    have hall : check o true fs a = true := by
      cases a <;> simp [Action.writes] at hw <;> subst hw <;> simp [check, repoCheck, hex, hwr]
      simp [isExisting, isDir, hs _ rfl]
    obtain ⟨b, hp⟩ := prepare_write (e := e) (o := o) (options := true) (fs := fs) hw
    rw [hp, if_pos hall]
    exact setup_ok he hcr
  refine ⟨hok, fun ht => ?_⟩
  rcases first_failed hu a hw hr hd hnc hok q hq ht with h | h | h
  · exact h1 h
  · exact h2 h
  · exact h3 h

/-! ### examples -/

/-- an environment in which nothing hinders -/
def env : Env := { mayMkdir := fun _ => true, mayDelete := fun _ => true, stays := fun _ => false, notPast := fun _ => false, locked := false, identifier := lit "pid: 7", rest := true }
theorem env_permits : Permits env := ⟨fun _ => rfl, fun _ => rfl, fun _ => rfl, rfl, rfl⟩

def plain : Opts := { force := false, createFullPath := false }
def forced : Opts := { force := true, createFullPath := false }

/-- a source, a repository with a completed backup, a directory of the user with a directory `rdiff-backup-data`, a repository without marker, a file, and a directory -/
def disk : FS :=
  [([lit "src"], .dir), ([lit "src", lit "a"], .file (lit "A")),
   ([lit "repo"], .dir), ([lit "repo", lit "a"], .file (lit "old")), ([lit "repo", lit "rdiff-backup-data"], .dir),
   ([lit "repo", lit "rdiff-backup-data", lit "current_mirror.T.data"], .file (lit "PID 5")),
   ([lit "repo", lit "rdiff-backup-data", lit "increments"], .dir),
   ([lit "repo", lit "rdiff-backup-data", lit "increments", lit "a.S.diff"], .file (lit "delta")),
   ([lit "user"], .dir), ([lit "user", lit "rdiff-backup-data"], .dir), ([lit "user", lit "rdiff-backup-data", lit "notes"], .file (lit "mine")),
   ([lit "torn"], .dir), ([lit "torn", lit "rdiff-backup-data"], .dir), ([lit "torn", lit "rdiff-backup-data", lit "mirror_metadata.T.snapshot"], .file (lit "File .")),
   ([lit "torn", lit "rdiff-backup-data", lit "increments"], .dir),
   ([lit "torn", lit "rdiff-backup-data", lit "increments", lit "a.S.diff"], .file (lit "delta")),
   ([lit "file"], .file (lit "F")), ([lit "full"], .dir), ([lit "full", lit "x"], .file (lit "X")), ([lit "empty"], .dir)]

theorem disk_unique : Unique disk := by unfold Prepare.Unique; decide +kernel

theorem closed_of {fs : FS} (h : ∀ x ∈ fs, look fs x.1.dropLast = some .dir) : Closed fs := by
  intro p n ht
  obtain ⟨x, hx⟩ := Option.ne_none_iff_exists'.1 ht
  simpa using h _ (look_some (by simp) hx)

theorem disk_closed : Closed disk := closed_of (by decide +kernel)

theorem not_completed {r : Path} (hu : Unique fs) (hd : look fs (dataDir r) = some .dir) (h : failedInitial fs r = some true) : ¬ Completed fs r := (failed_iff hu hd).1 h

/-- `lost_only`, `nothing_lost`, `repository_kept`, `prepared`: a backup to the repository succeeds, and the increment is still there; the lock file is new -/
example : look disk [lit "repo", lit "rdiff-backup-data", lit "increments", lit "a.S.diff"] = some (.file (lit "delta")) ∧
    (prepare env plain true disk (.backup [lit "src"] [lit "repo"])).2 = true ∧
    look (prepare env plain true disk (.backup [lit "src"] [lit "repo"])).1 [lit "repo", lit "rdiff-backup-data", lit "increments", lit "a.S.diff"] = some (.file (lit "delta")) ∧
    look (prepare env plain true disk (.backup [lit "src"] [lit "repo"])).1 (lockFile [lit "repo"]) = some (.file (lit "pid: 7")) := by decide +kernel
example : Completed disk [lit "repo"] ∧ look disk [lit "repo"] = some .dir := by
  refine ⟨.inl ⟨lit "current_mirror.T.data", ?_, ?_⟩, by decide +kernel⟩
  · exact ⟨lit ".T.data", by decide +kernel⟩
  · unfold There; decide +kernel

/-- `new_only`: a new repository -/
example : look disk (incsDir [lit "new"]) = none ∧ look (prepare env plain true disk (.backup [lit "src"] [lit "new"])).1 (incsDir [lit "new"]) = some .dir ∧
    (prepare env plain true disk (.backup [lit "src"] [lit "new"])).2 = true := by decide +kernel

/-- `readers_change_nothing`, even with `--force` -/
example : prepare env forced true disk (.read [lit "repo"]) = (disk, true) ∧ (prepare env forced true disk (.compare [lit "src"] [lit "torn"])).1 = disk := by decide +kernel

/-- `restore_target`: to an empty directory, and to one which isn't there -/
example : (prepare env plain true disk (.restore [lit "repo"] [lit "empty"])).2 = true ∧ (prepare env plain true disk (.restore [lit "repo"] [lit "there"])).2 = true ∧
    look (prepare env plain true disk (.restore [lit "repo"] [lit "there"])).1 [lit "there"] = some .dir := by decide +kernel

/-- `refused`; with `--force` a file which is in the way is deleted -/
example : prepare env plain true disk (.restore [lit "repo"] [lit "full"]) = (disk, false) ∧ prepare env plain true disk (.backup [lit "src"] [lit "file"]) = (disk, false) ∧
    prepare env plain true disk (.backup [lit "src"] [lit "full"]) = (disk, false) ∧ prepare env forced true disk (.remove [lit "full"]) = (disk, false) := by
  have hf : look disk [lit "full", lit "x"] ≠ none := by decide +kernel
  refine ⟨refused _ (.inl ⟨rfl, .inl ⟨_, _, rfl, by unfold There; decide +kernel, fun h => h.2 (lit "x") hf⟩⟩),
    refused _ (.inl ⟨rfl, .inr (.inl ⟨_, _, rfl, by unfold There; decide +kernel, by decide +kernel⟩)⟩),
    refused _ (.inl ⟨rfl, .inr (.inr ⟨_, _, rfl, ⟨lit "x", hf⟩, by decide +kernel, by unfold There; decide +kernel⟩)⟩),
    refused _ (.inr (.inr ⟨_, .inr (.inl rfl), .inr (by decide +kernel)⟩))⟩
example : (prepare env forced true disk (.backup [lit "src"] [lit "file"])).2 = true ∧ look (prepare env forced true disk (.backup [lit "src"] [lit "file"])).1 [lit "file"] = some .dir := by decide +kernel

/-- `goes_ahead`: an empty directory -/
example : (prepare env plain true disk (.backup [lit "src"] [lit "empty"])).2 = true := by
  refine goes_ahead env_permits disk_closed _ _ (by decide +kernel) (.inr (.inl ⟨by decide +kernel, fun n hn => ?_⟩))
  have h := mem_names.2 hn
  rw [show names disk [lit "empty"] = [] by decide +kernel] at h
  cases h

/-- `running_refused` -/
example : prepare env plain true (disk ++ [(lockFile [lit "torn"], .file (lit "pid: 5"))]) (.backup [lit "src"] [lit "torn"]) = (disk ++ [(lockFile [lit "torn"], .file (lit "pid: 5"))], false) :=
  running_refused rfl (by unfold Prepare.Unique; decide +kernel) _ rfl (by decide +kernel) (by decide +kernel) (not_completed (by unfold Prepare.Unique; decide +kernel) (by decide +kernel) (by decide +kernel)) (by unfold There; decide +kernel)

/-- `interrupted_refused`: a backup to a new repository is killed just after its preparation -/
example : prepare env plain true (prepare env plain true disk (.backup [lit "src"] [lit "new"])).1 (.backup [lit "src"] [lit "new"]) = ((prepare env plain true disk (.backup [lit "src"] [lit "new"])).1, false) :=
  interrupted_refused _ _ rfl rfl (by decide +kernel) rfl (fun _ _ h => h) (by unfold Prepare.Unique; decide +kernel)
    (not_completed (by unfold Prepare.Unique; decide +kernel) (by decide +kernel) (by decide +kernel)) rfl

/-- `first_failed`, `deleted_without_force` (F88): the notes of the user are deleted -/
theorem user_directory_deleted : look disk [lit "user", lit "rdiff-backup-data", lit "notes"] = some (.file (lit "mine")) ∧
    (prepare env plain true disk (.backup [lit "src"] [lit "user"])).2 = true ∧ ¬ There (prepare env plain true disk (.backup [lit "src"] [lit "user"])).1 [lit "user", lit "rdiff-backup-data", lit "notes"] :=
  ⟨by decide +kernel, deleted_without_force env_permits disk_closed disk_unique _ rfl (fun s h => by cases h; decide +kernel) (by decide +kernel) (by decide +kernel)
    (not_completed disk_unique (by decide +kernel) (by decide +kernel)) (by unfold There; decide +kernel) _ (by decide +kernel) (by decide +kernel) (by decide +kernel) (by decide +kernel)⟩

/-- F89: a removal of old increments, even a dry run, deletes all increments, and the metadata, of a repository which has lost its marker -/
theorem increments_deleted : look disk [lit "torn", lit "rdiff-backup-data", lit "increments", lit "a.S.diff"] = some (.file (lit "delta")) ∧
    (prepare env plain true disk (.remove [lit "torn"])).2 = true ∧ ¬ There (prepare env plain true disk (.remove [lit "torn"])).1 [lit "torn", lit "rdiff-backup-data", lit "increments", lit "a.S.diff"] :=
  ⟨by decide +kernel, deleted_without_force env_permits disk_closed disk_unique _ rfl (fun s h => by cases h) (by decide +kernel) (by decide +kernel)
    (not_completed disk_unique (by decide +kernel) (by decide +kernel)) (by unfold There; decide +kernel) _ (by decide +kernel) (by decide +kernel) (by decide +kernel) (by decide +kernel)⟩

end Verif.C69
