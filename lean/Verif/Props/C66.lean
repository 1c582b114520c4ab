import Verif.Proof.LinkedRestore
/-
C66 Hard-linked files are restored with their contents and as hard links.
-/
set_option linter.unusedSectionVars false
namespace Verif.C66
open Verif.Linked
open Verif.Hardlinks (Decision Rorp Run Pair)
variable {I K A C D : Type} [DecidableEq I] [DecidableEq K] [DecidableEq A] [DecidableEq C] [DecidableEq D]

theorem before_mem {order pre rest a b : List I} {i j : I} (hn : order.Nodup) (h : order = pre ++ i :: rest) (h' : order = a ++ j :: b) (hi : i ∈ b) : j ∈ pre := by
  obtain ⟨b1, b2, rfl⟩ := List.append_of_mem hi
  have he : a ++ j :: (b1 ++ i :: b2) = (a ++ j :: b1) ++ i :: b2 := by simp
  rw [he] at h'
  rw [h] at hn
  obtain ⟨rfl, -⟩ := split_unique hn (h.symm.trans h')
  simp

theorem exists_firstIn {V : Version I K A C} {order pre rest : List I} {i k : I} (h : order = pre ++ i :: rest) (hk : k ∈ pre) {x z : Src K A C} (hx : V i = some x)
    (hz : V k = some z) (hl : Links x z) : ∃ j, FirstIn V order i j := by
  have : ∃ a j b w, pre = a ++ j :: b ∧ V j = some w ∧ Links x w ∧ ∀ m ∈ a, ∀ w, V m = some w → ¬ Links x w := by
    clear h
    induction pre with
    | nil => simp at hk
    | cons p l ih =>
      by_cases hp : ∃ w, V p = some w ∧ Links x w
      · obtain ⟨w, hw, hlw⟩ := hp
        exact ⟨[], p, l, w, rfl, hw, hlw, fun m hm => by simp at hm⟩
      · have hkl : k ∈ l := by
          rcases List.mem_cons.1 hk with rfl | hk
          · exact absurd ⟨z, hz, hl⟩ hp
          · exact hk
        obtain ⟨a, j, b, w, rfl, hw, hlw, ha⟩ := ih hkl
        refine ⟨p :: a, j, b, w, rfl, hw, hlw, fun m hm w' hw' hl' => ?_⟩
        rcases List.mem_cons.1 hm with rfl | hm
        · exact hp ⟨w', hw', hl'⟩
        · exact ha m hm w' hw' hl'
  obtain ⟨a, j, b, w, rfl, hw, hlw, ha⟩ := this
  exact ⟨j, x, w, a, b ++ i :: rest, hx, hw, hlw, by rw [h]; simp, by simp, ha⟩

theorem firstIn_none {V : Version I K A C} {order : List I} (hn : order.Nodup) {i j k : I} (h : FirstIn V order i j) : ¬ FirstIn V order j k := by
  obtain ⟨x, -⟩ := id h
  exact firstLink_none (s := ⟨0, V, fun _ => .ok, x.file.attr, order⟩) hn h

theorem links_trans {x y z : Src K A C} (h : Links x y) : Links x z ↔ Links y z :=
  ⟨fun h' => ⟨h.2.1, h'.2.1, h.2.2.2.1, h'.2.2.2.1, h.2.2.2.2.symm.trans h'.2.2.2.2⟩,
   fun h' => ⟨h.1, h'.2.1, h.2.2.1, h'.2.2.2.1, h.2.2.2.2.trans h'.2.2.2.2⟩⟩

/-- `pre` have been restored; `kp`: the paths which are kept -/
structure Part (V : Version I K A C) (fs0 : FS I A C) (kp : I → Prop) (pre : List I) (fs : FS I A C) : Prop where
  wf : fs.WF
  next : fs0.next ≤ fs.next
  old : ∀ n, n < fs0.next → fs.node n = fs0.node n
  same : ∀ k, k ∉ pre ∨ kp k → fs.ino k = fs0.ino k
  done : ∀ k ∈ pre, ¬ kp k → fs.file k = (V k).map (·.file) ∧ ∀ n, fs.ino k = some n → fs0.next ≤ n
  links : ∀ k m, k ∈ pre → m ∈ pre → ¬ kp k → ¬ kp m → k ≠ m → ∀ x y, V k = some x → V m = some y → (fs.ino k = fs.ino m ↔ Links x y)

theorem part_step {o : Ops C D} {V dst : Version I K A C} (hV : VersionOk V) {stamp : A} {fs0 fs : FS I A C} {kp : I → Prop} {order pre rest : List I} {i : I}
    {x : Decision I} (hn : order.Nodup) (ho : order = pre ++ i :: rest) (hk : x = .keep ↔ kp i) (hd : DecisionOk o V dst order i x)
    (hkl : ∀ k y, kp k → V k = some y → y.file.reg = true → 2 ≤ y.nlink → ∃ j, FirstIn V order k j) (hp : Part V fs0 kp pre fs) :
    Part V fs0 kp (pre ++ [i]) (restoreStep o stamp (fun i => (V i).map (·.file)) fs i x) := by
  have hi : i ∉ pre := by
    rw [ho] at hn
    intro hm
    exact (List.nodup_append.1 hn).2.2 i hm i (by simp) rfl
  -- the entry `i` becomes `n`
  have key : ∀ (fs' : FS I A C), fs'.WF → fs.next ≤ fs'.next → (∀ m, m < fs.next → fs'.node m = fs.node m) → (∀ k, k ≠ i → fs'.ino k = fs.ino k) → ¬ kp i →
      (fs'.file i = (V i).map (·.file)) → (∀ n, fs'.ino i = some n → fs0.next ≤ n) →
      (∀ k ∈ pre, ¬ kp k → ∀ x y, V i = some x → V k = some y → (fs'.ino i = fs.ino k ↔ Links x y)) → Part V fs0 kp (pre ++ [i]) fs' := by
    intro fs' hwf hnext hnode hino hki hfile hge hlinks
    refine ⟨hwf, le_trans hp.next hnext, fun n hn => ?_, fun k hk' => ?_, fun k hk1 hk2 => ?_, fun k m hk1 hm1 hk2 hm2 hne x y hx hy => ?_⟩
    · rw [hnode n (by have := hp.next; omega), hp.old n hn]
    · have hk1 : k ≠ i := by
        rintro rfl
        rcases hk' with h | h
        · simp at h
        · exact hki h
      rw [hino k hk1]
      refine hp.same k ?_
      rcases hk' with h | h
      · exact .inl fun hm => h (by simp [hm])
      · exact .inr h
    · by_cases hki' : k = i
      · subst hki'
        exact ⟨hfile, hge⟩
      · have hkp : k ∈ pre := by simpa [hki'] using hk1
        obtain ⟨d1, d2⟩ := hp.done k hkp hk2
        refine ⟨?_, fun n => by rw [hino k hki']; exact d2 n⟩
        rw [← d1, FS.file, FS.file, hino k hki']
        cases hik : fs.ino k with
        | none => rfl
        | some n =>
          simp only [Option.map_some]
          rw [hnode n (hp.wf k n hik)]
    · by_cases hki' : k = i
      · subst hki'
        have hmk : m ≠ k := fun h => hne h.symm
        have hmp : m ∈ pre := by simpa [hmk] using hm1
        rw [hino m hmk]
        exact hlinks m hmp hm2 x y hx hy
      · have hkp : k ∈ pre := by simpa [hki'] using hk1
        by_cases hmi : m = i
        · subst hmi
          rw [hino k hki']
          have := hlinks k hkp hk2 y x hy hx
          constructor
          · intro h
            obtain ⟨a1, a2, a3, a4, a5⟩ := this.1 h.symm
            exact ⟨a2, a1, a4, a3, a5.symm⟩
          · rintro ⟨a1, a2, a3, a4, a5⟩
            exact (this.2 ⟨a2, a1, a4, a3, a5.symm⟩).symm
        · have hmp : m ∈ pre := by simpa [hmi] using hm1
          rw [hino k hki', hino m hmi]
          exact hp.links k m hkp hmp hk2 hm2 hne x y hx hy
  cases x with
  | keep =>
    have hki := hk.1 rfl
    simp only [restoreStep]
    refine ⟨hp.wf, hp.next, hp.old, fun k hk' => hp.same k ?_, fun k hk1 hk2 => ?_, fun k m hk1 hm1 hk2 hm2 => ?_⟩
    · rcases hk' with h | h
      · exact .inl fun hm => h (by simp [hm])
      · exact .inr h
    · have hki' : k ≠ i := by rintro rfl; exact hk2 hki
      exact hp.done k (by simpa [hki'] using hk1) hk2
    · have hki' : k ≠ i := by rintro rfl; exact hk2 hki
      have hmi : m ≠ i := by rintro rfl; exact hm2 hki
      exact hp.links k m (by simpa [hki'] using hk1) (by simpa [hmi] using hm1) hk2 hm2
  | link j =>
    have hki : ¬ kp i := fun h => by have := hk.2 h; cases this
    have hfirst := hd.link j rfl
    obtain ⟨y, z, a, b, hy, hz, hl, hab, hib, -⟩ := id hfirst
    have hj := before_mem hn ho hab hib
    have hjk : ¬ kp j := by
      intro h
      obtain ⟨k, hk'⟩ := hkl j z h hz hl.2.1 hl.2.2.2.1
      exact firstIn_none hn hfirst hk'
    obtain ⟨d1, d2⟩ := hp.done j hj hjk
    have hji : j ≠ i := fun h => hi (h ▸ hj)
    have hfile : y.file = z.file := by
      obtain ⟨S, so, hS, -, -, hVS, -⟩ := hV
      exact (hS.same i j y z (hVS i y hy hl.1 hl.2.2.1) (hVS j z hz hl.2.1 hl.2.2.2.1) hl.2.2.2.2).1
    simp only [restoreStep, hy, Option.map_some]
    cases hino : fs.ino j with
    | none => rw [FS.file, hino, hz] at d1; simp at d1
    | some n =>
      refine key _ (wf_setEntry hp.wf i fun m hm => by cases hm; exact hp.wf j n hino) le_rfl (fun _ _ => rfl) (fun k hk' => ?_) hki ?_ ?_ ?_
      · simp only [FS.setEntry]; rw [Hardlinks.set_ne _ _ hk']
      · rw [file_setEntry, if_pos rfl, hy]
        simp only [Option.map_some]
        rw [hfile]
        rw [FS.file, hino, hz] at d1
        simpa using d1
      · intro m hm
        simp only [FS.setEntry, Hardlinks.set_self, Option.some.injEq] at hm
        subst hm
        exact d2 n hino
      · intro k hkp hkk x' y' hx' hy'
        rw [hy] at hx'
        cases hx'
        simp only [FS.setEntry, Hardlinks.set_self]
        rw [links_trans hl]
        by_cases hkj : k = j
        · subst hkj
          rw [hz] at hy'
          cases hy'
          exact ⟨fun _ => ⟨hl.2.1, hl.2.1, hl.2.2.2.1, hl.2.2.2.1, rfl⟩, fun _ => hino.symm⟩
        · rw [← hino]
          exact hp.links j k hj hkp hjk hkk (fun h => hkj h.symm) z y' hz hy'
  | replace =>
    have hki : ¬ kp i := fun h => by have := hk.2 h; cases this
    simp only [restoreStep]
    cases hvi : V i with
    | none =>
      simp only [Option.map_none]
      refine key _ (wf_setEntry hp.wf i (by simp)) le_rfl (fun _ _ => rfl) (fun k hk' => ?_) hki ?_ ?_ ?_
      · simp only [FS.setEntry]; rw [Hardlinks.set_ne _ _ hk']
      · rw [file_setEntry, if_pos rfl, hvi]; rfl
      · intro m hm
        simp [FS.setEntry, Hardlinks.set_self] at hm
      · intro k _ _ x' y' hx'
        rw [hvi] at hx'
        cases hx'
    | some y =>
      simp only [Option.map_some]
      refine key _ (wf_create hp.wf i _) (Nat.le_succ _) (fun m hm => ?_) (fun k hk' => ?_) hki ?_ ?_ ?_
      · simp only [FS.create]; rw [if_neg (by omega)]
      · simp only [FS.create]; rw [Hardlinks.set_ne _ _ hk']
      · rw [file_create hp.wf, if_pos rfl, hvi]; rfl
      · intro m hm
        simp only [FS.create, Hardlinks.set_self, Option.some.injEq] at hm
        have := hp.next
        omega
      · intro k hkp hkk x' y' hx' hy'
        simp only [FS.create, Hardlinks.set_self]
        constructor
        · intro h
          have := hp.wf k _ h.symm
          omega
        · intro hl
          obtain ⟨j, hj⟩ := exists_firstIn ho hkp hx' hy' hl
          exact absurd hj (hd.replace rfl j)

theorem part_steps {o : Ops C D} {V dst : Version I K A C} (hV : VersionOk V) {stamp : A} {fs0 : FS I A C} {kp : I → Prop} {order : List I} (hn : order.Nodup)
    (hkl : ∀ k y, kp k → V k = some y → y.file.reg = true → 2 ≤ y.nlink → ∃ j, FirstIn V order k j) (l : List (I × Decision I)) :
    ∀ (pre : List I) (fs : FS I A C), order = pre ++ l.map (·.1) → (∀ e ∈ l, (e.2 = .keep ↔ kp e.1) ∧ DecisionOk o V dst order e.1 e.2) →
      Part V fs0 kp pre fs → Part V fs0 kp order (restoreSteps o stamp (fun i => (V i).map (·.file)) fs l) := by
  induction l with
  | nil =>
    intro pre fs ho _ hp
    simp only [List.map_nil, List.append_nil] at ho
    rw [ho]; exact hp
  | cons e l ih =>
    intro pre fs ho he hp
    obtain ⟨i, x⟩ := e
    have h1 := he (i, x) List.mem_cons_self
    exact ih (pre ++ [i]) _ (by rw [ho]; simp) (fun e hm => he e (List.mem_cons_of_mem _ hm))
      (part_step hV hn (by rw [ho]; rfl) h1.1 h1.2 hkl hp)

/-- everything about a restore -/
theorem restored_all {o : Ops C D} (hinj : ∀ c c', o.hash c = o.hash c' → c = c') {st : State I K A C D} {hist : List (Nat × Version I K A C)} (h : Reach o st hist)
    {t : Nat} {V : Version I K A C} (ht : (t, V) ∈ hist) {stamp : A} {fs fs' : FS I A C} {dst : I → Option (Src K A C)} {order kept : List I} (hn : order.Nodup)
    (hwf : fs.WF) (hr : Restored o st t stamp fs dst order fs' kept) :
    Part V fs (· ∈ kept) order fs' ∧ (∀ i ∈ kept, DecisionOk o V dst order i .keep) := by
  have hboth : VersionOk V ∧ ∀ i, Describes o (V i) (st.recsAt t i) := reach_versions hinj h (t, V) ht
  obtain ⟨hV, hdesc⟩ := hboth
  obtain ⟨ps, a, d, tab, out, hrun, rfl, rfl⟩ := hr
  have hlen := (Hardlinks.run_out (restore_consistent hV hdesc dst hn) hrun).1
  have hwant : (fun i => st.restore i t) = fun i => (V i).map (·.file) := by
    funext i
    exact (C65.all_backups_partial hinj h).1 (t, V) ht i
  rw [hwant]
  have hdec : ∀ e ∈ order.zip out, DecisionOk o V dst order e.1 e.2 := by
    intro e he
    obtain ⟨n, hn'⟩ := List.mem_iff_getElem?.1 he
    rw [List.getElem?_zip_eq_some] at hn'
    exact restore_decision hV hdesc hn hrun hn'.1 hn'.2
  have hkept : ∀ i, i ∈ ((order.zip out).filter fun x => decide (x.2 = Decision.keep)).map (·.1) ↔ (i, Decision.keep) ∈ order.zip out := by
    intro i
    simp only [List.mem_map, List.mem_filter, decide_eq_true_eq]
    constructor
    · rintro ⟨⟨i', x⟩, ⟨hm, rfl⟩, rfl⟩; exact hm
    · intro hm; exact ⟨_, ⟨hm, rfl⟩, rfl⟩
  have hkd : ∀ i, i ∈ ((order.zip out).filter fun x => decide (x.2 = Decision.keep)).map (·.1) → DecisionOk o V dst order i .keep :=
    fun i hi => hdec _ ((hkept i).1 hi)
  refine ⟨?_, hkd⟩
  refine part_steps (o := o) (dst := dst) hV hn ?_ _ [] fs ?_ ?_ ⟨hwf, le_rfl, fun _ _ => rfl, fun _ _ => rfl, fun k hk => by simp at hk, fun k m hk => by simp at hk⟩
  · intro k y hk hy hreg h2
    obtain ⟨y', d', hy', -, -, -, -, -, -, hl⟩ := (hkd k hk).keep rfl
    rw [hy] at hy'
    cases hy'
    exact (hl hreg h2).2
  · rw [List.nil_append, List.map_fst_zip (by omega)]
  · rintro ⟨i, x⟩ he
    refine ⟨⟨fun hx => ?_, fun hx => ?_⟩, hdec _ he⟩
    · simp only at hx
      subst hx
      exact (hkept i).2 he
    · have h1 := (hkept i).1 hx
      obtain ⟨n, hn1⟩ := List.mem_iff_getElem?.1 he
      obtain ⟨m, hm1⟩ := List.mem_iff_getElem?.1 h1
      rw [List.getElem?_zip_eq_some] at hn1 hm1
      have := (List.getElem?_inj (List.getElem?_eq_some_iff.1 hn1.1).1 hn).1 (hn1.1.trans hm1.1.symm)
      subst this
      have := hn1.2.symm.trans hm1.2
      simpa using this

/-- C66: restoring paths of a backup into any directory, however it is listed: a path which isn't kept is exactly the file which the backup has of it, with contents and
attributes, and isn't there if the backup doesn't have it; other paths and the contents of all files which were there are left as they are. -/
theorem restored_files {o : Ops C D} (hinj : ∀ c c', o.hash c = o.hash c' → c = c') {st : State I K A C D} {hist : List (Nat × Version I K A C)} (h : Reach o st hist)
    {t : Nat} {V : Version I K A C} (ht : (t, V) ∈ hist) {stamp : A} {fs fs' : FS I A C} {dst : I → Option (Src K A C)} {order kept : List I} (hn : order.Nodup)
    (hwf : fs.WF) (hr : Restored o st t stamp fs dst order fs' kept) :
    (∀ i ∈ order, i ∉ kept → fs'.file i = (V i).map (·.file)) ∧
    (∀ i, i ∉ order ∨ i ∈ kept → fs'.ino i = fs.ino i ∧ fs'.file i = fs.file i) ∧ ∀ n, n < fs.next → fs'.node n = fs.node n := by
  obtain ⟨hp, -⟩ := restored_all hinj h ht hn hwf hr
  refine ⟨fun i hi hk => (hp.done i hi hk).1, fun i hi => ⟨hp.same i hi, ?_⟩, hp.old⟩
  simp only [FS.file, hp.same i hi]
  cases hino : fs.ino i with
  | none => rfl
  | some n =>
    simp only [Option.map_some]
    rw [hp.old n (hwf i n hino)]

/-- C66: a path is kept only if its file is listed with the type, the attributes, the size (or target) and the number of links which it has in the backup; and, if it has
several links, with the inode, and if it isn't the first of them. -/
theorem kept_looks_the_same {o : Ops C D} (hinj : ∀ c c', o.hash c = o.hash c' → c = c') {st : State I K A C D} {hist : List (Nat × Version I K A C)}
    (h : Reach o st hist) {t : Nat} {V : Version I K A C} (ht : (t, V) ∈ hist) {stamp : A} {fs fs' : FS I A C} {dst : I → Option (Src K A C)} {order kept : List I}
    (hn : order.Nodup) (hwf : fs.WF) (hr : Restored o st t stamp fs dst order fs' kept) {i : I} (hi : i ∈ kept) :
    ∃ x d, V i = some x ∧ dst i = some d ∧ x.file.reg = d.file.reg ∧ x.file.attr = d.file.attr ∧ (x.file.reg = true → o.size x.file.data = o.size d.file.data) ∧
      (x.file.reg = false → x.file.data = d.file.data) ∧ (x.file.reg = true → x.nlink = d.nlink) ∧
      (x.file.reg = true → 2 ≤ x.nlink → x.key = d.key ∧ ∃ j y a b, V j = some y ∧ Links x y ∧ order = a ++ j :: b ∧ i ∈ b) := by
  obtain ⟨x, d, h1, h2, h3, h4, h5, h6, h7, h8⟩ := ((restored_all hinj h ht hn hwf hr).2 i hi).keep rfl
  refine ⟨x, d, h1, h2, h3, h4, h5, h6, h7, fun hreg h2' => ?_⟩
  obtain ⟨hk, j, x', y, a, b, hx', hy, hl, ho, hib, -⟩ := h8 hreg h2'
  rw [h1] at hx'
  cases hx'
  exact ⟨hk, j, y, a, b, hy, hl, ho, hib⟩

/-- C66: two restored paths are the same file exactly if they were so in the backup. (Missing: paths which are kept, see `link_lost`.) -/
theorem restored_links_partial {o : Ops C D} (hinj : ∀ c c', o.hash c = o.hash c' → c = c') {st : State I K A C D} {hist : List (Nat × Version I K A C)}
    (h : Reach o st hist) {t : Nat} {V : Version I K A C} (ht : (t, V) ∈ hist) {stamp : A} {fs fs' : FS I A C} {dst : I → Option (Src K A C)} {order kept : List I}
    (hn : order.Nodup) (hwf : fs.WF) (hr : Restored o st t stamp fs dst order fs' kept) {i j : I} (hi : i ∈ order) (hj : j ∈ order) (hki : i ∉ kept) (hkj : j ∉ kept)
    (hij : i ≠ j) {x y : Src K A C} (hx : V i = some x) (hy : V j = some y) : fs'.ino i = fs'.ino j ↔ Links x y :=
  (restored_all hinj h ht hn hwf hr).1.links i j hi hj hki hkj hij x y hx hy

/-- C66: a restore to where none of the paths is there gives exactly the files of the backup, linked as they were. -/
theorem restored_to_new_directory {o : Ops C D} (hinj : ∀ c c', o.hash c = o.hash c' → c = c') {st : State I K A C D} {hist : List (Nat × Version I K A C)}
    (h : Reach o st hist) {t : Nat} {V : Version I K A C} (ht : (t, V) ∈ hist) {stamp : A} {fs fs' : FS I A C} {order kept : List I} (hn : order.Nodup) (hwf : fs.WF)
    (hr : Restored o st t stamp fs (fun _ => none) order fs' kept) :
    (∀ i ∈ order, fs'.file i = (V i).map (·.file)) ∧
    ∀ i j x y, i ∈ order → j ∈ order → i ≠ j → V i = some x → V j = some y → (fs'.ino i = fs'.ino j ↔ Links x y) := by
  have hk : ∀ i, i ∉ kept := by
    intro i hi
    obtain ⟨x, d, -, hd, -⟩ := kept_looks_the_same hinj h ht hn hwf hr hi
    cases hd
  exact ⟨fun i hi => (restored_files hinj h ht hn hwf hr).1 i hi (hk i), fun i j x y hi hj hij hx hy =>
    restored_links_partial hinj h ht hn hwf hr hi hj (hk i) (hk j) hij hx hy⟩

/-! ### examples -/

/-- a restore computed -/
def run (o : Ops C D) (st : State I K A C D) (t : Nat) (stamp : A) (fs : FS I A C) (dst : I → Option (Src K A C)) (order : List I) : Option (FS I A C × List I) :=
  (C65.sim (order.map (restorePair o (st.recsAt t) dst)) order.length).map fun x =>
    (restoreSteps o stamp (fun i => st.restore i t) fs (order.zip x.2.2), ((order.zip x.2.2).filter fun x => decide (x.2 = .keep)).map (·.1))

theorem run_restored {o : Ops C D} {st : State I K A C D} {t : Nat} {stamp : A} {fs fs' : FS I A C} {dst : I → Option (Src K A C)} {order kept : List I}
    (h : run o st t stamp fs dst order = some (fs', kept)) : Restored o st t stamp fs dst order fs' kept := by
  simp only [run, Option.map_eq_some_iff, Prod.mk.injEq] at h
  obtain ⟨⟨ps, tab, out⟩, hsim, rfl, rfl⟩ := h
  exact ⟨ps, _, _, tab, out, C65.sim_run hsim, rfl, rfl⟩

theorem run_get {o : Ops C D} {st : State I K A C D} {t : Nat} {stamp : A} {fs fs' : FS I A C} {dst : I → Option (Src K A C)} {order kept : List I}
    (h : (run o st t stamp fs dst order).map (·.2) = some kept) (h' : (run o st t stamp fs dst order).map (·.1) = some fs') :
    Restored o st t stamp fs dst order fs' kept := by
  refine run_restored ?_
  cases hr : run o st t stamp fs dst order with
  | none => rw [hr] at h; cases h
  | some x =>
    rw [hr] at h h'
    cases h
    cases h'
    rfl

open C65 (ops ops_inj reg)
open C65.First (st2' src1 src2 reach2)

/-- an empty directory, and one with the two links -/
def new : FS (Fin 2) Nat Nat := ⟨fun _ => none, fun _ => ⟨true, 0, 0⟩, 0⟩
def orig : FS (Fin 2) Nat Nat := ⟨fun _ => some 0, fun _ => ⟨true, 2, 20⟩, 1⟩
def new' : FS (Fin 2) Nat Nat := ((run ops st2' 100 0 new (fun _ => none) [0, 1]).map (·.1)).get (by decide +kernel)
def orig' : FS (Fin 2) Nat Nat := ((run ops st2' 200 0 orig src2 [0, 1]).map (·.1)).get (by decide +kernel)

theorem new_wf : new.WF := fun i n h => by cases h
theorem orig_wf : orig.WF := fun i n h => by cases h; decide
theorem to_new : Restored ops st2' 100 0 new (fun _ => none) [0, 1] new' [] := run_get (by decide +kernel) (Option.some_get _).symm
theorem to_orig : Restored ops st2' 200 0 orig src2 [0, 1] orig' [1] := run_get (by decide +kernel) (Option.some_get _).symm

example : new'.file 0 = some ⟨true, 1, 10⟩ ∧ new'.file 1 = some ⟨true, 1, 10⟩ ∧ new'.ino 0 = new'.ino 1 := by decide +kernel
example : (∀ i ∈ [0, 1], new'.file i = (src1 i).map (·.file)) ∧
    ∀ i j x y, i ∈ [0, 1] → j ∈ [0, 1] → i ≠ j → src1 i = some x → src1 j = some y → (new'.ino i = new'.ino j ↔ Links x y) :=
  restored_to_new_directory ops_inj reach2 (V := src1) (t := 100) (by simp) (by decide) new_wf to_new
example : orig'.file 0 = (src2 0).map (·.file) := (restored_files ops_inj reach2 (V := src2) (t := 200) (by simp) (by decide) orig_wf to_orig).1 0 (by simp) (by simp)
example : ∃ x d, src2 1 = some x ∧ src2 1 = some d ∧ x.key = d.key := by
  obtain ⟨x, d, h1, h2, -, -, -, -, -, h3⟩ := kept_looks_the_same ops_inj reach2 (V := src2) (t := 200) (by simp) (by decide) orig_wf to_orig (i := 1) (by simp)
  exact ⟨x, d, h1, h2, by rw [h1] at h2; cases h2; rfl⟩

/-- F80: two links of one file are restored over themselves, while nothing has been changed since the backup. The first one is replaced, because the metadata have a
digest; the second one isn't. They are no longer links of the same file. -/
theorem link_lost : Reach ops st2' [(200, src2), (100, src1)] ∧ (∀ i, orig.file i = (src2 i).map (·.file)) ∧ orig.ino 0 = orig.ino 1 ∧
    Restored ops st2' 200 0 orig src2 [0, 1] orig' [1] ∧ orig'.ino 0 ≠ orig'.ino 1 :=
  ⟨reach2, by decide +kernel, rfl, to_orig, by decide +kernel⟩

end Verif.C66
