import Verif.Proof.Detect
import Verif.Props.C67

/-
C88: what a file system does with names is detected.
-/
namespace Verif.C88
open Verif Verif.Filenames Verif.FsQuoting Verif.FilenamesSpec Verif.Detect

variable {S : Sys} {f : Fsa}

/-! ## With writing -/

theorem no_device (h : Behaves S f) {n : Bytes} (hn : (deviceNames.any fun d => d.isPrefixOf (n.map toLower)) = false) : S.device n = false := by
  cases hd : S.device n with
  | false => rfl
  | true => exact absurd ((h.device n).1 hd).2 (not_device hn)

theorem usable_of {n : Bytes} (hn : (deviceNames.any fun d => d.isPrefixOf (n.map toLower)) = false)
    (ht : f.escapeTrailing = true → n.getLast? ≠ some 32 ∧ n.getLast? ≠ some 46)
    (ha : f.extended = some false → ∀ b ∈ n, 32 ≤ b.toNat ∧ b.toNat < 128)
    (hr : f.winReserved = true → ∀ b ∈ n, b ∉ ([34, 42, 47, 58, 60, 62, 63, 92, 124, 127] : List UInt8) ∧ 32 ≤ b.toNat) : Usable f n :=
  ⟨fun _ => not_device hn, ht, ha, fun h b hb => ⟨(hr h b hb).1, fun _ => (hr h b hb).2⟩⟩

theorem u_ordinary : Usable f ordinary := usable_of (by decide) (fun _ => by decide) (fun _ => by decide) (fun _ => by decide)
theorem u_upperA : Usable f upperA := usable_of (by decide) (fun _ => by decide) (fun _ => by decide) (fun _ => by decide)
theorem u_lowerA : Usable f lowerA := usable_of (by decide) (fun _ => by decide) (fun _ => by decide) (fun _ => by decide)
theorem u_foo : Usable f foo := usable_of (by decide) (fun _ => by decide) (fun _ => by decide) (fun _ => by decide)
theorem u_left : ∀ n ∈ left, Usable f n := by
  intro n hn
  simp only [left, List.mem_cons, List.not_mem_nil, or_false] at hn
  rcases hn with rfl | rfl <;> exact usable_of (by decide) (fun _ => by decide) (fun _ => by decide) (fun _ => by decide)
theorem u_fooDot (ht : f.escapeTrailing = false) : Usable f fooDot :=
  usable_of (by decide) (fun h => by rw [ht] at h; cases h) (fun _ => by decide) (fun _ => by decide)
theorem u_extended (he : f.extended ≠ some false) : Usable f extendedName :=
  usable_of (by decide) (fun _ => by decide) (fun h => absurd h he) (fun _ => by decide)
theorem u_reserved (hr : f.winReserved = false) : Usable f reservedName :=
  usable_of (by decide) (fun _ => by decide) (fun _ => by decide) (fun h => by rw [hr] at h; cases h)

theorem touch_new (h : Behaves S f) {n : Bytes} (hd : S.device n = false) (hne : n ≠ []) (hu : Usable f n) : touch S [] n = some [n] := by
  simp [touch, there, hd, h.usable n hne hu]

theorem delete_only (n : Bytes) : delete S [n] n = [] := by simp [delete]

theorem extendedNames_spec (h : Behaves S f) {e : Bool} (he : f.extended = some e) : extendedNames S [] = some (e, []) := by
  have d1 := no_device h (n := ordinary) (by decide)
  have d2 := no_device h (n := extendedName) (by decide)
  simp only [extendedNames, touch_new h d1 (by decide) u_ordinary, delete_only]
  cases e with
  | true => simp [touch_new h d2 (by decide) (u_extended (by rw [he]; decide)), delete_only]
  | false =>
    have : S.accepts extendedName = false := h.extended he _ ⟨195, by decide, by decide⟩
    simp [touch, there, d2, this]

theorem reservedNames_spec (h : Behaves S f) : reservedNames S [] = (f.winReserved, []) := by
  have d := no_device h (n := reservedName) (by decide)
  unfold reservedNames
  cases hr : f.winReserved with
  | true =>
    have : S.accepts reservedName = false := h.reserved hr _ ⟨58, by decide, by decide⟩
    simp [touch, there, d, this]
  | false => simp [touch_new h d (by decide) (u_reserved hr), delete_only]

theorem caseReadwrite_spec (h : Behaves S f) : ∃ d, caseReadwrite S [] = some (f.caseSensitive, d) ∧ d = [] := by
  have d1 := no_device h (n := upperA) (by decide)
  have d2 := no_device h (n := lowerA) (by decide)
  unfold caseReadwrite
  rw [touch_new h d1 (by decide) u_upperA]
  have hs := h.same upperA lowerA u_upperA u_lowerA
  cases hc : f.caseSensitive with
  | true =>
    have : ¬ S.canon upperA = S.canon lowerA := by rw [hs, SameFile, hc]; decide
    refine ⟨[], ?_, rfl⟩
    simp [there, d2, this, delete]
  | false =>
    have : S.canon upperA = S.canon lowerA := by rw [hs, SameFile, hc]; decide
    refine ⟨[], ?_, rfl⟩
    simp [there, this, delete, d1]

theorem not_there {l : List Bytes} {x : Bytes} (hd : S.device x = false) (hl : ∀ n ∈ l, S.canon n ≠ S.canon x) : there S l x = false := by
  simp only [there, hd, Bool.or_false, List.any_eq_false, decide_eq_true_eq]
  exact hl

theorem sameFile_lower {a b : Bytes} (h : SameFile f a b) : a.map toLower = b.map toLower := by
  unfold SameFile at h
  split at h
  · rw [h]
  · exact h

theorem trailing_spec (h : Behaves S f) : trailingReadwrite S left = some f.escapeTrailing := by
  have d1 := no_device h (n := foo) (by decide)
  have d2 := no_device h (n := fooDot) (by decide)
  have hfoo : ∀ n ∈ left, S.canon n ≠ S.canon foo := by
    intro n hn he
    have hk : ∀ n ∈ left, n.map toLower ≠ foo.map toLower := by decide
    exact hk n hn (sameFile_lower ((h.same n foo (u_left n hn) u_foo).1 he))
  have t1 : there S left foo = false := not_there d1 hfoo
  have t2 : touch S left foo = some (foo :: left) := by simp [touch, t1, h.usable foo (by decide) u_foo]
  have t3 : there S (foo :: left) foo = true := by simp [there]
  unfold trailingReadwrite
  rw [t2]
  cases ht : f.escapeTrailing with
  | false =>
    have hu := u_fooDot ht
    have hl : ∀ n ∈ foo :: left, S.canon n ≠ S.canon fooDot := by
      intro n hn he
      have hn' : Usable f n := by
        rcases List.mem_cons.mp hn with rfl | hn
        · exact u_foo
        · exact u_left n hn
      have hk : ∀ n ∈ foo :: left, n.map toLower ≠ fooDot.map toLower := by decide
      exact hk n hn (sameFile_lower ((h.same n fooDot hn' hu).1 he))
    have t4 := not_there d2 hl
    have t5 : there S left fooDot = false := not_there d2 fun n hn => hl n (by simp [hn])
    simp [t3, t4, t5, touch, h.usable fooDot (by decide) hu]
    simp [there]
  | true =>
    rcases h.trailing ht foo with he | ⟨he, hm⟩
    · have he : S.canon fooDot = S.canon foo := he
      have t5 : there S left fooDot = false := not_there d2 fun n hn => by rw [he]; exact hfoo n hn
      have t6 : there S (foo :: left) fooDot = true := by simp [there, he]
      simp [t3, t5, t6]
    · have he : S.accepts fooDot = false := he
      have hl : ∀ n ∈ foo :: left, S.canon n ≠ S.canon fooDot := by
        intro n hn he
        have hn' : Usable f n := by
          rcases List.mem_cons.mp hn with rfl | hn
          · exact u_foo
          · exact u_left n hn
        exact hm n hn' he.symm
      have t4 := not_there d2 hl
      have t5 : there S left fooDot = false := not_there d2 fun n hn => hl n (by simp [hn])
      simp [t3, t4, t5, touch, he]

/-- **C88** (with writing): on any file system which behaves according to some abilities, exactly these abilities are detected. -/
theorem readwrite_exact (h : Behaves S f) (he : f.extended ≠ none) : readwrite S = some f := by
  obtain ⟨e, he⟩ := Option.ne_none_iff_exists'.mp he
  obtain ⟨d, hc, rfl⟩ := caseReadwrite_spec h
  have d1 := no_device h (n := foo) (by decide)
  have hcon : there S left con = f.escapeDos := by
    cases hd : f.escapeDos with
    | true =>
      have : S.device con = true := (h.device con).2 ⟨hd, [99, 111, 110], by decide, [], by decide, .inl rfl⟩
      simp [there, this]
    | false =>
      have hdc : S.device con = false := by
        cases hx : S.device con with
        | false => rfl
        | true => rw [((h.device con).1 hx).1] at hd; cases hd
      refine not_there hdc fun n hn he => ?_
      have hu : Usable f con := ⟨fun h => (by rw [hd] at h; cases h), fun _ => by decide, fun _ => by decide, fun _ b hb => ⟨(by revert b; decide), fun _ => by revert b; decide⟩⟩
      have hk : ∀ n ∈ left, n.map toLower ≠ con.map toLower := by decide
      exact hk n hn (sameFile_lower ((h.same n con (u_left n hn) hu).1 he))
  unfold readwrite
  simp only [extendedNames_spec h he, reservedNames_spec h, hc, touch_new h d1 (by decide) u_foo, delete_only, List.append_nil, hcon, trailing_spec h, Option.bind_eq_bind,
    Option.bind_some, Option.pure_def]
  cases f
  simp_all

/-! ## Without writing -/

/-- what can be looked at in a directory -/
def entries : Dir → List (Bytes × Look)
  | .nil => []
  | .file n l r => (n, l) :: entries r
  | .dir n _ r => (n, .ok) :: entries r

theorem names_entries (d : Dir) : d.names = (entries d).map Prod.fst := by
  induction d with
  | nil => rfl
  | file n l r ih => simp [Dir.names, entries, ih]
  | dir n s r _ ih => simp [Dir.names, entries, ih]

theorem mem_names {d : Dir} {n : Bytes} : n ∈ d.names ↔ ∃ l, (n, l) ∈ entries d := by
  rw [names_entries]; simp

theorem good_usable {d : Dir} (h : Good S f d) : ∀ n ∈ d.names, Usable f n := by
  induction d with
  | nil => simp [Dir.names]
  | file n l r ih =>
    obtain ⟨h1, _, h3⟩ := h
    intro m hm
    rcases List.mem_cons.mp hm with rfl | hm
    · exact h1
    · exact ih h3 m hm
  | dir n s r _ ih =>
    obtain ⟨h1, _, _, h3⟩ := h
    intro m hm
    rcases List.mem_cons.mp hm with rfl | hm
    · exact h1
    · exact ih h3 m hm

theorem good_inj {d : Dir} (h : Good S f d) {m n : Bytes} (hm : m ∈ d.names) (hn : n ∈ d.names) (he : S.canon m = S.canon n) : m = n := by
  induction d with
  | nil => simp [Dir.names] at hm
  | file a l r ih =>
    obtain ⟨_, h2, h3⟩ := h
    rcases List.mem_cons.mp hm with rfl | hm' <;> rcases List.mem_cons.mp hn with rfl | hn'
    · rfl
    · exact absurd he.symm (h2 n hn')
    · exact absurd he (h2 m hm')
    · exact ih h3 hm' hn'
  | dir a s r _ ih =>
    obtain ⟨_, h2, _, h3⟩ := h
    rcases List.mem_cons.mp hm with rfl | hm' <;> rcases List.mem_cons.mp hn with rfl | hn'
    · rfl
    · exact absurd he.symm (h2 n hn')
    · exact absurd he (h2 m hm')
    · exact ih h3 hm' hn'

theorem search_canon {x y : Bytes} (h : S.canon x = S.canon y) (d : Dir) : search S x d = search S y d := by
  induction d with
  | nil => rfl
  | file n l r ih => simp only [search, h, ih]
  | dir n s r _ ih => simp only [search, h, ih]

theorem search_none {x : Bytes} {d : Dir} (h : ∀ n ∈ d.names, S.canon n ≠ S.canon x) : search S x d = .hidden := by
  induction d with
  | nil => rfl
  | file n l r ih =>
    unfold search
    rw [if_neg (h n (by simp [Dir.names]))]
    exact ih fun m hm => h m (by simp [Dir.names, hm])
  | dir n s r _ ih =>
    unfold search
    rw [if_neg (h n (by simp [Dir.names]))]
    exact ih fun m hm => h m (by simp [Dir.names, hm])

theorem search_own {d : Dir} (h : Good S f d) : ∀ e ∈ entries d, search S e.1 d = e.2 := by
  induction d with
  | nil => simp [entries]
  | file n l r ih =>
    obtain ⟨_, h2, h3⟩ := h
    intro e he
    rcases List.mem_cons.mp he with rfl | he
    · simp [search]
    · have : e.1 ∈ r.names := mem_names.mpr ⟨e.2, he⟩
      unfold search
      rw [if_neg (fun hc => h2 _ this hc.symm)]
      exact ih h3 e he
  | dir n s r _ ih =>
    obtain ⟨_, h2, _, h3⟩ := h
    intro e he
    rcases List.mem_cons.mp he with rfl | he
    · simp [search]
    · have : e.1 ∈ r.names := mem_names.mpr ⟨e.2, he⟩
      unfold search
      rw [if_neg (fun hc => h2 _ this hc.symm)]
      exact ih h3 e he

theorem search_sound {x : Bytes} {d : Dir} (h : Sound d) : search S x d ≠ .error := by
  induction d with
  | nil => simp [search]
  | file n l r ih => unfold search; split; exacts [h.1, ih h.2]
  | dir n s r _ ih => unfold search; split; exacts [by simp, ih h.2]

theorem findLetter_some {whole d : Dir} (hg : Good S f whole) (hd : Good S f d) (hsub : ∀ e ∈ entries d, e ∈ entries whole) {e : Dir} {n : Bytes}
    (h : findLetter whole d = some (some (e, n))) : Good S f e ∧ (n, Look.ok) ∈ entries e ∧ n ≠ swapcase n := by
  induction d generalizing whole with
  | nil => simp [findLetter] at h
  | file m l r ih =>
    have hr := ih hg hd.2.2 (fun e he => hsub e (by simp [entries, he]))
    unfold findLetter at h
    split at h
    · cases h
    · split at h
      · next hl =>
        simp only [Option.some.injEq, Prod.mk.injEq] at h
        obtain ⟨rfl, rfl⟩ := h
        exact ⟨hg, hsub _ (by simp [entries]), hl⟩
      · exact hr h
    · exact hr h
  | dir m s r ihs ih =>
    have hr := ih hg hd.2.2.2 (fun e he => hsub e (by simp [entries, he]))
    have hs := ihs hd.2.2.1 hd.2.2.1 (fun e he => he)
    unfold findLetter at h
    split at h
    · next hl =>
      simp only [Option.some.injEq, Prod.mk.injEq] at h
      obtain ⟨rfl, rfl⟩ := h
      exact ⟨hg, hsub _ (by simp [entries]), hl⟩
    · split at h
      · cases h
      · next t ht =>
        simp only [Option.some.injEq] at h
        subst h
        exact hs ht
      · exact hr h

theorem findLetter_sound {whole d : Dir} (hw : Sound whole) (hd : Sound d) : findLetter whole d ≠ none ∧ ∀ t, findLetter whole d = some (some t) → Sound t.1 := by
  induction d generalizing whole with
  | nil => simp [findLetter]
  | file m l r ih =>
    have hr := ih hw hd.2
    unfold findLetter
    split
    · exact absurd rfl hd.1
    · split
      · simp [hw]
      · exact hr
    · exact hr
  | dir m s r ihs ih =>
    have hr := ih hw hd.2
    have hs := ihs hd.1 hd.1
    unfold findLetter
    split
    · simp [hw]
    · split
      · next h => exact absurd h hs.1
      · next t ht => exact ⟨by simp, fun t' h' => by simp only [Option.some.injEq] at h'; subst h'; exact hs.2 _ ht⟩
      · exact hr

theorem findLetter_found {whole d : Dir} (hl : Lettered d) : findLetter whole d ≠ some none := by
  induction d generalizing whole with
  | nil => exact absurd hl id
  | file m l r ih =>
    unfold findLetter
    split
    · simp
    · split
      · simp
      · next h =>
        rcases hl with ⟨-, h'⟩ | hl
        · exact absurd h' h
        · exact ih hl
    · rcases hl with ⟨h', -⟩ | hl
      · cases h'
      · exact ih hl
  | dir m s r ihs ih =>
    unfold findLetter
    split
    · simp
    · next h =>
      split
      · simp
      · simp
      · next hn =>
        rcases hl with h' | hl | hl
        · exact absurd h' h
        · exact absurd hn (ihs hl)
        · exact ih hl

theorem usable_device (h : Behaves S f) {n : Bytes} (hu : Usable f n) : S.device n = false := by
  cases hd : S.device n with
  | false => rfl
  | true => exact absurd ((h.device n).1 hd).2 (hu.device ((h.device n).1 hd).1)

theorem testTriple_spec (h : Behaves S f) {e : Dir} (hg : Good S f e) {n : Bytes} (hn : (n, Look.ok) ∈ entries e) (hl : n ≠ swapcase n) :
    testTriple S e n = some f.caseSensitive := by
  have hm : n ∈ e.names := mem_names.mpr ⟨_, hn⟩
  have hu := good_usable hg n hm
  have hus := swap_usable hu
  have hd := usable_device h hus
  have hs := h.same (swapcase n) n hus hu
  unfold testTriple
  cases hc : f.caseSensitive with
  | true =>
    split
    · rfl
    · next hx =>
      have : search S (swapcase n) e = .hidden := search_none fun m hmm he => by
        have := (h.same m (swapcase n) (good_usable hg m hmm) hus).1 he
        simp only [SameFile, hc, if_true] at this
        exact hx (this ▸ hmm)
      simp [look, hd, this]
  | false =>
    have he : S.canon (swapcase n) = S.canon n := by rw [hs, SameFile, hc]; exact swapcase_lower n
    rw [if_neg (fun hx => hl (good_inj hg hm hx he.symm))]
    have := search_own hg _ hn
    simp [look, hd, search_canon he, this]

/-- **C88** (without writing, case): a file system which distinguishes case is never taken for one which doesn't, nor the other way round, if there is any name with letters. -/
theorem readonly_case (h : Behaves S f) {root : Dir} (hg : Good S f root) {g : Fsa} (hr : readonly S root = some g) :
    (f.caseSensitive = true → g.caseSensitive = true) ∧ (Lettered root → g.caseSensitive = f.caseSensitive) := by
  unfold readonly at hr
  obtain ⟨c, hc, rfl⟩ := Option.map_eq_some_iff.mp hr
  unfold caseReadonly at hc
  split at hc
  · cases hc
  · next hn =>
    simp only [Option.some.injEq] at hc
    exact ⟨fun _ => hc.symm, fun hl => absurd hn (findLetter_found hl)⟩
  · next d n hn =>
    obtain ⟨g1, g2, g3⟩ := findLetter_some hg hg (fun e he => he) hn
    rw [testTriple_spec h g1 g2 g3] at hc
    simp only [Option.some.injEq] at hc
    exact ⟨fun e => by rw [← hc, e], fun _ => hc.symm⟩

/-- **C88** (without writing): it doesn't fail unless looking at a file does, other than for permissions. -/
theorem readonly_done {root : Dir} (hs : Sound root) : readonly S root ≠ none := by
  unfold readonly
  rw [ne_eq, Option.map_eq_none_iff]
  unfold caseReadonly
  have h1 := findLetter_sound hs hs
  split
  · next h => exact absurd h h1.1
  · simp
  · next d n h =>
    have := search_sound (S := S) (x := swapcase n) (h1.2 _ h)
    unfold testTriple look
    split
    · simp
    · split
      · simp
      · simp
      · next hx => split at hx; exacts [by simp at hx, absurd hx this]

theorem dot_usable (ht : f.escapeTrailing = false) {n : Bytes} (h : Usable f n) : Usable f (n ++ [46]) := by
  constructor
  · exact fun hd hdev => h.device hd (device_dot hdev)
  · intro hx; rw [ht] at hx; cases hx
  · intro he b hb
    rcases List.mem_append.mp hb with hb | hb
    · exact h.ascii he b hb
    · rw [List.mem_singleton.mp hb]; decide
  · intro hr b hb
    rcases List.mem_append.mp hb with hb | hb
    · exact h.reserved hr b hb
    · rw [List.mem_singleton.mp hb]; exact ⟨by decide, fun _ => by decide⟩

/-- **C88** (without writing, blanks and dots at the end): on a file system which distinguishes case they are never taken to need escapes if they don't (`dots_and_case`). -/
theorem readonly_trailing_partial (h : Behaves S f) {root : Dir} (hg : Good S f root) {g : Fsa} (hr : readonly S root = some g) (hc : f.caseSensitive = true)
    (ht : f.escapeTrailing = false) : g.escapeTrailing = false := by
  unfold readonly at hr
  obtain ⟨c, -, rfl⟩ := Option.map_eq_some_iff.mp hr
  have key : ∀ l, (∀ n ∈ l, n ∈ root.names) → trailingLoop S root l = false := by
    intro l
    induction l with
    | nil => simp [trailingLoop]
    | cons n l ih =>
      intro hl
      have ih := ih fun m hm => hl m (by simp [hm])
      have hn := hl n (by simp)
      unfold trailingLoop
      split
      · exact ih
      · split
        · rfl
        · split
          · rfl
          · next hx =>
            have hu := dot_usable ht (good_usable hg n hn)
            have : search S (n ++ [46]) root = .hidden := search_none fun m hm he => by
              have := (h.same m _ (good_usable hg m hm) hu).1 he
              simp only [SameFile, hc, if_true] at this
              exact hx (this ▸ hm)
            simp [look, usable_device h hu, this, ih]
  exact key _ fun n hn => hn

/-- **C88** (without writing, blanks and dots at the end): if the file system doesn't keep dots at the end, a single file in the directory which can be looked at is enough. -/
theorem readonly_escapes (h : Behaves S f) {root : Dir} (hg : Good S f root) {g : Fsa} (hr : readonly S root = some g) (ht : f.escapeTrailing = true)
    (hdrop : ∀ n, S.canon (n ++ [46]) = S.canon n) {n : Bytes} (hn : n ∈ root.names) (hok : look S root n = .ok) : g.escapeTrailing = true := by
  unfold readonly at hr
  obtain ⟨c, -, rfl⟩ := Option.map_eq_some_iff.mp hr
  have key : ∀ l, (∀ m ∈ l, m ∈ root.names) → n ∈ l → trailingLoop S root l = true := by
    intro l
    induction l with
    | nil => simp
    | cons m l ih =>
      intro hl hnl
      have ih := ih fun m hm => hl m (by simp [hm])
      have hm := hl m (by simp)
      have hu := (good_usable hg m hm).trailing ht
      unfold trailingLoop
      split
      · next hx =>
        rcases List.mem_cons.mp hnl with rfl | hnl
        · exact absurd hok hx
        · exact ih hnl
      · next hx =>
        simp only [ne_eq, Decidable.not_not] at hx
        rw [if_neg (by tauto)]
        have hnm : m ++ [46] ∉ root.names := fun hm' => ((good_usable hg _ hm').trailing ht).2 (by simp)
        rw [if_neg hnm]
        have hok' : look S root (m ++ [46]) = .ok := by
          unfold look at hx ⊢
          rw [usable_device h (good_usable hg m hm)] at hx
          split
          · rfl
          · rw [search_canon (hdrop m)]; simpa using hx
        rw [hok']
  exact key _ (fun m hm => hm) hn

/-- **C88** (without writing, devices): on a file system which has device names, they are found. Others are taken for one only if a file in the root of the directory is called `con` (`con_in_source`). -/
theorem readonly_devices (h : Behaves S f) {root : Dir} (hg : Good S f root) {g : Fsa} (hr : readonly S root = some g) :
    (f.escapeDos = true → g.escapeDos = true) ∧ ((∀ n ∈ root.names, n.map toLower ≠ con) → g.escapeDos = f.escapeDos) := by
  unfold readonly at hr
  obtain ⟨c, -, rfl⟩ := Option.map_eq_some_iff.mp hr
  have hdev : f.escapeDos = true → S.device con = true := fun hd => (h.device con).2 ⟨hd, [99, 111, 110], by decide, [], by decide, .inl rfl⟩
  refine ⟨fun hd => by simp [dosReadonly, look, hdev hd], fun hn => ?_⟩
  cases hd : f.escapeDos with
  | true => simp [dosReadonly, look, hdev hd]
  | false =>
    have hdc : S.device con = false := by
      cases hx : S.device con with
      | false => rfl
      | true => rw [((h.device con).1 hx).1] at hd; cases hd
    have hu : Usable f con := ⟨fun h => (by rw [hd] at h; cases h), fun _ => by decide, fun _ => by decide, fun _ b hb => ⟨(by revert b; decide), fun _ => by revert b; decide⟩⟩
    have : search S con root = .hidden := search_none fun m hm he => by
      have := sameFile_lower ((h.same m con (good_usable hg m hm) hu).1 he)
      exact hn m hm (by rw [this]; decide)
    simp [dosReadonly, look, hdc, this]

/-! ## What follows for a first backup -/

/-- what is detected without writing makes every name usable which is -/
theorem readonly_usable (h : Behaves S f) {root : Dir} (hg : Good S f root) {g : Fsa} (hr : readonly S root = some g) (hcon : ∀ n ∈ root.names, n.map toLower ≠ con)
    (hct : f.escapeTrailing = true ∨ f.caseSensitive = true) {n : Bytes} (hn : Usable f n) : Usable g n := by
  have hd := (readonly_devices h hg hr).2 hcon
  have ht : g.escapeTrailing = true → f.escapeTrailing = true := by
    intro hx
    rcases hct with hf | hc
    · exact hf
    · cases hf : f.escapeTrailing with
      | true => rfl
      | false => rw [readonly_trailing_partial h hg hr hc hf] at hx; cases hx
  have he : g.extended = none ∧ g.winReserved = false := by
    unfold readonly at hr
    obtain ⟨c, -, rfl⟩ := Option.map_eq_some_iff.mp hr
    exact ⟨rfl, rfl⟩
  exact ⟨fun hx => hn.device (hd ▸ hx), fun hx => hn.trailing (ht hx), fun hx => absurd hx (by rw [he.1]; simp),
    fun hx => absurd hx (by rw [he.2]; simp)⟩

/-- **C88** with C67: after detection of both sides, the repository's file system accepts the names under which a first backup (with quoting) stores the files of the source, and different files
of a directory get different ones. -/
theorem first_backup_partial {D : Sys} {d : Fsa} (h : Behaves S f) (hD : Behaves D d) (he : d.extended ≠ none) {root : Dir} (hg : Good S f root)
    {g g' : Fsa} (hr : readonly S root = some g) (hw : readwrite D = some g') (hcon : ∀ n ∈ root.names, n.map toLower ≠ con) (hct : f.escapeTrailing = true ∨ f.caseSensitive = true)
    (hlet : Lettered root) {flip : Bool} {q : Quoting} {cfg : Config} (hb : backup flip none g g' ⟨none, none⟩ = some (q, cfg)) (hq : q.ctq ≠ [])
    {a b : Bytes} (ha : Usable f a) (hbu : Usable f b) (hne : S.canon a ≠ S.canon b) (hna : a ≠ []) :
    D.accepts (written q a) = true ∧ D.canon (written q a) ≠ D.canon (written q b) := by
  rw [readwrite_exact hD he] at hw
  cases hw
  have ua := C67.first_backup_names_partial hb hq (readonly_usable h hg hr hcon hct ha)
  have ub := C67.first_backup_names_partial hb hq (readonly_usable h hg hr hcon hct hbu)
  have hwa : written q a ≠ [] := by
    intro hw
    have h0 : ¬ SameFile g a [] := by
      unfold SameFile
      split
      · exact hna
      · simpa using hna
    apply C67.distinct_files hb h0
    have : written q [] = [] := by unfold written; rw [if_neg hq]; cases q.trailing <;> cases q.dos <;> rfl
    rw [hw, this]; unfold SameFile; split <;> rfl
  refine ⟨hD.usable _ hwa ua, fun hc => ?_⟩
  have hs : ¬ SameFile g a b := by
    have : SameFile g a b ↔ SameFile f a b := by unfold SameFile; rw [(readonly_case h hg hr).2 hlet]
    rw [this, ← h.same a b ha hbu]; exact hne
  exact C67.distinct_files hb hs ((hD.same _ _ ua ub).1 hc)

/-! ## Examples, and where it fails -/

/-- without the blanks and dots at the end -/
def dropTrailing (n : Bytes) : Bytes := (n.reverse.dropWhile fun c => c = 32 || c = 46).reverse

theorem dropTrailing_id {n : Bytes} (h : n.getLast? ≠ some 32 ∧ n.getLast? ≠ some 46) : dropTrailing n = n := by
  unfold dropTrailing
  rw [List.getLast?_eq_head?_reverse] at h
  cases hr : n.reverse with
  | nil => rw [List.reverse_eq_nil_iff] at hr; simp [hr]
  | cons c l =>
    rw [hr] at h
    simp only [List.head?_cons, ne_eq, Option.some.injEq] at h
    rw [List.dropWhile_cons_of_neg (by simp [h.1, h.2]), ← hr, List.reverse_reverse]

open Classical in
/-- a file system with these abilities -/
noncomputable def ofKind (f : Fsa) : Sys where
  canon n := let m := if f.escapeTrailing then dropTrailing n else n; if f.caseSensitive then m else m.map toLower
  accepts n := decide ((f.extended = some false → ∀ b ∈ n, b.toNat < 128) ∧
    (f.winReserved = true → ∀ b ∈ n, b ∉ ([34, 42, 47, 58, 60, 62, 63, 92, 124, 127] : List UInt8)))
  device n := decide (f.escapeDos = true ∧ IsDosDevice n)

/-- There is a file system for all abilities. -/
theorem behaves_ofKind (f : Fsa) : Behaves (ofKind f) f where
  same a b ha hb := by
    have e : ∀ n, Usable f n → (if f.escapeTrailing then dropTrailing n else n) = n := by
      intro n hn
      split
      · next ht => exact dropTrailing_id (hn.trailing ht)
      · rfl
    simp only [ofKind, SameFile]
    rw [e a ha, e b hb]
    split <;> rfl
  usable n _ hn := by
    simp only [ofKind, decide_eq_true_eq]
    exact ⟨fun he b hb => (hn.ascii he b hb).2, fun hr b hb => (hn.reserved hr b hb).1⟩
  extended he n hn := by
    obtain ⟨b, hb, hx⟩ := hn
    simp only [ofKind, decide_eq_false_iff_not]
    intro h
    have := h.1 he b hb
    omega
  reserved hr n hn := by
    obtain ⟨b, hb, hx⟩ := hn
    simp only [ofKind, decide_eq_false_iff_not]
    intro h
    apply h.2 hr b hb
    simp only [List.mem_cons, List.not_mem_nil, or_false] at hx ⊢
    tauto
  trailing ht n := by
    left
    have : dropTrailing (n ++ [46]) = dropTrailing n := by simp [dropTrailing]
    simp [ofKind, ht, this]
  device n := by simp [ofKind]

example : readwrite (ofKind C67.windows) = some C67.windows := readwrite_exact (behaves_ofKind _) (by decide)

/-- Linux -/
def posix : Sys := ⟨id, fun _ => true, fun _ => false⟩
theorem posix_linux : Behaves posix C67.linux :=
  ⟨fun a b _ _ => by simp [posix, SameFile, C67.linux], fun _ _ _ => rfl, (fun h => by cases h), (fun h => by cases h), (fun h => by cases h), fun n => by simp [posix, C67.linux]⟩

/-- a Mac: the case is ignored -/
def macSys : Sys := ⟨fun n => n.map toLower, fun _ => true, fun _ => false⟩
theorem macSys_mac : Behaves macSys C67.mac :=
  ⟨fun a b _ _ => by simp [macSys, SameFile, C67.mac], fun _ _ _ => rfl, (fun h => by cases h), (fun h => by cases h), (fun h => by cases h), fun n => by simp [macSys, C67.mac]⟩

/-- `1/B`, `2.` -/
def tree : Dir := .dir [49] (.file [66] .ok .nil) (.file [50, 46] .ok .nil)

theorem usable_linux (n : Bytes) : Usable C67.linux n := ⟨(fun h => by cases h), (fun h => by cases h), (fun h => by cases h), (fun h => by cases h)⟩
theorem usable_mac (n : Bytes) : Usable C67.mac n := ⟨(fun h => by cases h), (fun h => by cases h), (fun h => by cases h), (fun h => by cases h)⟩
theorem tree_good : Good posix C67.linux tree := by
  refine ⟨usable_linux _, by decide, ⟨usable_linux _, by decide, trivial⟩, usable_linux _, by decide, trivial⟩

example : readonly posix tree = some C67.linuxSource ∧ readonly macSys tree = some { C67.mac with extended := none } := by decide +kernel
example : Lettered tree ∧ Sound tree := ⟨.inr (.inl (.inl ⟨rfl, by decide⟩)), ⟨⟨by decide, trivial⟩, by decide, trivial⟩⟩

theorem b1 : backup false none C67.linuxSource C67.windows ⟨none, none⟩ = some (C67.q1.1, C67.q1.2) := C67.b1
example : (ofKind C67.windows).accepts (written C67.q1.1 [50, 46]) = true ∧ (ofKind C67.windows).canon (written C67.q1.1 [97]) ≠ (ofKind C67.windows).canon (written C67.q1.1 [65]) := by
  have hw : readwrite (ofKind C67.windows) = some C67.windows := readwrite_exact (behaves_ofKind _) (by decide)
  have hr : readonly posix tree = some C67.linuxSource := by decide +kernel
  have hl : Lettered tree := .inr (.inl (.inl ⟨rfl, by decide⟩))
  have h := @first_backup_partial posix C67.linux _ _ posix_linux (behaves_ofKind C67.windows) (by decide) tree tree_good _ _ hr hw (by decide) (.inr rfl) hl _ _ _ b1 (by decide +kernel)
  exact ⟨(h (usable_linux [50, 46]) (usable_linux [97]) (by decide) (by decide)).1, (h (usable_linux [97]) (usable_linux [65]) (by decide) (by decide)).2⟩

/-- F132: a file `con` in the source is taken for a device of the source's file system. Then it isn't escaped in the repository, where it is one. -/
theorem con_in_source : ∃ (root : Dir) (g : Fsa) (q : Quoting) (cfg : Config), Good posix C67.linux root ∧ con ∈ root.names ∧ readonly posix root = some g ∧ g.escapeDos = true ∧
    backup false none g C67.windows ⟨none, none⟩ = some (q, cfg) ∧ written q con = con ∧ ¬ Usable C67.windows con := by
  refine ⟨.file con .ok .nil, { C67.linuxSource with escapeDos := true }, ⟨C67.q1.1.ctq, false, true⟩, ⟨C67.q1.2.ctq, some trailingKey⟩, ⟨usable_linux _, by decide, trivial⟩, by decide,
    by decide +kernel, rfl, by decide +kernel, by decide +kernel, fun h => ?_⟩
  exact h.device rfl ⟨[99, 111, 110], by decide, [], by decide, .inl rfl⟩

/-- F133: on a file system which ignores case, `A` and `a.` look like one which doesn't keep dots at the end. Then they aren't escaped in a repository which doesn't. -/
theorem dots_and_case : ∃ (root : Dir) (g : Fsa) (q : Quoting) (cfg : Config), Good macSys C67.mac root ∧ readonly macSys root = some g ∧ g.escapeTrailing = true ∧
    backup false none g C67.windows ⟨none, none⟩ = some (q, cfg) ∧ [97, 46] ∈ root.names ∧ ¬ Usable C67.windows (written q [97, 46]) := by
  refine ⟨.file [65] .ok (.file [97, 46] .ok .nil), { C67.mac with extended := none, escapeTrailing := true }, ⟨(suggested { C67.mac with extended := none } C67.windows), true, false⟩,
    ⟨some (suggested { C67.mac with extended := none } C67.windows), some dosKey⟩,
    ⟨usable_mac _, by decide, usable_mac _, by decide, trivial⟩, by decide +kernel, rfl, by decide +kernel, by decide, fun h => ?_⟩
  have := (h.trailing rfl).2
  revert this
  decide +kernel

/-- F134: a file which can't be looked at, but for permissions, before one with letters, and there is no backup at all; behind it, there is one. -/
theorem error_stops : readonly posix (.file [49] .error (.file [97] .ok .nil)) = none ∧ readonly posix (.file [97] .ok (.file [98] .error .nil)) ≠ none := by decide +kernel

/-- without letters, case is taken to be distinguished; all that follows is that capital letters are quoted without need -/
theorem undetermined : readonly macSys (.file [49] .ok .nil) = some C67.linuxSource := by decide +kernel

end Verif.C88
