import Verif.Proof.Glob
import Verif.Proof.MetaFile
import Verif.Props.C27
/-
C30 Globs match as documented. Specification: `Spec/Glob.lean`.
-/
set_option linter.unusedSectionVars false
namespace Verif.C30
open Verif.Glob Verif.Selection
open Verif.Spec.Glob (Like ClassText InSet InClass Expands Covers)

/-- `ignorecase:` in front, in upper or lower case letters, is removed and makes the match ignore the case; other globs are taken as they are. -/
theorem ignorecase_prefix (raw : Bytes) :
    (∃ w : Bytes, w.map lower = "ignorecase:".toUTF8.toList ∧ raw = w ++ (flags raw).2 ∧ (flags raw).1 = true) ∨
    ((∀ w g : Bytes, w.map lower = "ignorecase:".toUTF8.toList → raw ≠ w ++ g) ∧ flags raw = (false, raw)) := by
  have he : "ignorecase:".toUTF8.toList = ignorecase := by decide +kernel
  rw [he]
  by_cases h : (raw.take 11).map lower = ignorecase
  · left
    refine ⟨raw.take 11, h, ?_, ?_⟩ <;> simp [flags, h]
  · right
    refine ⟨fun w g hw hr => h ?_, by rw [flags, if_neg h]⟩
    have hl : w.length = 11 := by have := congrArg List.length hw; simpa [ignorecase] using this
    rw [hr, ← hl, List.take_left, hw]

/-- C30: what the selection function of a glob matches, for every glob accepted: the paths the glob can be expanded to and the paths inside
such directories — and (finding F22) the paths which are one of the first kind followed by a newline. -/
theorem matches_iff {base raw : Bytes} {gre sre : Bytes → Bool} (h : normalSf base raw = some (gre, sre)) (s : Bytes) :
    gre s = true ↔ Covers (flags raw).1 (flags raw).2 s ∨ ∃ s', s = s' ++ [10] ∧ Expands (flags raw).1 (flags raw).2 s' := by
  simp only [normalSf] at h
  split at h
  · simp at h
  · next hc =>
    have hc' : compiles (parse (flags raw).2) = true := by simpa using hc
    split at h
    · simp at h
    · split at h
      · simp at h
      · split at h
        · simp only [Option.some.injEq, Prod.mk.injEq] at h
          rw [← h.1, globRe_iff hc', covers_iff]
          constructor
          · rintro ⟨m, r, rfl, he, (hr | rfl | hr)⟩
            · exact .inl ⟨m, r, rfl, he, .inl hr⟩
            · exact .inr ⟨m, rfl, he⟩
            · exact .inl ⟨m, r, rfl, he, .inr hr⟩
          · rintro (⟨m, r, h1, he, hr⟩ | ⟨s', rfl, he⟩)
            · exact ⟨m, r, h1, he, hr.imp id .inr⟩
            · exact ⟨s', [10], rfl, he, .inr (.inl rfl)⟩
        · simp at h

/-- C30 for paths which do not end in a newline: exactly what the manual page says about `--exclude`. -/
theorem matches_documented {base raw : Bytes} {gre sre : Bytes → Bool} (h : normalSf base raw = some (gre, sre)) {s : Bytes}
    (hs : s.getLast? ≠ some 10) : gre s = true ↔ Covers (flags raw).1 (flags raw).2 s := by
  rw [matches_iff h]
  constructor
  · rintro (h | ⟨s', rfl, -⟩)
    · exact h
    · simp at hs
  · exact .inl

/-- C30, scanning, for the globs of `Simple`: a directory above a matched path is matched itself or is scanned. -/
theorem above_scanned_partial {base raw : Bytes} {gre sre : Bytes → Bool} (h : normalSf base raw = some (gre, sre))
    (hs : Simple (flags raw).1 (flags raw).2) {s d t : Bytes} (hg : gre s = true) (hd : s = d ++ 47 :: t) (hslash : 47 ∈ d) :
    gre d = true ∨ sre d = true := by
  simp only [normalSf] at h
  split at h
  · simp at h
  · next hc =>
    have hc' : compiles (parse (flags raw).2) = true := by simpa using hc
    split at h
    · simp at h
    · next ps hps =>
      split at h
      · simp at h
      · next hcp =>
        have hcp' : ∀ p ∈ ps, compiles (parse p) = true := by simpa using hcp
        split at h
        · simp only [Option.some.injEq, Prod.mk.injEq] at h
          obtain ⟨rfl, rfl⟩ := h
          rw [globRe_iff hc'] at hg ⊢
          obtain ⟨m, r, hmr, he, hr⟩ := hg
          rw [hd] at hmr
          have scanned : ∀ p, (p = truncate (flags raw).2 ∨ (p ++ [47]) <+: truncate (flags raw).2) → Expands (flags raw).1 p d →
              scanRe (flags raw).1 ps d = true := by
            intro p hp hpe
            have hne : p ≠ [] := by rintro rfl; cases hpe; simp at hslash
            have hdr : isDrive p = false := by
              rw [Bool.eq_false_iff]
              intro hdv
              match p, hdv with
              | [a, b], hdv =>
                simp only [isDrive, Bool.and_eq_true, Bool.or_eq_true, decide_eq_true_eq] at hdv
                obtain ⟨rfl, ha⟩ := hdv
                have colon : ∀ {s : Bytes}, Expands (flags raw).1 [58] s → 47 ∉ s := by
                  intro s hx hm
                  cases hx with
                  | other _ _ _ _ hl hx =>
                    cases hx
                    simp only [List.mem_singleton] at hm
                    rw [← hm] at hl
                    exact absurd (like_slash hl) (by decide)
                have letter : ∀ {s : Bytes}, a ≠ 47 → Expands (flags raw).1 [a, 58] s → a ≠ 42 → a ≠ 63 → a ≠ 91 → a ≠ 92 → 47 ∉ s := by
                  intro s ha hx h1 h2 h3 h4 hm
                  cases hx with
                  | star => exact absurd rfl h1
                  | question => exact absurd rfl h2
                  | backslash => exact absurd rfl h4
                  | cls => exact absurd rfl h3
                  | openBracket => exact absurd rfl h3
                  | other _ _ _ _ hl hx =>
                    rcases List.mem_cons.1 hm with hm | hm
                    · rw [← hm] at hl; exact ha (like_slash hl)
                    · exact colon hx hm
                by_cases h42 : a = 42
                · subst h42
                  cases hpe with
                  | star t' h1 h2 h3 =>
                    rcases List.mem_append.1 hslash with hm | hm
                    · exact h2 hm
                    · exact colon h3 hm
                  | other h => exact absurd rfl h
                · have hrange : (97 ≤ a ∧ a ≤ 122) ∨ (65 ≤ a ∧ a ≤ 90) := by
                    rcases ha with (h | h) | h
                    exacts [.inl h, .inr h, absurd h h42]
                  have no : ∀ x : UInt8, ¬ ((97 ≤ x ∧ x ≤ 122) ∨ (65 ≤ x ∧ x ≤ 90)) → a ≠ x := fun x hx e => hx (e ▸ hrange)
                  exact letter (no 47 (by decide)) hpe h42 (no 63 (by decide)) (no 91 (by decide)) (no 92 (by decide)) hslash
            have hm := mem_prefixes hps hp hne hdr
            simp only [scanRe, List.any_eq_true]
            refine ⟨p, hm, ?_⟩
            rw [rmatch_iff]
            exact ⟨d, [], by simp, (TM_iff (hcp' p hm)).2 hpe, by simp [dollar]⟩
          have go : ∀ t', m = d ++ 47 :: t' → (∃ m r, d = m ++ r ∧ Expands (flags raw).1 (flags raw).2 m ∧ (r = [] ∨ r = [10] ∨ r.head? = some 47)) ∨
              scanRe (flags raw).1 ps d = true := by
            intro t' hm
            rcases above hs he d t' hm with ⟨p, hp, hpe⟩ | hpe
            · exact .inr (scanned p (.inr hp) hpe)
            · exact .inr (scanned _ (.inl rfl) hpe)
          rcases List.append_eq_append_iff.1 hmr with ⟨a, h1, h2⟩ | ⟨a, h1, h2⟩
          · cases a with
            | nil => left; exact ⟨m, [], by simpa using h1.symm, he, .inl rfl⟩
            | cons x a =>
              simp only [List.cons_append, List.cons.injEq] at h2
              exact go a (by rw [h1, ← h2.1])
          · left
            refine ⟨m, a, h1, he, ?_⟩
            cases a with
            | nil => exact .inl rfl
            | cons x a =>
              rcases hr with rfl | rfl | hr
              · simp at h2
              · simp at h2
              · rw [h2] at hr
                exact .inr (.inr (by simpa using hr))
        · simp at h

/-- the condition of `--include glob` or `--exclude glob` for the base directory `base` -/
def globCond (base raw : Bytes) (incl : Bool) : Option (Cond Bytes) :=
  (normalSf base raw).map fun r => .glob (fun i => r.1 (path base i)) (fun i => r.2 (path base i)) incl

theorem selectFrom_scan (cs : List (Cond Bytes)) (i : List Bytes) (f : Option File) : ∀ cs', selectFrom .scan i f cs ≠ some (.excl, cs') := by
  induction cs with
  | nil => simp [selectFrom]
  | cons c cs ih =>
    intro cs'
    rw [selectFrom]
    split
    · simp
    · simp
    · simp
    · simp only [ne_eq, Option.map_eq_some_iff, not_exists, not_and]
      rintro ⟨v, cs1⟩ h1 h2
      simp only [Prod.mk.injEq] at h2
      rw [h2.1] at h1
      exact ih cs1 h1
    · simp only [ne_eq, Option.map_eq_some_iff, not_exists, not_and]
      rintro ⟨v, cs1⟩ h1 h2
      simp only [Prod.mk.injEq] at h2
      rw [h2.1] at h1
      exact ih cs1 h1

theorem foldl_prefix (q : Bytes) (k : List Bytes) : ∃ t, k.foldl joinName q = q ++ t := by
  induction k generalizing q with
  | nil => exact ⟨[], by simp⟩
  | cons n k ih =>
    obtain ⟨t, ht⟩ := ih (joinName q n)
    rw [List.foldl_cons, ht, joinName]
    split
    · exact ⟨n ++ t, by simp⟩
    · exact ⟨47 :: n ++ t, by simp⟩

/-- a name which can occur in a directory -/
def Name (n : Bytes) : Prop := n ≠ [] ∧ 47 ∉ n

theorem path_last {base : Bytes} {j : List Bytes} (hj : j ≠ []) (hn : ∀ n ∈ j, Name n) : path base j ≠ [] ∧ (path base j).getLast? ≠ some 47 := by
  obtain ⟨j', n, rfl⟩ := List.eq_nil_or_concat j |>.resolve_left hj
  have hnn : Name n := hn n (by simp)
  simp only [path, List.concat_eq_append, List.foldl_append, List.foldl_cons, List.foldl_nil] at *
  have hl : ∀ q : Bytes, (q ++ n) ≠ [] ∧ (q ++ n).getLast? ≠ some 47 := by
    intro q
    refine ⟨by simp [hnn.1], ?_⟩
    rw [List.getLast?_append_of_ne_nil q hnn.1]
    intro h
    exact hnn.2 (List.mem_of_getLast? h)
  rw [joinName]
  split
  · exact hl _
  · have := hl (j'.foldl joinName base ++ [47])
    simpa using this

theorem path_below {base : Bytes} {j k : List Bytes} (hj : j ≠ []) (hn : ∀ n ∈ j, Name n) (hk : k ≠ []) :
    ∃ t, path base (j ++ k) = path base j ++ 47 :: t := by
  obtain ⟨h1, h2⟩ := path_last (base := base) hj hn
  cases k with
  | nil => exact absurd rfl hk
  | cons n k =>
    rw [path, List.foldl_append, List.foldl_cons]
    have e : joinName (path base j) n = path base j ++ 47 :: n := by
      rw [joinName, if_neg (by rintro (h | h); exacts [h1 h, h2 h])]
    obtain ⟨t, ht⟩ := foldl_prefix (path base j ++ 47 :: n) k
    refine ⟨n ++ t, ?_⟩
    have : List.foldl joinName base j = path base j := rfl
    rw [this, e, ht]
    simp

theorem path_slash {base : Bytes} (hb : base ≠ []) {j : List Bytes} (hj : j ≠ []) : 47 ∈ path base j := by
  cases j with
  | nil => exact absurd rfl hj
  | cons n j =>
    rw [path, List.foldl_cons]
    obtain ⟨t, ht⟩ := foldl_prefix (joinName base n) j
    rw [ht, joinName]
    split
    · next h =>
      rcases h with h | h
      · exact absurd h hb
      · have := List.mem_of_getLast? h
        simp [this]
    · simp

/-- Together with C27: a file matched by a glob given as the first option with `--include` is backed up, whatever options follow (those of
findings F18 and F19 excepted), for globs of the form of `Simple`. -/
theorem included_file_is_generated_partial {base raw : Bytes} (hb : base ≠ []) {c : Cond Bytes} (hc : globCond base raw true = some c)
    (hsimple : Simple (flags raw).1 (flags raw).2) (rb : Bytes) {cs : List (Cond Bytes)} (hp : ∀ c ∈ cs, C26.Plain c) (root : File)
    (hroot : root.isdir = true) (content : Forest Bytes) (hF : content.Ok) {i : List Bytes} {f : File} (hi : (i, f) ∈ listing [] content)
    (hnames : ∀ n ∈ i, Name n) (hrb : i.head? ≠ some rb) (hm : Covers (flags raw).1 (flags raw).2 (path base i)) :
    ∃ out, iterate (withRbdir rb (c :: cs)) root content = some out ∧ i ∈ out := by
  rw [globCond, Option.map_eq_some_iff] at hc
  obtain ⟨⟨gre, sre⟩, hsf, rfl⟩ := hc
  simp only at *
  have hgre : gre (path base i) = true := (matches_iff hsf _).2 (.inl hm)
  -- the decision about a path which the glob matches or scans
  have dec : ∀ (j : List Bytes) (g : File), j.head? ≠ some rb → j ≠ [] → (gre (path base j) = true → decide' (withRbdir rb (.glob (fun i => gre (path base i)) (fun i => sre (path base i)) true :: cs)) j g = .incl) ∧
      (sre (path base j) = true → decide' (withRbdir rb (.glob (fun i => gre (path base i)) (fun i => sre (path base i)) true :: cs)) j g ≠ .excl) := by
    intro j g hj hj0
    have hrbj : ¬ j.take 1 = [rb] := by
      cases j with
      | nil => exact absurd rfl hj0
      | cons n j => simp at hj; simp [hj]
    constructor
    · intro hg
      apply decide'_eq (cs' := withRbdir rb (.glob (fun i => gre (path base i)) (fun i => sre (path base i)) true :: cs))
      simp [selectDefault, withRbdir, selectFrom, Cond.apply, hrbj, hg, val]
    · intro hsc hex
      by_cases hg : gre (path base j) = true
      · have : decide' (withRbdir rb (.glob (fun i => gre (path base i)) (fun i => sre (path base i)) true :: cs)) j g = .incl := by
          apply decide'_eq (cs' := withRbdir rb (.glob (fun i => gre (path base i)) (fun i => sre (path base i)) true :: cs))
          simp [selectDefault, withRbdir, selectFrom, Cond.apply, hrbj, hg, val]
        rw [this] at hex; simp at hex
      · obtain ⟨v, cs', hv⟩ := C26.select_total .scan cs j g
        have hd : selectDefault (withRbdir rb (.glob (fun i => gre (path base i)) (fun i => sre (path base i)) true :: cs)) j (some g) =
            some (v, .tuple [rb] false :: .glob (fun i => gre (path base i)) (fun i => sre (path base i)) true :: cs') := by
          simp [selectDefault, withRbdir, selectFrom, Cond.apply, hrbj, hg, hsc, hv]
        rw [decide'_eq hd] at hex
        subst hex
        exact selectFrom_scan cs j (some g) cs' hv
  have hplain : ∀ c ∈ withRbdir rb (.glob (fun i => gre (path base i)) (fun i => sre (path base i)) true :: cs), C26.Plain c := by
    intro c hc
    simp only [withRbdir, List.mem_cons] at hc
    rcases hc with rfl | rfl | hc
    · trivial
    · trivial
    · exact hp c hc
  obtain ⟨out, h1, -, h2⟩ := C27.iterates_selected_partial hplain root hroot content hF
  refine ⟨out, h1, (h2 i).2 (.inr ⟨f, hi, ?_, .inl ((dec i f hrb ?_).1 hgre)⟩)⟩
  · intro j g hj hpre hne
    obtain ⟨k, rfl⟩ := hpre
    have hj0 : j ≠ [] := by
      obtain ⟨m, -, hm⟩ := mem_listing hj
      rintro rfl; simp at hm
    have hk0 : k ≠ [] := by rintro rfl; simp at hne
    have hjn : ∀ n ∈ j, Name n := fun n hn => hnames n (List.mem_append_left _ hn)
    have hjr : j.head? ≠ some rb := by
      cases j with
      | nil => exact absurd rfl hj0
      | cons n j => simpa using hrb
    obtain ⟨t, ht⟩ := path_below (base := base) hj0 hjn hk0
    rcases above_scanned_partial hsf hsimple hgre ht (path_slash hb hj0) with h | h
    · rw [(dec j g hjr hj0).1 h]; simp
    · exact (dec j g hjr hj0).2 h
  · obtain ⟨m, -, hm⟩ := mem_listing hi
    rintro rfl; simp at hm

/-- The root directory is not left out: for a glob which is an absolute path, `/` is to be scanned for it, so that the glob is accepted and
can be found when `/` itself is backed up (unless it is in itself not acceptable). -/
theorem root_scanned (raw : Bytes) (habs : (flags raw).2.head? = some 47) (h1 : compiles (parse (flags raw).2) = true) {ps : List Bytes}
    (h2 : prefixes (truncate (flags raw).2) = some ps) (h3 : ps.all (fun p => compiles (parse p)) = true) :
    ∃ gre sre, normalSf [47] raw = some (gre, sre) ∧ sre [47] = true := by
  have hps : [47] ∈ ps := by
    match hg : (flags raw).2, habs with
    | c :: r, habs =>
      simp only [List.head?_cons, Option.some.injEq] at habs
      subst habs
      rw [hg] at h2
      have ht : truncate (47 :: r) = 47 :: truncate r := by rw [truncate, if_neg (by simp)]
      rw [ht] at h2
      simp only [prefixes, split, if_true] at h2
      split at h2
      · simp at h2
      · simp only [Option.some.injEq] at h2
        rw [← h2]
        simp [List.range_succ_eq_map, join]
  have hscan : scanRe (flags raw).1 ps [47] = true := by
    simp only [scanRe, List.any_eq_true]
    refine ⟨_, hps, ?_⟩
    have : parse [47] = [.lit 47] := by decide +kernel
    simp [this, rmatch, sameChar, dollar]
  refine ⟨globRe (flags raw).1 (flags raw).2, scanRe (flags raw).1 ps, ?_, hscan⟩
  rw [normalSf]
  simp [h1, h2, h3, hscan]

/-! ### examples -/

/-- the bytes of a string -/
def b (s : String) : Bytes := s.toUTF8.toList

/-- whether the path is matched, and whether it is to be scanned; `none` if the glob is not accepted -/
def answer (base raw path : Bytes) : Option (Bool × Bool) := (normalSf base raw).map fun r => (r.1 path, r.2 path)

/-- `--include '/home/**/*.[ch]'` for the directory `/home`: accepted, of the form `Simple`, and matching -/
def cFiles : Bytes := b "/home/**/*.[ch]"

theorem cFiles_simple : Simple (flags cFiles).1 (flags cFiles).2 := by
  have e : flags cFiles = (false, [47, 104, 111, 109, 101, 47, 42, 42, 47, 42, 46, 91, 99, 104, 93]) := by decide +kernel
  rw [e]
  have cls : ClassText [99, 104, 93] false [99, 104] [] := ⟨.inr ⟨rfl, rfl, by decide, by decide⟩, 99, [104], rfl, by decide⟩
  have h : Simple false [91, 99, 104, 93] := by
    refine .cls cls ?_ ?_ .nil
    · intro h
      exact absurd (h.eq_of_length rfl) (by decide)
    · rintro (⟨-, x, hx, hin⟩ | ⟨h, -⟩)
      · have := like_slash hx
        subst this
        cases hin with
        | afterChar _ h => cases h with
          | afterChar _ h => cases h
      · cases h
  have o : ∀ {c : UInt8} {p : Bytes}, c ≠ 42 ∧ c ≠ 63 ∧ c ≠ 91 ∧ c ≠ 92 → Simple false p → Simple false (c :: p) := fun h hp => .other h.1 h.2.1 h.2.2.1 h.2.2.2 hp
  exact o (by decide) (o (by decide) (o (by decide) (o (by decide) (o (by decide) (o (by decide) (.starstar (o (by decide)
    (.star (by decide) (o (by decide) h)))))))))

example : answer (b "/home") cFiles (b "/home/a/b/x.c") = some (true, true) ∧ answer (b "/home") cFiles (b "/home/a/b/x.py") = some (false, true) ∧
    answer (b "/home") cFiles (b "/home/a") = some (false, true) ∧ answer (b "/home") cFiles (b "/home") = some (false, true) ∧
    answer (b "/usr") cFiles (b "/home") = none := by decide +kernel

example : Covers false (b "/home/*.py") (b "/home/x.py") ∧ Name (b "x.py") := by
  have e1 : b "/home/*.py" = [47, 104, 111, 109, 101, 47, 42, 46, 112, 121] := by decide +kernel
  have e2 : b "/home/x.py" = [47, 104, 111, 109, 101, 47, 120, 46, 112, 121] := by decide +kernel
  refine ⟨?_, by decide +kernel, by decide +kernel⟩
  rw [e1, e2]
  have o : ∀ {c : UInt8} {p s : Bytes}, c ≠ 42 ∧ c ≠ 63 ∧ c ≠ 91 ∧ c ≠ 92 → Expands false p s → Expands false (c :: p) (c :: s) :=
    fun h hp => .other h.1 h.2.1 h.2.2.1 h.2.2.2 (.inl rfl) hp
  exact .inl (o (by decide) (o (by decide) (o (by decide) (o (by decide) (o (by decide) (o (by decide)
    (.star [120] (by decide) (by decide) (o (by decide) (o (by decide) (o (by decide) .nil))))))))))

example : answer (b "/") (b "/home/*") (b "/") = some (false, true) := by decide +kernel

/-- `ignorecase:` -/
example : answer (b "/home") (b "IgnoreCase:/HOME/*.Py") (b "/home/X.pY") = some (true, true) ∧
    answer (b "/home") (b "IgnoreCase:/HOME/*.Py") (b "/home/a/x.py") = some (false, false) := by decide +kernel

/-- Finding F21: a class may match `/`, and then the directories above a match are not found: `/home/a[!b]c` is matched by the file
`/home/a/c`, but the directory `/home/a` is neither matched nor scanned, so that the file is not included. -/
theorem class_matches_slash : answer (b "/home") (b "/home/a[!b]c") (b "/home/a/c") = some (true, true) ∧
    answer (b "/home") (b "/home/a[!b]c") (b "/home/a") = some (false, false) := by decide +kernel

/-- Finding F21: `\\**` (an escaped star and a star) is taken for `**` where the glob is cut, so that directories below are not scanned. -/
theorem escaped_star_cut : answer (b "/home") (b "/home/\\**/a/x") (b "/home/*1/a/x") = some (true, false) ∧
    answer (b "/home") (b "/home/\\**/a/x") (b "/home/*1/a") = some (false, false) := by decide +kernel

/-- Finding F22: a file whose name ends in a newline is matched by the glob for the name without it. -/
theorem newline_at_end : (answer (b "/home") (b "/home/*.c") (b "/home/x.c\n")).map (·.1) = some true := by decide +kernel

/-- Finding F23: `*` matches every absolute path (the empty string before the first slash). -/
theorem star_matches_absolute : (answer (b "/home") (b "*") (b "/home/a/b")).map (·.1) = some true := by decide +kernel

/-- Finding F24: `?` matches one byte, not one character: it does not match `é` in UTF-8. -/
theorem question_matches_byte : (answer (b "/home") (b "/home/?") (b "/home/e")).map (·.1) = some true ∧
    (answer (b "/home") (b "/home/?") (b "/home/é")).map (·.1) = some false := by decide +kernel

end Verif.C30
