import Verif.Proof.FsQuoting
import Mathlib.Order.MinMax
/-
C67 A repository keeps its quoting, and the quoting makes all names fit the file system.
-/
namespace Verif.C67
open Verif Verif.FsQuoting Verif.Filenames Verif.FilenamesSpec

theorem compareCtq_some {opt : Option Bytes} {p sugg a : Bytes} {c : Option Bytes} (h : compareCtq opt (some p) sugg = some (a, c)) : a = p ∧ c = some p := by
  simp only [compareCtq] at h
  rw [Option.ite_none_right_eq_some] at h
  obtain ⟨hx, h⟩ := h
  simp only [Option.some.injEq, Prod.mk.injEq] at h
  exact ⟨h.1.symm.trans hx, h.2.symm⟩

/-- the configuration after a backup says what its quoting is, and another backup doesn't change it -/
theorem backup_cfg {flip : Bool} {opt : Option Bytes} {src dst : Fsa} {cfg cfg' : Config} {q : Quoting} (h : backup flip opt src dst cfg = some (q, cfg')) :
    cfg'.ctq = some q.ctq ∧ (∃ text, cfg'.esc = some text ∧ readEscapes text = (q.dos, q.trailing)) ∧ (∀ c, cfg.ctq = some c → cfg'.ctq = some c) ∧
      ∀ e, cfg.esc = some e → cfg'.esc = some e := by
  simp only [backup, Option.map_eq_some_iff, Prod.mk.injEq] at h
  obtain ⟨⟨a, c⟩, h1, rfl, rfl⟩ := h
  have hc : c = some a ∧ ∀ p, cfg.ctq = some p → a = p := by
    cases hp : cfg.ctq with
    | none =>
      rw [hp] at h1
      simp only [compareCtq, Option.some.injEq, Prod.mk.injEq] at h1
      exact ⟨by rw [← h1.2, h1.1], fun p h => by cases h⟩
    | some p =>
      rw [hp] at h1
      obtain ⟨rfl, rfl⟩ := compareCtq_some h1
      exact ⟨rfl, fun p h => by cases h; rfl⟩
  refine ⟨hc.1, ?_, fun p hp => by rw [hc.2 p hp] at hc; exact hc.1, fun e he => by simp only [he, backupEscapes]⟩
  cases he : cfg.esc with
  | none => exact ⟨_, rfl, by simp only [backupEscapes, read_write]⟩
  | some text => exact ⟨text, rfl, by simp only [backupEscapes]⟩

theorem used_cfg {cfg : Config} {qs : List Quoting} (h : Used cfg qs) :
    ∀ q ∈ qs, cfg.ctq = some q.ctq ∧ ∃ text, cfg.esc = some text ∧ readEscapes text = (q.dos, q.trailing) := by
  induction h with
  | new => simp
  | backup _ hb ih =>
    obtain ⟨h1, h2, h3, h4⟩ := backup_cfg hb
    intro q' hq'
    rcases List.mem_cons.1 hq' with rfl | hq'
    · exact ⟨h1, h2⟩
    · obtain ⟨i1, text, i2, i3⟩ := ih q' hq'
      exact ⟨h3 _ i1, text, h4 _ i2, i3⟩

/-- C67: all backups of a repository use the same quoting, whichever options are given and whichever file systems source and repository are on: a backup which would need
another one fails and leaves the repository as it is. -/
theorem one_quoting {cfg : Config} {qs : List Quoting} (h : Used cfg qs) {q q' : Quoting} (hq : q ∈ qs) (hq' : q' ∈ qs) : q = q' := by
  obtain ⟨a1, t, a2, a3⟩ := used_cfg h q hq
  obtain ⟨b1, t', b2, b3⟩ := used_cfg h q' hq'
  rw [a1] at b1
  rw [a2] at b2
  cases b2
  rw [a3] at b3
  obtain ⟨x, y, z⟩ := q
  obtain ⟨x', y', z'⟩ := q'
  simp only [Option.some.injEq, Prod.mk.injEq] at b1 b3
  rw [b1, b3.1, b3.2]

/-- C67: all other actions except compare, without the option `--chars-to-quote`, use the quoting of the backups, whichever file systems are used. -/
theorem read_as_written {cfg : Config} {qs : List Quoting} (h : Used cfg qs) {q : Quoting} (hq : q ∈ qs) (repo : Fsa) (other : Option Fsa) :
    quotingOf none repo other cfg = q := by
  obtain ⟨a1, t, a2, a3⟩ := used_cfg h q hq
  simp [quotingOf, a1, a2, a3]

/-- C67: and so does compare, unless it is refused; it doesn't change the configuration. -/
theorem compare_same {cfg cfg' : Config} {qs : List Quoting} (h : Used cfg qs) {q q' : Quoting} (hq : q ∈ qs) {flip : Bool} {opt : Option Bytes} {src dst : Fsa}
    (hc : compareAction flip opt src dst cfg = some (q', cfg')) : q' = q ∧ cfg' = cfg := by
  refine ⟨one_quoting (.backup h hc) (by simp) (by simp [hq]), ?_⟩
  obtain ⟨-, -, h3, h4⟩ := backup_cfg hc
  obtain ⟨a1, t, a2, -⟩ := used_cfg h q hq
  have h3 := h3 _ a1
  have h4 := h4 _ a2
  cases cfg; cases cfg'
  simp_all

/-- When compare (without option) is refused: when the source is on a file system with, and the repository on one without upper and lower case letters, and the quoting of the
repository is of anything else than these letters. -/
theorem compare_refused {cfg : Config} {qs : List Quoting} (h : Used cfg qs) {q : Quoting} (hq : q ∈ qs) (flip : Bool) (src dst : Fsa) :
    compareAction flip none src dst cfg = none ↔ src.caseSensitive = true ∧ dst.caseSensitive = false ∧ q.ctq ≠ [65, 45, 90, 59] := by
  obtain ⟨a1, t, a2, -⟩ := used_cfg h q hq
  have hs : suggested src (readOnly dst) = if src.caseSensitive = true ∧ dst.caseSensitive = false then [65, 45, 90, 59] else [] := by
    cases h1 : src.caseSensitive <;> cases h2 : dst.caseSensitive <;> simp [suggested, readOnly, h1, h2, semi]
  simp only [compareAction, backup, Option.map_eq_none_iff, a1, compareCtq, hs]
  by_cases hc : src.caseSensitive = true ∧ dst.caseSensitive = false
  · simp only [if_pos hc, hc.1, hc.2, true_and]
    by_cases he : q.ctq = [65, 45, 90, 59]
    · simp [he]
    · have he' : ¬ ([65, 45, 90, 59] : Bytes) = q.ctq := fun e => he e.symm
      simp [he, he']
  · simp only [if_neg hc]
    constructor
    · intro hf
      simp at hf
    · rintro ⟨x, y, -⟩
      exact absurd ⟨x, y⟩ hc

/-- F102: a repository which is made by a backup from a file system with, to one without upper and lower case letters (and which can't have all other characters, as those of
Windows) can't be compared with this source, or any other on such a file system: compare fails each time, saying that the quoting would need to be changed. -/
theorem compare_impossible {flip flip' : Bool} {src src' dst : Fsa} {cfg : Config} {q : Quoting} (h : backup flip none src dst ⟨none, none⟩ = some (q, cfg))
    (hs : src.caseSensitive = true) (hs' : src'.caseSensitive = true) (hd : dst.caseSensitive = false) (hw : dst.winReserved = true) :
    compareAction flip' none src' dst cfg = none := by
  rw [compare_refused (.backup .new h) (q := q) (by simp)]
  refine ⟨hs', hd, ?_⟩
  simp only [backup, compareCtq, Option.map_some, Option.getD_none, Option.some.injEq, Prod.mk.injEq] at h
  rw [← h.1]
  simp only [suggested, hs, hd, hw]
  cases dst.extended with
  | none => simp [semi]
  | some b => cases b <;> simp [semi]

/-- C67: with the option `--chars-to-quote`, a backup quotes these characters or fails. -/
theorem option_honoured {flip : Bool} {o : Bytes} {src dst : Fsa} {cfg cfg' : Config} {q : Quoting} (h : backup flip (some o) src dst cfg = some (q, cfg')) : q.ctq = o := by
  simp only [backup, Option.map_eq_some_iff, Prod.mk.injEq] at h
  obtain ⟨⟨a, c⟩, h1, rfl, rfl⟩ := h
  cases hp : cfg.ctq with
  | none =>
    rw [hp] at h1
    simp only [compareCtq, Option.some.injEq, Prod.mk.injEq] at h1
    exact h1.1.symm
  | some p =>
    rw [hp] at h1
    simp only [compareCtq, Option.ite_none_right_eq_some, Option.some.injEq, Prod.mk.injEq] at h1
    exact h1.2.1.symm

/-- C67: two files of the source are never written to the same file of the repository. -/
theorem distinct_files {flip : Bool} {src dst : Fsa} {cfg cfg' : Config} {q : Quoting} (h : backup flip none src dst cfg = some (q, cfg')) {a b : Bytes}
    (hab : ¬ SameFile src a b) : ¬ SameFile dst (written q a) (written q b) := by
  intro hs
  have hne : a ≠ b := by
    rintro rfl
    exact hab (by unfold SameFile; split <;> rfl)
  have hinj : written q a = written q b → a = b := by
    unfold written
    split
    · exact id
    · exact fun e => C17.quote_injective _ _ _ e
  unfold SameFile at hs hab
  cases hd : dst.caseSensitive with
  | true => rw [hd, if_pos rfl] at hs; exact hne (hinj hs)
  | false =>
    rw [hd, if_neg (by simp)] at hs
    cases hc : src.caseSensitive with
    | false =>
      rw [hc, if_neg (by simp)] at hab
      refine hab ?_
      unfold written at hs
      split at hs
      · exact hs
      · exact quote_fold _ _ _ hs
    | true =>
      rcases ctq_of h with hq | hq
      · have hup : ∀ n, (written q n).map toLower = written q n := by
          intro n
          have hnn : q.ctq ≠ [] := by
            intro hz
            rw [hq, suggested_eq] at hz
            have := (chars_nil hz).1 hc
            rw [hd] at this
            cases this
          rw [written, if_neg hnn]
          refine (List.map_congr_left (g := id) fun c hm => ?_).trans (List.map_id _)
          by_cases hu : 65 ≤ c.toNat ∧ c.toNat ≤ 90
          · exfalso
            have hcl : classOf q.ctq c = true := by
              rw [hq, suggested_eq, hc, hd]
              exact class_upper _ _ c hu.1 hu.2
            have := (escapeSyntax_not (C17.quote_avoids _ _ _ n c hm hcl)).2.2.2
            omega
          · rw [toLower, if_neg hu]; rfl
        rw [hup, hup] at hs
        exact hne (hinj hs)
      · rw [suggested_eq] at hq
        have := (chars_nil hq).1 hc
        rw [hd] at this
        cases this

/-- C67: all names of files of the source can be written, if names of devices and blanks or dots at the end of names, when only the repository's file system can't have them, are
escaped. (Missing: the latter, see `escapes_not_added` and `escapes_alone`.) -/
theorem names_usable_partial {flip : Bool} {src dst : Fsa} {cfg cfg' : Config} {q : Quoting} (h : backup flip none src dst cfg = some (q, cfg'))
    (hd : dst.escapeDos = true → src.escapeDos = true ∨ q.ctq ≠ [] ∧ q.dos = true)
    (ht : dst.escapeTrailing = true → src.escapeTrailing = true ∨ q.ctq ≠ [] ∧ q.trailing = true) {n : Bytes} (hn : Usable src n) : Usable dst (written q n) := by
  constructor
  · intro he hdev
    rcases hd he with hs | ⟨h1, h2⟩
    · refine hn.device hs ?_
      unfold written at hdev
      split at hdev
      · exact hdev
      · exact device_of_quoted _ _ _ hdev
    · rw [written, if_neg h1, h2] at hdev
      exact C18.no_dos_device _ _ _ hdev
  · intro he
    rcases ht he with hs | ⟨h1, h2⟩
    · unfold written
      split
      · exact hn.trailing hs
      · exact quote_last _ _ _ (hn.trailing hs)
    · rw [written, if_neg h1, h2]
      exact C18.no_trailing _ _ _
  · intro he b hb
    rcases ctq_of h with hq | hq
    · have hnn : q.ctq ≠ [] := by
        intro hz
        rw [hq, suggested_eq] at hz
        exact (chars_nil hz).2.1 he
      rw [written, if_neg hnn] at hb
      by_contra hbad
      have hcl : classOf q.ctq b = true := by
        rw [hq, suggested_eq, he]
        exact class_ascii _ _ _ b (by omega)
      have := escapeSyntax_not (C17.quote_avoids _ _ _ n b hb hcl)
      omega
    · rw [suggested_eq] at hq
      exact absurd he (chars_nil hq).2.1
  · intro he b hb
    rcases ctq_of h with hq | hq
    · have hnn : q.ctq ≠ [] := by
        intro hz
        rw [hq, suggested_eq] at hz
        have := (chars_nil hz).2.2
        rw [he] at this
        cases this
      rw [written, if_neg hnn] at hb
      by_contra hbad
      have hcl : classOf q.ctq b = true := by
        rw [hq, suggested_eq, he]
        refine class_reserved _ _ _ b ?_
        by_contra hx
        rw [not_or] at hx
        refine hbad ⟨hx.1, fun h1 => ?_⟩
        by_contra h2
        exact hx.2 ⟨h1, by omega⟩
      have := escapeSyntax_not (C17.quote_avoids _ _ _ n b hb hcl)
      exact hbad ⟨this.1, fun _ => this.2.1⟩
    · rw [suggested_eq] at hq
      have := (chars_nil hq).2.2
      rw [he] at this
      cases this

/-- C67: so they can at the first backup, if any characters have to be quoted. -/
theorem first_backup_names_partial {flip : Bool} {src dst : Fsa} {cfg : Config} {q : Quoting} (h : backup flip none src dst ⟨none, none⟩ = some (q, cfg))
    (hq : q.ctq ≠ []) {n : Bytes} (hn : Usable src n) : Usable dst (written q n) := by
  have hboth : q.dos = (dst.escapeDos && !src.escapeDos) ∧ q.trailing = (dst.escapeTrailing && !src.escapeTrailing) := by
    simp only [backup, compareCtq, backupEscapes, Option.map_some, Option.some.injEq, Prod.mk.injEq] at h
    obtain ⟨rfl, -⟩ := h
    exact ⟨rfl, rfl⟩
  refine names_usable_partial h (fun he => ?_) (fun he => ?_) hn
  · cases hs : src.escapeDos with
    | true => exact .inl rfl
    | false => exact .inr ⟨hq, by rw [hboth.1, he, hs]; rfl⟩
  · cases hs : src.escapeTrailing with
    | true => exact .inl rfl
    | false => exact .inr ⟨hq, by rw [hboth.2, he, hs]; rfl⟩

/-- C67: what is written is read back as it was, if the file system can have other than ASCII characters, or there are none in the name. (Missing: others, for which it is
false: C17.) -/
theorem names_read_back_partial {flip : Bool} {src dst : Fsa} {cfg : Config} {q : Quoting} (h : backup flip none src dst ⟨none, none⟩ = some (q, cfg)) {n : Bytes}
    (hn : dst.extended ≠ some false ∨ ∀ b ∈ n, b.toNat < 128) : readBack q (written q n) = n := by
  have hq : q.ctq = suggested src dst := by
    simp only [backup, compareCtq, Option.map_some, Option.some.injEq, Prod.mk.injEq] at h
    obtain ⟨rfl, -⟩ := h
    rfl
  unfold readBack written
  by_cases hz : q.ctq = []
  · rw [if_pos hz, if_pos hz]
  · rw [if_neg hz, if_neg hz]
    rcases hn with he | hn
    · refine C17.unquote_quote_partial _ _ _ _ fun b hb => ?_
      rw [hq, suggested_eq] at hb
      exact class_seven _ _ _ _ he b hb
    · have hcongr : quoteChars (classOf q.ctq) n = quoteChars (fun b => classOf q.ctq b && decide (b.toNat < 128)) n := by
        clear h hz hq
        induction n with
        | nil => rfl
        | cons b n ih =>
          simp only [quoteChars]
          rw [ih fun c hc => hn c (List.mem_cons_of_mem _ hc)]
          simp only [decide_eq_true (hn b List.mem_cons_self), Bool.and_true]
      have : quote (classOf q.ctq) q.trailing q.dos n = quote (fun b => classOf q.ctq b && decide (b.toNat < 128)) q.trailing q.dos n := by
        simp only [quote, hcongr]
      rw [this]
      refine C17.unquote_quote_partial _ _ _ _ fun b hb => ?_
      simp only [Bool.and_eq_true, decide_eq_true_eq] at hb
      exact hb.2

/-! ### examples, and where it fails -/

/-- a file system of Linux, one of Windows, one which ignores the case only -/
def linux : Fsa := ⟨true, some true, false, false, false⟩
def linuxSource : Fsa := ⟨true, none, false, false, false⟩
def windows : Fsa := ⟨false, some true, true, true, true⟩
def windowsSource : Fsa := ⟨false, none, false, true, true⟩
def mac : Fsa := ⟨false, some true, false, false, false⟩
/-- no blanks and dots at the end of names, otherwise no restrictions -/
def share : Fsa := ⟨true, some true, false, false, true⟩

def q1 : Quoting × Config := (backup false none linuxSource windows ⟨none, none⟩).get (by decide +kernel)
theorem b1 : backup false none linuxSource windows ⟨none, none⟩ = some (q1.1, q1.2) := by decide +kernel

-- `A:.`
example : written q1.1 [65, 58, 46] = [59, 48, 54, 53, 59, 48, 53, 56, 59, 48, 52, 54] := by decide +kernel
theorem aColon : Usable linuxSource [65, 58, 46] := ⟨(fun h => by cases h), by decide, by decide, by decide⟩
example : Usable windows (written q1.1 [65, 58, 46]) := first_backup_names_partial b1 (by decide +kernel) aColon
example : readBack q1.1 (written q1.1 [65, 58, 46]) = [65, 58, 46] := names_read_back_partial b1 (.inl (by decide))
example : ¬ SameFile windows (written q1.1 [65]) (written q1.1 [97]) := distinct_files b1 (by decide)
example : SameFile windows [65] [97] := by decide
theorem used1 : Used q1.2 [q1.1] := .backup .new b1
example : quotingOf none linux (some mac) q1.2 = q1.1 := read_as_written used1 (by simp) linux (some mac)
/-- the repository is moved to Linux: the next backup keeps the quoting -/
theorem b1' : backup true none linuxSource linux q1.2 = some (q1.1, q1.2) := by decide +kernel
example : ∀ q ∈ [q1.1, q1.1], q = q1.1 := fun _ hq => one_quoting (.backup used1 b1') hq (by simp)
/-- moved to a Mac: it fails -/
example : backup true none linuxSource mac q1.2 = none := by decide +kernel

example : (backup false (some [65, 45, 90]) linuxSource linux ⟨none, none⟩).map (·.1.ctq) = some [65, 45, 90] := by decide +kernel

-- a repository of a Mac can be compared with Linux, one of Windows can't
example : (compareAction false none linuxSource mac ⟨some [65, 45, 90, 59], some []⟩).isSome = true := by decide +kernel
example : compareAction true none linuxSource windows q1.2 = none := compare_impossible b1 rfl rfl rfl rfl
example : ∀ q cfg', compareAction true none windowsSource windows q1.2 = some (q, cfg') → q = q1.1 ∧ cfg' = q1.2 := fun _ _ h => compare_same used1 (by simp) h
example : (compareAction true none windowsSource windows q1.2).isSome = true := by decide +kernel

/-- F81: only the letters A to Z are quoted for a file system which ignores the case, which such file systems do with other letters too: `É` and `é` are written to the same
file there. -/
theorem other_letters : ∃ q cfg, backup false none linuxSource mac ⟨none, none⟩ = some (q, cfg) ∧ written q [195, 137] = [195, 137] ∧ written q [195, 169] = [195, 169] :=
  ⟨⟨[65, 45, 90, 59], false, false⟩, ⟨some [65, 45, 90, 59], some []⟩, by decide +kernel, by decide +kernel, by decide +kernel⟩

/-- F82: the escaping of trailing dots, blanks and devices is decided at the first backup. If it isn't needed then because the source can't have such names (Windows to Windows), it isn't
done for a source which can have them, and the backup doesn't fail either, unlike with characters which need quoting. -/
theorem escapes_not_added : ∃ (windows' : Fsa) (q q' : Quoting) (cfg cfg' : Config), windows'.escapeTrailing = true ∧
    backup false none windowsSource windows' ⟨none, none⟩ = some (q, cfg) ∧ backup false none linuxSource windows' cfg = some (q', cfg') ∧
    Usable linuxSource [97, 46] ∧ ¬ Usable windows' (written q' [97, 46]) :=
  ⟨{ windows with caseSensitive := true }, _, _, _, _, rfl, (Option.some_get (by decide +kernel)).symm, (Option.some_get (by decide +kernel)).symm,
    ⟨(fun h => by cases h), by decide, by decide, by decide⟩, fun h => by
      have := (h.trailing rfl).2
      revert this
      decide +kernel⟩

/-- F83: if no characters need quoting, then trailing dots and blanks and device names aren't escaped, although it is recorded that they are. -/
theorem escapes_alone : ∃ (q : Quoting) (cfg : Config), backup false none linuxSource share ⟨none, none⟩ = some (q, cfg) ∧ q.trailing = true ∧
    Usable linuxSource [97, 46] ∧ ¬ Usable share (written q [97, 46]) :=
  ⟨⟨[], false, true⟩, ⟨some [], some trailingKey⟩, by decide +kernel, rfl, ⟨(fun h => by cases h), by decide, by decide, by decide⟩, fun h => by
    have := (h.trailing rfl).2
    revert this
    decide +kernel⟩

/-- F84: a source without letters in its names is treated as case sensitive. When letters appear and it turns out that it isn't, no further backups are possible. -/
theorem sensitivity_found : ∃ (q : Quoting) (cfg : Config), backup false none { windowsSource with caseSensitive := true } windows ⟨none, none⟩ = some (q, cfg) ∧
    ∀ flip, backup flip none windowsSource windows cfg = none :=
  ⟨q1.1 |> fun q => ⟨q.ctq, false, false⟩, ⟨q1.2.ctq, some []⟩, by decide +kernel, by decide +kernel⟩

/-- F85: with the option, other actions than backup use a quoting which isn't the one of the repository, without being refused. -/
theorem option_not_checked : ∃ (cfg : Config) (qs : List Quoting) (q : Quoting), Used cfg qs ∧ q ∈ qs ∧ quotingOf (some []) windows (some linux) cfg ≠ q ∧
    readBack (quotingOf (some []) windows (some linux) cfg) (written q [65]) ≠ [65] :=
  ⟨q1.2, [q1.1], q1.1, used1, by simp, by decide +kernel, by decide +kernel⟩

end Verif.C67
