import Verif.Proof.Logging

/-
C84  Messages are written where they have to be, and once

Processes are numbered, `w` is the one which writes the repository. Until the repository has been prepared, and after it has been left, no file gets anything; in
between, `backup.log` gets each message which is important enough for its verbosity, once and in the order in which they arose, whichever process it came from; the
error log gets each recoverable error, and nothing else, and can be taken apart again. Each message is shown where it arose if it is important enough for that
terminal, and a server never writes on its standard output, which is the connection. Left as `_partial`: `log.Log.exception` doesn't show everything, and the logs of
`regress` and `remove` remain empty.
-/
namespace Verif.C84
open Verif.Logging Verif.Spec.Logging

/-- A whole session: something is told before the repository is ready, something during the backup, something when the repository has been left already. -/
def session (W : World) (w : Nat) (before during after : List Event) : World :=
  runs (finish (runs (startBackup (runs W before) w) during) w) after

/-- C84 The log of a backup contains the messages of the backup, wherever they come from, each once, in their order; and no other file gets anything. -/
theorem backup_log (W : World) (hW : Fresh W) (w f : Nat) (hf : ∀ n, (W.site n).fileVerbosity = f) (before during after : List Event) (x : Nat) :
    (session W w before during after).logFile x =
      W.logFile x ++ if x = w ∧ 0 < f then logText (fun n => (W.site n).parsable) (format (W.site w).stamp f) f during else [] := by
  have h1 : Fresh (runs W before) := by intro n; rw [runs_site]; exact hW n
  have ho : Open (startBackup (runs W before) w) w (decide (0 < f)) f := h1.open w f (fun n => by rw [runs_site]; exact hf n)
  have ho2 : Open (runs (startBackup (runs W before) w) during) w (decide (0 < f)) f := by
    constructor <;> rw [runs_site]
    · exact ho.writer
    · exact ho.isWriter
    · exact ho.logOpen
    · exact ho.errOpen
    · exact ho.file
  have hfr := finish_nobody ho2
  have h3 := runs_nobody (fun n => ⟨(hfr n).1, (hfr n).2.1⟩) after
  have h0 := runs_nobody (fun n => ⟨(hW n).1, (hW n).2.1⟩) before
  have hp : (fun n => ((startBackup (runs W before) w).site n).parsable) = fun n => (W.site n).parsable := by
    funext n; rw [(startBackup_parsable _ w n).1, runs_site]
  have hs : ((startBackup (runs W before) w).site w).stamp = (W.site w).stamp := by rw [(startBackup_parsable _ w w).2.1, runs_site]
  show (runs (finish _ w) after).logFile x = _
  rw [h3.1]
  show (runs (startBackup (runs W before) w) during).logFile x = _
  rw [runs_logFile ho, (startBackup_rest _ w).1, h0.1, hp, hs]
  simp

/-- C84 The error log of a backup contains the recoverable errors of the backup, wherever they come from, each once, in their order: cut at its separator, it
gives their texts back – exactly with `--null-separator`, else with blanks instead of newlines. -/
theorem error_log (W : World) (hW : Fresh W) (w f : Nat) (hf : ∀ n, (W.site n).fileVerbosity = f) (before during after : List Event) (x : Nat) :
    ∃ new, (session W w before during after).errFile x = W.errFile x ++ new ∧ (x ≠ w → new = []) ∧
      (x = w → W.nullSeparator = false → pieces '\n' new = (errors during).map fun t => t.map fun c => if c = '\n' then ' ' else c) ∧
      (x = w → W.nullSeparator = true → (∀ t ∈ errors during, '\x00' ∉ t) → pieces '\x00' new = errors during) := by
  have h1 : Fresh (runs W before) := by intro n; rw [runs_site]; exact hW n
  have ho : Open (startBackup (runs W before) w) w (decide (0 < f)) f := h1.open w f (fun n => by rw [runs_site]; exact hf n)
  have ho2 : Open (runs (startBackup (runs W before) w) during) w (decide (0 < f)) f := by
    constructor <;> rw [runs_site]
    · exact ho.writer
    · exact ho.isWriter
    · exact ho.logOpen
    · exact ho.errOpen
    · exact ho.file
  have hfr := finish_nobody ho2
  have h3 := runs_nobody (fun n => ⟨(hfr n).1, (hfr n).2.1⟩) after
  have h0 := runs_nobody (fun n => ⟨(hW n).1, (hW n).2.1⟩) before
  have hn : (runs W before).nullSeparator = W.nullSeparator := runs_null W before
  refine ⟨if x = w then (errors during).flatMap (errLine W.nullSeparator) else [], ?_, ?_, ?_, ?_⟩
  · show (runs (finish _ w) after).errFile x = _
    rw [h3.2]
    show (runs (startBackup (runs W before) w) during).errFile x = _
    rw [runs_errFile ho, (startBackup_rest _ w).2.1, h0.2, (startBackup_rest _ w).2.2.2.2.2, hn]
  · intro hx; rw [if_neg hx]
  · intro hx hb; rw [if_pos hx, hb, pieces_errLines]
  · intro hx hb hz; rw [if_pos hx, hb, pieces_errLines_null _ hz]

/-- C84 What is shown during a backup: at each place the messages which arose there – an error is told by the writer – and which are important enough for its
terminal, each once, in their order; errors and warnings and all that a server has to say on standard error, the rest on standard output. -/
theorem shown_partial (W : World) (hW : Fresh W) (w f : Nat) (hf : ∀ n, (W.site n).fileVerbosity = f) (es : List Event)
    (he : ∀ s ty v m, Event.exception s ty v m ∈ es → ty = .normal ∨ v ≠ (W.site s).termVerbosity) (x : Nat) :
    (runs (startBackup W w) es).out x = W.out x ++ shown (fun n => (W.site n).parsable) (termText W.fill (W.site x)) (W.site x).termVerbosity (atBackup w)
        (fun v => !(grave v || (W.site x).server)) x es ∧
    (runs (startBackup W w) es).err x = W.err x ++ shown (fun n => (W.site n).parsable) (termText W.fill (W.site x)) (W.site x).termVerbosity (atBackup w)
        (fun v => grave v || (W.site x).server) x es := by
  have ho := hW.open w f hf
  have hr := startBackup_rest W w
  have hp : (fun n => ((startBackup W w).site n).parsable) = fun n => (W.site n).parsable := by
    funext n; exact (startBackup_parsable W w n).1
  have hx := startBackup_parsable W w x
  have ht : termText W.fill ((startBackup W w).site x) = termText W.fill (W.site x) := by
    funext v m; simp only [termText, hx.1, hx.2.1, hx.2.2.1]
  have hq : ∀ e ∈ es, plain (startBackup W w) e := by
    intro e hm
    cases e with
    | exception s ty v m =>
      have := he s ty v m hm
      simpa only [plain, (startBackup_parsable W w s).2.2.1] using this
    | _ => trivial
  have := runs_shown ho es hq x
  simp only [toErr, hp, hr.2.2.1, hr.2.2.2.1, hr.2.2.2.2.1, hx.2.2.1, hx.2.2.2, ht] at this
  exact this

/-- C84 The same when no file is open: errors are told where they arise, too. -/
theorem shown_alone_partial (W : World) (hW : Fresh W) (es : List Event)
    (he : ∀ s ty v m, Event.exception s ty v m ∈ es → ty = .normal ∨ v ≠ (W.site s).termVerbosity) (x : Nat) :
    (runs W es).out x = W.out x ++ shown (fun n => (W.site n).parsable) (termText W.fill (W.site x)) (W.site x).termVerbosity place
        (fun v => !(grave v || (W.site x).server)) x es ∧
    (runs W es).err x = W.err x ++ shown (fun n => (W.site n).parsable) (termText W.fill (W.site x)) (W.site x).termVerbosity place
        (fun v => grave v || (W.site x).server) x es := by
  apply runs_shown_fresh hW
  intro e hm
  cases e with
  | exception s ty v m => exact he s ty v m hm
  | _ => trivial

/-- C84 A server writes nothing on its standard output, whatever happens: the protocol of the connection isn't disturbed. -/
theorem server_quiet (W : World) (as : List Act) (x : Nat) (hx : (W.site x).server = true) : (acts W as).out x = W.out x :=
  acts_out_server hx as

/-- C84 As long as the verbosity is at most 8, the level and the text of a one-line message can be told from its line. -/
theorem told_apart (stamp stamp' : Text) (f v v' : Nat) (m m' : Text) (hf : f ≤ 8) (hv : v ∈ [1, 2, 3, 5, 8]) (hv' : v' ∈ [1, 2, 3, 5, 8])
    (hm : '\n' ∉ m) (hm' : '\n' ∉ m') (h : format stamp f v m = format stamp' f v' m') : v = v' ∧ m = m' := by
  have h1 : ∀ (s : Text) (u : Nat) (t : Text), u ∈ [1, 2, 3, 5, 8] → '\n' ∉ t → format s f u t = pad9 (pre u) ++ t ++ ['\n'] := by
    intro s u t hu ht
    have : ¬ (u = NONE ∨ (u = INFO ∧ '\n' ∈ t.dropLast)) := by
      rintro (h0 | ⟨_, h0⟩)
      · rw [h0] at hu; revert hu; decide
      · exact ht (List.dropLast_subset _ h0)
    simp only [format]
    rw [if_pos (show f ≤ DEBUG from hf), if_neg this]
  rw [h1 _ _ _ hv hm, h1 _ _ _ hv' hm'] at h
  have h2 := List.append_cancel_right h
  have len : ∀ u ∈ [1, 2, 3, 5, 8], (pad9 (pre u)).length = 9 := by decide
  have h3 := List.append_inj h2 ((len v hv).trans (len v' hv').symm)
  refine ⟨?_, h3.2⟩
  have key : ∀ a ∈ [1, 2, 3, 5, 8], ∀ b ∈ [1, 2, 3, 5, 8], pad9 (pre a) = pad9 (pre b) → a = b := by decide
  exact key v hv v' hv' h3.1

/-- C84 What a terminal gets is the line of the message, but for how it is broken and indented, provided that `textwrap.fill` changes nothing but that. -/
theorem screen_words (blank : Char → Bool) (hb : blank '\n' = true) (fill : Text → Text) (hfill : ∀ t, (fill t).filter (fun c => !blank c) = t.filter fun c => !blank c)
    (S : Site) (v : Nat) (m : Text) :
    (termText fill S v m).filter (fun c => !blank c) = (format S.stamp S.termVerbosity v m).filter fun c => !blank c := by
  simp only [termText]
  split
  · rw [List.filter_append, hfill]; simp [hb]
  · rfl

/-- C84 A terminal gets the lines of `format` as they are with `--parsable-output`, in debugging, and for what has no level: the output proper, statistics and lists. -/
theorem screen_exact (fill : Text → Text) (S : Site) (v : Nat) (m : Text) (h : v = 0 ∨ S.parsable = true ∨ 8 ≤ S.termVerbosity ∨ '\n' ∈ m.dropLast) :
    termText fill S v m = format S.stamp S.termVerbosity v m := by
  simp only [termText]
  split
  · next hc =>
    obtain ⟨h1, h2, h3, h4⟩ := hc
    rcases h with h | h | h | h
    · exact absurd h h1
    · rw [h2] at h; simp at h
    · exact absurd h (by simp only [DEBUG] at h3; omega)
    · exfalso
      have hsub : ∀ p : Text, '\n' ∈ (p ++ m ++ ['\n']).dropLast := by
        intro p
        rw [List.dropLast_concat]
        exact List.mem_append_right _ (List.dropLast_subset _ h)
      apply h4
      simp only [format]
      split
      · split
        · simpa using hsub []
        · exact hsub _
      · exact hsub (S.stamp ++ "  ".toList ++ pre v ++ [' '])
  · rfl

/-- C84 The output proper is printed as it is, as a line. -/
theorem printed_as_is (fill : Text → Text) (S : Site) (hS : S.termVerbosity ≤ 8) (m : Text) : termText fill S 0 m = m ++ ['\n'] := by
  rw [screen_exact fill S 0 m (.inl rfl)]
  simp only [format]
  rw [if_pos (show S.termVerbosity ≤ DEBUG from hS), if_pos (.inl rfl)]

/-- C84 Other messages of one line are broken to the width of the terminal. -/
theorem folded (fill : Text → Text) (S : Site) (v : Nat) (m : Text) (hv : v ≠ 0) (hp : S.parsable = false) (hS : S.termVerbosity < 8)
    (hm : '\n' ∉ (format S.stamp S.termVerbosity v m).dropLast) :
    termText fill S v m = fill (format S.stamp S.termVerbosity v m) ++ ['\n'] := by
  simp only [termText]
  rw [if_pos ⟨hv, hp, hS, hm⟩]

/-! ## The verbosities -/

/-- the verbosity which is meant, if it is one -/
def meant (int : Text → Option Int) (i : Input) : Option Nat :=
  match (match i with | .number i => some i | .text t => int t) with
  | some v => if v ∈ [(0 : Int), 1, 2, 3, 4, 5, 6, 7, 8, 9] then some v.toNat else none
  | none => none

theorem digit_iff (v : Int) : v ∈ [(0 : Int), 1, 2, 3, 4, 5, 6, 7, 8, 9] ↔ 0 ≤ v ∧ v ≤ 9 := by
  simp only [List.mem_cons, List.not_mem_nil, or_false]; omega

theorem validate_some {int : Text → Option Int} {i : Input} {v : Nat} (h : meant int i = some v) (W : World) (s : Nat) :
    validateVerbosity int W s i = (W, some v) := by
  have key : ∀ x : Int, (if x ∈ [(0 : Int), 1, 2, 3, 4, 5, 6, 7, 8, 9] then some x.toNat else none) = some v → (0 ≤ x ∧ x ≤ 9) ∧ x.toNat = v := by
    intro x h
    split at h
    · next hv => exact ⟨(digit_iff x).1 hv, by simpa using h⟩
    · simp at h
  cases i with
  | number x =>
    obtain ⟨h1, h2⟩ := key x h
    simp only [validateVerbosity, if_pos h1, h2]
  | text t =>
    simp only [meant] at h
    unfold validateVerbosity
    dsimp only
    cases hi : int t with
    | none => rw [hi] at h; simp at h
    | some x =>
      rw [hi] at h
      obtain ⟨h1, h2⟩ := key x h
      dsimp only
      rw [if_pos h1, h2]

theorem validate_none {int : Text → Option Int} {i : Input} (h : meant int i = none) (W : World) (s : Nat) :
    ∃ m, validateVerbosity int W s i = (log W s 1 m, none) := by
  have key : ∀ x : Int, (if x ∈ [(0 : Int), 1, 2, 3, 4, 5, 6, 7, 8, 9] then some x.toNat else none) = none → ¬(0 ≤ x ∧ x ≤ 9) := by
    intro x h hx
    rw [if_pos ((digit_iff x).2 hx)] at h
    simp at h
  unfold validateVerbosity
  cases i with
  | number x =>
    dsimp only
    rw [if_neg (key x h)]
    exact ⟨_, rfl⟩
  | text t =>
    simp only [meant] at h
    dsimp only
    cases hi : int t with
    | none => exact ⟨_, rfl⟩
    | some x =>
      rw [hi] at h
      dsimp only
      rw [if_neg (key x h)]
      exact ⟨_, rfl⟩

/-- C84 Verbosities from 0 to 9 are taken over – that for the terminals is that for the log if none is given –, nothing else changes and nothing is said. -/
theorem verbosity_set (int : Text → Option Int) (W : World) (s : Nat) (file : Input) (term : Option Input) {f t : Nat} (hf : meant int file = some f)
    (ht : term.elim (some f) (meant int) = some t) :
    setVerbosity int W s file term =
      ({ W with site := fun n => if n = s then { W.site s with fileVerbosity := f, termVerbosity := t } else W.site n }, true) := by
  have key : setFileVerbosity (setTermVerbosity W s t) s f =
      { W with site := fun n => if n = s then { W.site s with fileVerbosity := f, termVerbosity := t } else W.site n } := by
    simp only [setFileVerbosity, setTermVerbosity, World.mk.injEq, and_true]
    funext n
    by_cases h : n = s <;> simp [h]
  unfold setVerbosity
  rw [validate_some hf]
  cases term with
  | none =>
    simp only [Option.elim_none, Option.some.injEq] at ht
    subst ht
    simp only [key]
  | some x =>
    simp only [Option.elim_some] at ht
    simp only [validate_some ht, key]

/-- C84 If one of them isn't a verbosity, none is taken over; the user is told, once, and the call fails. -/
theorem verbosity_refused (int : Text → Option Int) (W : World) (s : Nat) (file : Input) (term : Option Input)
    (h : meant int file = none ∨ ∃ t, term = some t ∧ meant int t = none) :
    ∃ m, setVerbosity int W s file term = (log W s 1 m, false) := by
  unfold setVerbosity
  by_cases hf : meant int file = none
  · obtain ⟨m, hm⟩ := validate_none hf W s
    rw [hm]; exact ⟨m, rfl⟩
  · obtain ⟨v, hv⟩ := Option.ne_none_iff_exists'.1 hf
    rw [validate_some hv]
    rcases h with h | ⟨t, rfl, ht⟩
    · exact absurd h hf
    · obtain ⟨m, hm⟩ := validate_none ht W s
      simp only [hm]; exact ⟨m, rfl⟩

/-- a process with other settings -/
def tuned (f t : Nat) (p : Bool) (S : Site) : Site := { S with fileVerbosity := f, termVerbosity := t, parsable := p }

/-- all other processes get the settings of the client when they are connected -/
def connect (int : Text → Option Int) (W : World) (ns : List Nat) : World := ns.foldl (initConnection int) W

theorem initConnection_site (int : Text → Option Int) (W : World) (n : Nat) (h0 : (W.site 0).fileVerbosity ≤ 9 ∧ (W.site 0).termVerbosity ≤ 9) :
    initConnection int W n =
      { W with site := fun m => if m = n then tuned (W.site 0).fileVerbosity (W.site 0).termVerbosity (W.site 0).parsable (W.site m) else W.site m } := by
  have hm : ∀ v : Nat, v ≤ 9 → meant int (.number v) = some v := by
    intro v hv
    simp only [meant, digit_iff]
    rw [if_pos (by omega)]; simp
  unfold initConnection
  rw [verbosity_set int W n _ (some (.number (W.site 0).termVerbosity)) (hm _ h0.1) (t := (W.site 0).termVerbosity) (hm _ h0.2)]
  simp only [setParsable, World.mk.injEq, and_true]
  funext m
  by_cases h : m = n
  · subst h
    by_cases hz : (0 : Nat) = m
    · subst hz; simp [tuned]
    · simp [hz, tuned]
  · simp [h]

/-- C84 When the client's verbosities are ones, all processes connected then have them, and what the client has for `--parsable-output`; their other settings, and
the other processes', are as before. -/
theorem same_verbosity (int : Text → Option Int) (W : World) (ns : List Nat) (h0 : (W.site 0).fileVerbosity ≤ 9 ∧ (W.site 0).termVerbosity ≤ 9) :
    connect int W ns =
      { W with site := fun m => if m ∈ ns then tuned (W.site 0).fileVerbosity (W.site 0).termVerbosity (W.site 0).parsable (W.site m) else W.site m } := by
  unfold connect
  induction ns generalizing W with
  | nil => simp
  | cons n ns ih =>
    have hz : ((initConnection int W n).site 0).fileVerbosity = (W.site 0).fileVerbosity ∧
        ((initConnection int W n).site 0).termVerbosity = (W.site 0).termVerbosity ∧ ((initConnection int W n).site 0).parsable = (W.site 0).parsable := by
      rw [initConnection_site int W n h0]
      by_cases h : (0 : Nat) = n
      · subst h; simp [tuned]
      · simp [h]
    rw [List.foldl_cons, ih _ (by rw [hz.1, hz.2.1]; exact h0), hz.1, hz.2.1, hz.2.2, initConnection_site int W n h0]
    simp only [World.mk.injEq, and_true]
    funext m
    by_cases h1 : m ∈ ns <;> by_cases h2 : m = n <;> simp [h1, h2, tuned]

/-- C84 The log of a backup as in `backup_log`, from the command line on: with the verbosity `file` which the user gave, and all processes but the client connected. -/
theorem backup_log_set (int : Text → Option Int) (W : World) (hW : Fresh W) (file : Input) (term : Option Input) {f t : Nat}
    (hf : meant int file = some f) (ht : term.elim (some f) (meant int) = some t) (ns : List Nat) (w : Nat)
    (hns : ∀ n, n = 0 ∨ n ∈ ns ∨ (W.site n).fileVerbosity = f) (before during after : List Event) (x : Nat) :
    let W' := connect int (setVerbosity int W 0 file term).1 ns
    (session W' w before during after).logFile x =
      W.logFile x ++ if x = w ∧ 0 < f then logText (fun n => (W'.site n).parsable) (format (W.site w).stamp f) f during else [] := by
  have hle : ∀ i v, meant int i = some v → v ≤ 9 := by
    intro i v h
    unfold meant at h
    split at h
    · split at h
      · next hv => have := (digit_iff _).1 hv; simp only [Option.some.injEq] at h; omega
      · simp at h
    · simp at h
  have ht9 : t ≤ 9 := by
    cases term with
    | none => simp only [Option.elim_none, Option.some.injEq] at ht; have := hle _ _ hf; omega
    | some i => exact hle i t ht
  intro W'
  have e : W' = { W with site := fun n => if n ∈ ns then tuned f t (W.site 0).parsable (W.site n) else if n = 0 then
      { W.site 0 with fileVerbosity := f, termVerbosity := t } else W.site n } := by
    simp only [W']
    rw [verbosity_set int W 0 file term hf ht, same_verbosity int _ ns (by simpa using ⟨hle _ _ hf, ht9⟩)]
    simp only [World.mk.injEq, and_true]
    funext n
    by_cases h1 : n ∈ ns <;> by_cases h2 : n = 0 <;> simp [h1, h2, tuned]
  clear_value W'
  have h1 : Fresh W' := by
    intro n
    have := hW n
    rw [e]
    by_cases h1 : n ∈ ns <;> by_cases h2 : n = 0 <;> simp [h1, h2, tuned] <;> simpa [h2] using this
  have h2 : ∀ n, (W'.site n).fileVerbosity = f := by
    intro n
    rw [e]
    by_cases h1 : n ∈ ns <;> by_cases h2 : n = 0 <;> simp [h1, h2, tuned]
    rcases hns n with h | h | h
    · exact absurd h h2
    · exact absurd h h1
    · exact h
  have h3 : (W'.site w).stamp = (W.site w).stamp := by
    rw [e]
    by_cases h1 : w ∈ ns <;> by_cases h2 : w = 0 <;> simp [h1, h2, tuned]
  have h4 : W'.logFile = W.logFile := by rw [e]
  rw [backup_log W' h1 w f h2, h3, h4]

example : meant (fun t => if t = "3".toList then some 3 else none) (.text "3".toList) = some 3 ∧ meant (fun _ => none) (.text "x".toList) = none ∧
    meant (fun _ => none) (.number 10) = none ∧ meant (fun _ => none) (.number (-1)) = none := by decide +kernel

/-! ## The code differs -/

/-- three processes: the client, the server at the source (1) and the one at the repository (2); the verbosities are 3 for the log and 5 for the terminals -/
def three : World :=
  { site := fun n => { server := decide (n ≠ 0), fileVerbosity := 3, termVerbosity := 5, parsable := false, stamp := "".toList,
                       isWriter := false, writer := none, logOpen := false, errOpen := false },
    logFile := fun _ => [], errFile := fun _ => [], out := fun _ => [], err := fun _ => [], nullSeparator := false, fill := fun t => t.dropLast }

example : Fresh three := by intro n; exact ⟨rfl, rfl, rfl, rfl⟩

/-- C84 `regress.log` and `remove.log` are opened, but nothing is ever written into them: nobody has been told to write. -/
theorem single_log_empty (W : World) (hW : Fresh W) (w : Nat) (es : List Event) :
    (runs (startSingle W w) es).logFile = W.logFile := by
  have hn : Nobody (startSingle W w) := by
    intro n
    simp only [startSingle, setLogOpen]
    split
    · exact ⟨(hW n).1, (hW n).2.1⟩
    · exact ⟨(hW n).1, (hW n).2.1⟩
  rw [(runs_nobody hn es).1]
  simp only [startSingle, setLogOpen]; split <;> rfl

/-- C84 so a warning of a regression, say, which `backup.log` would have got, is missing in `regress.log`. -/
theorem single_log_misses : (three.site 0).fileVerbosity ≥ 2 ∧
    (runs (startSingle three 0) [.log 0 2 "odd".toList]).logFile 0 = [] ∧
    (runs (startBackup three 0) [.log 0 2 "odd".toList]).logFile 0 = "WARNING: odd\n".toList := by decide

/-- C84 An exception which isn't to be written into a log isn't shown if its level equals the verbosity, whereas another message of this level is. -/
theorem exception_not_shown : (three.site 0).termVerbosity = 5 ∧
    (runs three [.exception 0 .noFile 5 "bad".toList]).out 0 = [] ∧ (runs three [.exception 0 .normal 5 "bad".toList]).out 0 ≠ [] := by decide

/-! ## The theorems speak about something -/

def some_ : List Event :=
  [.log 1 3 "hello".toList, .error 1 "UpdateError: a b\nc".toList, .log 2 5 "detail".toList, .exception 0 .noFile 2 "boom".toList, .log 0 1 "bad".toList,
   .exception 2 .local_ 2 "more".toList]

example : String.ofList ((session three 2 [.log 0 1 "early".toList] some_ [.log 0 1 "late".toList]).logFile 2) =
    "NOTE:    hello\nWARNING: UpdateError: a b\nc\nERROR:   bad\nWARNING: more\n" := by decide +kernel
example : String.ofList ((session three 2 [] some_ []).errFile 2) = "UpdateError: a b c\n" := by decide +kernel
example : (session three 2 [] some_ []).logFile 0 = [] ∧ (session three 2 [] some_ []).errFile 1 = [] := by decide +kernel
example : String.ofList ((runs (startBackup three 2) some_).err 2) = "WARNING: UpdateError: a b\nc\n*        detail\nWARNING: more\n" ∧
    String.ofList ((runs (startBackup three 2) some_).err 0) = "WARNING: boom\nERROR:   bad\n" ∧ (runs (startBackup three 2) some_).out 0 = [] := by decide +kernel
example : ∀ s ty v m, Event.exception s ty v m ∈ some_ → ty = .normal ∨ v ≠ (three.site s).termVerbosity := by
  intro s ty v m h; simp [some_] at h; rcases h with h | h <;> right <;> (rw [h.2.2.1]; exact (by decide : (2 : Nat) ≠ 5))
example : (acts three [.startBackup 2, .event (.log 1 5 "x".toList), .finish 2]).out 1 = [] := by decide +kernel
example : '\n' ∉ "a message".toList ∧ format [] 3 2 "a message".toList = "WARNING: a message\n".toList := by decide
/-- the digits which `int` takes -/
def digit (t : Text) : Option Int := if t = "5".toList then some 5 else if t = "12".toList then some 12 else none
example : String.ofList ((session (connect digit (setVerbosity digit three 0 (.text "5".toList) none).1 [1, 2]) 2 [] some_ []).logFile 2) =
    "NOTE:    hello\nWARNING: UpdateError: a b\nc\n*        detail\nERROR:   bad\nWARNING: more\n" := by decide +kernel
example : (setVerbosity digit three 0 (.text "5".toList) (some (.text "12".toList))).2 = false ∧
    ((setVerbosity digit three 0 (.text "5".toList) (some (.text "12".toList))).1.site 0).fileVerbosity = 3 ∧
    String.ofList ((setVerbosity digit three 0 (.text "5".toList) (some (.text "12".toList))).1.err 0) =
      "ERROR:   Verbosity must be between 0 and 9, received '12' instead\n" := by decide +kernel

end Verif.C84
