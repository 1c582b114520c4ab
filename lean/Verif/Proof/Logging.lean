import Mathlib.Tactic.Tauto
import Verif.Spec.Logging

namespace Verif.Logging
open Verif.Spec.Logging

theorem logToTerm_site (W : World) (s v : Nat) (m : Text) : (logToTerm W s v m).site = W.site := by
  simp only [logToTerm]; split <;> rfl

theorem log_site (W : World) (s v : Nat) (m : Text) : (log W s v m).site = W.site := by
  simp only [log]
  split
  · rfl
  · have h : ∀ W' : World, W'.site = W.site → (if v ≤ (W.site s).termVerbosity then logToTerm W' s v m else W').site = W.site := by
      intro W' h; split
      · rw [logToTerm_site, h]
      · exact h
    apply h
    split
    · split
      · rfl
      · split <;> rfl
    · rfl

theorem exception_site (W : World) (s : Nat) (ty : LogType) (v : Nat) (m : Text) : (exception W s ty v m).site = W.site := by
  simp only [exception]
  split
  · exact log_site _ _ _ _
  · split
    · rfl
    · exact logToTerm_site _ _ _ _

theorem errToFile_site (W : World) (w : Nat) (t : Text) : (errToFile W w t).site = W.site := by
  simp only [errToFile]; exact log_site _ _ _ _

theorem error_site (W : World) (s : Nat) (t : Text) : (error W s t).site = W.site := by
  simp only [error]
  split
  · split
    · exact errToFile_site _ _ _
    · split
      · exact errToFile_site _ _ _
      · rfl
  · exact log_site _ _ _ _

theorem step_site (W : World) (e : Event) : (step W e).site = W.site := by
  cases e
  · exact log_site _ _ _ _
  · exact error_site _ _ _
  · exact exception_site _ _ _ _ _

theorem logToTerm_fill (W : World) (s v : Nat) (m : Text) : (logToTerm W s v m).fill = W.fill ∧ (logToTerm W s v m).nullSeparator = W.nullSeparator := by
  simp only [logToTerm]; split <;> exact ⟨rfl, rfl⟩

theorem log_fill (W : World) (s v : Nat) (m : Text) : (log W s v m).fill = W.fill ∧ (log W s v m).nullSeparator = W.nullSeparator := by
  simp only [log]
  split
  · exact ⟨rfl, rfl⟩
  · have h : ∀ W' : World, (W'.fill = W.fill ∧ W'.nullSeparator = W.nullSeparator) →
        ((if v ≤ (W.site s).termVerbosity then logToTerm W' s v m else W').fill = W.fill ∧
          (if v ≤ (W.site s).termVerbosity then logToTerm W' s v m else W').nullSeparator = W.nullSeparator) := by
      intro W' h; split
      · rw [(logToTerm_fill _ _ _ _).1, (logToTerm_fill _ _ _ _).2]; exact h
      · exact h
    apply h
    split
    · split
      · exact ⟨rfl, rfl⟩
      · split <;> exact ⟨rfl, rfl⟩
    · exact ⟨rfl, rfl⟩

theorem step_fill (W : World) (e : Event) : (step W e).fill = W.fill ∧ (step W e).nullSeparator = W.nullSeparator := by
  cases e with
  | log s v m => exact log_fill _ _ _ _
  | error s t =>
    simp only [step, error]
    split
    · split
      · simp only [errToFile]; exact log_fill _ _ _ _
      · split
        · simp only [errToFile]; exact log_fill _ _ _ _
        · exact ⟨rfl, rfl⟩
    · exact log_fill _ _ _ _
  | exception s ty v m =>
    simp only [step, exception]
    split
    · exact log_fill _ _ _ _
    · split
      · exact ⟨rfl, rfl⟩
      · exact logToTerm_fill _ _ _ _

theorem logToTerm_files (W : World) (s v : Nat) (m : Text) : (logToTerm W s v m).logFile = W.logFile ∧ (logToTerm W s v m).errFile = W.errFile := by
  simp only [logToTerm]; split <;> exact ⟨rfl, rfl⟩

theorem log_errFile (W : World) (s v : Nat) (m : Text) : (log W s v m).errFile = W.errFile := by
  simp only [log]
  split
  · rfl
  · have h : ∀ W' : World, W'.errFile = W.errFile → (if v ≤ (W.site s).termVerbosity then logToTerm W' s v m else W').errFile = W.errFile := by
      intro W' h; split
      · rw [(logToTerm_files _ _ _ _).2, h]
      · exact h
    apply h
    split
    · split
      · rfl
      · split <;> rfl
    · rfl

theorem flatMap_joined (m : Text) : (m.flatMap fun c => if c = '\n' then " | ".toList else [c]) = joined m := rfl

theorem upd_append {A : Type} (f : Nat → List A) (n x : Nat) (l : List A) : upd f n (f n ++ l) x = f x ++ if x = n then l else [] := by
  unfold upd
  split
  · next h => rw [h]
  · simp

/-- what happens in a backup: all know that `w` writes; `lo`: whether there is a log -/
structure Open (W : World) (w : Nat) (lo : Bool) (f : Nat) : Prop where
  writer : ∀ n, (W.site n).writer = some w
  isWriter : ∀ n, (W.site n).isWriter = decide (n = w)
  logOpen : ∀ n, (W.site n).logOpen = lo
  errOpen : ∀ n, (W.site n).errOpen = true
  file : ∀ n, (W.site n).fileVerbosity = f

theorem Open.step {W : World} {w : Nat} {lo : Bool} {f : Nat} (h : Open W w lo f) (e : Event) : Open (step W e) w lo f := by
  have := step_site W e
  constructor <;> rw [this]
  · exact h.writer
  · exact h.isWriter
  · exact h.logOpen
  · exact h.errOpen
  · exact h.file

theorem log_logFile {W : World} {w : Nat} {lo : Bool} {f : Nat} (h : Open W w lo f) (s v : Nat) (m : Text) (x : Nat) :
    (log W s v m).logFile x = W.logFile x ++ if x = w ∧ lo = true ∧ v ≤ f then format (W.site w).stamp f v m else [] := by
  have e1 : ∀ W' : World, (if v ≤ (W.site s).termVerbosity then logToTerm W' s v m else W').logFile = W'.logFile := by
    intro W'; split
    · rw [(logToTerm_files _ _ _ _).1]
    · rfl
  simp only [log, h.file, h.logOpen, h.writer, h.isWriter]
  split
  · next hv => rw [if_neg (by omega)]; simp
  · rw [e1]
    split
    · next hv =>
      have : ∀ a : World, (if (decide (s = w)) = true then logToFile W s v m else logToFile W w v m) = logToFile W w v m := by
        intro _; split
        · next hs => rw [of_decide_eq_true hs]
        · rfl
      rw [this W]
      simp only [logToFile, upd_append, h.file]
      congr 1
      by_cases hx : x = w
      · rw [if_pos hx, if_pos ⟨hx, hv.2, hv.1⟩]
      · rw [if_neg hx, if_neg (fun hh => hx hh.1)]
    · next hv => rw [if_neg (by tauto)]; simp

theorem exception_logFile {W : World} {w : Nat} {lo : Bool} {f : Nat} (h : Open W w lo f) (s : Nat) (ty : LogType) (v : Nat) (m : Text) (x : Nat) :
    (exception W s ty v m).logFile x = W.logFile x ++ if x = w ∧ lo = true ∧ ty ≠ .noFile ∧ v ≤ f then
      format (W.site w).stamp f v (if (W.site s).parsable then joined m else m) else [] := by
  simp only [exception, h.logOpen]
  split
  · next ht =>
    have hn : ty ≠ .noFile := by rcases ht with h1 | h1
                                 · rw [h1]; decide
                                 · rw [h1.1]; decide
    rw [log_logFile h, flatMap_joined]
    by_cases hx : x = w ∧ lo = true ∧ v ≤ f
    · rw [if_pos hx, if_pos (And.intro hx.1 (And.intro hx.2.1 (And.intro hn hx.2.2)))]
    · rw [if_neg hx, if_neg (fun hh => hx ⟨hh.1, hh.2.1, hh.2.2.2⟩)]
  · next ht =>
    have : ¬ (x = w ∧ lo = true ∧ ty ≠ .noFile ∧ v ≤ f) := by
      rintro ⟨_, h1, h2, _⟩
      cases ty <;> simp_all
    rw [if_neg this]
    split
    · simp
    · rw [(logToTerm_files _ _ _ _).1]; simp

theorem errOpen_error {W : World} {w : Nat} {lo : Bool} {f : Nat} (h : Open W w lo f) (s : Nat) (t : Text) : error W s t = errToFile W w t := by
  simp only [error, h.errOpen, h.isWriter, h.writer, if_true]
  split
  · next hs => rw [of_decide_eq_true hs]
  · rfl

theorem errToFile_logFile {W : World} {w : Nat} {lo : Bool} {f : Nat} (h : Open W w lo f) (t : Text) (x : Nat) :
    (errToFile W w t).logFile x = W.logFile x ++ if x = w ∧ lo = true ∧ 2 ≤ f then format (W.site w).stamp f 2 t else [] := by
  simp only [errToFile]
  exact log_logFile h w WARNING t x

theorem logText_one (p : Nat → Bool) (g : Nat → Text → Text) (f : Nat) (e : Event) :
    logText p g f [e] = if fileable e = true ∧ level e ≤ f then g (level e) (words p e) else [] := by
  simp only [logText, List.filter_cons, Bool.and_eq_true, decide_eq_true_eq]
  split <;> simp

/-- one more event, and the log -/
theorem step_logFile {W : World} {w : Nat} {lo : Bool} {f : Nat} (h : Open W w lo f) (e : Event) (x : Nat) :
    (step W e).logFile x = W.logFile x ++ if x = w ∧ lo = true then
      logText (fun n => (W.site n).parsable) (format (W.site w).stamp f) f [e] else [] := by
  rw [logText_one]
  have key : (step W e).logFile x = W.logFile x ++ if x = w ∧ lo = true ∧ fileable e = true ∧ level e ≤ f then
      format (W.site w).stamp f (level e) (words (fun n => (W.site n).parsable) e) else [] := by
    cases e with
    | log s v m => simp [step, log_logFile h, fileable, level, words]
    | error s t => simp [step, errOpen_error h, errToFile_logFile h, fileable, level, words]
    | exception s ty v m =>
      simp only [step, exception_logFile h, level, words]
      cases ty <;> simp [fileable]
  rw [key]
  by_cases hx : x = w ∧ lo = true
  · simp only [hx.1, hx.2, true_and, and_self, if_true]
  · rw [if_neg hx, if_neg (fun hh => hx ⟨hh.1, hh.2.1⟩)]

theorem logText_cons (p : Nat → Bool) (g : Nat → Text → Text) (f : Nat) (e : Event) (es : List Event) :
    logText p g f (e :: es) = logText p g f [e] ++ logText p g f es := by
  simp only [logText, List.filter_cons]
  split <;> simp

theorem runs_site (W : World) (es : List Event) : (runs W es).site = W.site := by
  induction es generalizing W with
  | nil => rfl
  | cons e es ih => exact (ih (step W e)).trans (step_site W e)

theorem runs_logFile {W : World} {w : Nat} {lo : Bool} {f : Nat} (h : Open W w lo f) (es : List Event) (x : Nat) :
    (runs W es).logFile x = W.logFile x ++ if x = w ∧ lo = true then
      logText (fun n => (W.site n).parsable) (format (W.site w).stamp f) f es else [] := by
  induction es generalizing W with
  | nil => simp [runs, logText]
  | cons e es ih =>
    show (runs (step W e) es).logFile x = _
    rw [ih (h.step e), step_logFile h, step_site, logText_cons _ _ _ e es]
    split <;> simp

theorem runs_null (W : World) (es : List Event) : (runs W es).nullSeparator = W.nullSeparator := by
  induction es generalizing W with
  | nil => rfl
  | cons e es ih => exact (ih (step W e)).trans (step_fill W e).2

/-- the separator and what becomes of a text -/
def errLine (null : Bool) (t : Text) : Text :=
  if null then t ++ ['\x00'] else t.map (fun c => if c = '\n' then ' ' else c) ++ ['\n']

theorem step_errFile {W : World} {w : Nat} {lo : Bool} {f : Nat} (h : Open W w lo f) (e : Event) (x : Nat) :
    (step W e).errFile x = W.errFile x ++ if x = w then (errors [e]).flatMap (errLine W.nullSeparator) else [] := by
  cases e with
  | log s v m => simp [step, log_errFile, errors]
  | error s t =>
    simp only [step, errOpen_error h, errToFile, log_errFile, (log_fill _ _ _ _).2, upd_append, errors]
    simp [errLine]
  | exception s ty v m =>
    have : (exception W s ty v m).errFile = W.errFile := by
      simp only [exception]
      split
      · exact log_errFile _ _ _ _
      · split
        · rfl
        · exact (logToTerm_files _ _ _ _).2
    simp [step, this, errors]

theorem errors_cons (e : Event) (es : List Event) : errors (e :: es) = errors [e] ++ errors es := by
  cases e <;> simp [errors]

theorem runs_errFile {W : World} {w : Nat} {lo : Bool} {f : Nat} (h : Open W w lo f) (es : List Event) (x : Nat) :
    (runs W es).errFile x = W.errFile x ++ if x = w then (errors es).flatMap (errLine W.nullSeparator) else [] := by
  induction es generalizing W with
  | nil => simp [runs, errors]
  | cons e es ih =>
    show (runs (step W e) es).errFile x = _
    rw [ih (h.step e), step_errFile h, (step_fill W e).2, errors_cons e es]
    split <;> simp

theorem pieces_append (c : Char) (p : Text) (hp : c ∉ p) (t : Text) : pieces c (p ++ c :: t) = p :: pieces c t := by
  induction p with
  | nil => simp [pieces]
  | cons x p ih =>
    have hx : x ≠ c := fun e => hp (by simp [e])
    show pieces c (x :: (p ++ c :: t)) = _
    rw [pieces, if_neg hx, ih (fun hh => hp (List.mem_cons_of_mem _ hh))]

theorem pieces_errLines (ts : List Text) : pieces '\n' (ts.flatMap (errLine false)) = ts.map fun t => t.map fun c => if c = '\n' then ' ' else c := by
  induction ts with
  | nil => simp [pieces]
  | cons t ts ih =>
    rw [List.flatMap_cons, List.map_cons, ← ih]
    simp only [errLine, Bool.false_eq_true, if_false, List.append_assoc, List.singleton_append]
    apply pieces_append
    intro hm
    obtain ⟨c, _, hc⟩ := List.mem_map.mp hm
    split at hc
    · exact absurd hc (by decide)
    · contradiction

theorem pieces_errLines_null (ts : List Text) (hz : ∀ t ∈ ts, '\x00' ∉ t) : pieces '\x00' (ts.flatMap (errLine true)) = ts := by
  induction ts with
  | nil => simp [pieces]
  | cons t ts ih =>
    have h1 := ih (fun u hu => hz u (List.mem_cons_of_mem _ hu))
    have h2 := pieces_append '\x00' t (hz t (by simp)) (ts.flatMap (errLine true))
    rw [h1] at h2
    rw [List.flatMap_cons, ← h2]
    simp [errLine]

/-! ## The start and the end -/

theorem _root_.Verif.Spec.Logging.Fresh.open {W : World} (h : Fresh W) (w f : Nat) (hf : ∀ n, (W.site n).fileVerbosity = f) : Open (startBackup W w) w (decide (0 < f)) f := by
  have hw : (W.site w).fileVerbosity = f := hf w
  by_cases h0 : 0 < f
  · constructor <;> intro n <;> simp [startBackup, setErrOpen, setLogOpen, hf, h0, (h n).1]
  · constructor <;> intro n <;> simp [startBackup, setErrOpen, hf, h0, (h n).1, (h n).2.2.1]

theorem startBackup_parsable (W : World) (w n : Nat) : ((startBackup W w).site n).parsable = (W.site n).parsable ∧ ((startBackup W w).site n).stamp = (W.site n).stamp ∧
    ((startBackup W w).site n).termVerbosity = (W.site n).termVerbosity ∧ ((startBackup W w).site n).server = (W.site n).server := by
  simp only [startBackup, setErrOpen, setLogOpen]; split <;> exact ⟨rfl, rfl, rfl, rfl⟩

theorem startBackup_rest (W : World) (w : Nat) : (startBackup W w).logFile = W.logFile ∧ (startBackup W w).errFile = W.errFile ∧ (startBackup W w).out = W.out ∧
    (startBackup W w).err = W.err ∧ (startBackup W w).fill = W.fill ∧ (startBackup W w).nullSeparator = W.nullSeparator := by
  simp only [startBackup, setErrOpen, setLogOpen]; split <;> exact ⟨rfl, rfl, rfl, rfl, rfl, rfl⟩

/-! ## Nobody writes -/

theorem log_quiet {W : World} (s v : Nat) (m : Text) (h : (W.site s).logOpen = false ∨ ((W.site s).isWriter = false ∧ (W.site s).writer = none)) :
    (log W s v m).logFile = W.logFile := by
  have e1 : ∀ W' : World, (if v ≤ (W.site s).termVerbosity then logToTerm W' s v m else W').logFile = W'.logFile := by
    intro W'; split
    · rw [(logToTerm_files _ _ _ _).1]
    · rfl
  simp only [log]
  split
  · rfl
  · rw [e1]
    rcases h with h | ⟨h1, h2⟩
    · simp [h]
    · simp [h1, h2]

/-- nobody is told to write -/
def Nobody (W : World) : Prop := ∀ n, (W.site n).isWriter = false ∧ (W.site n).writer = none

theorem step_nobody {W : World} (h : Nobody W) (e : Event) : (step W e).logFile = W.logFile ∧ (step W e).errFile = W.errFile := by
  cases e with
  | log s v m => exact ⟨log_quiet _ _ _ (.inr (h s)), log_errFile _ _ _ _⟩
  | error s t =>
    simp only [step, error, (h s).1, (h s).2]
    split
    · exact ⟨rfl, rfl⟩
    · exact ⟨log_quiet _ _ _ (.inr (h s)), log_errFile _ _ _ _⟩
  | exception s ty v m =>
    simp only [step, exception]
    split
    · exact ⟨log_quiet _ _ _ (.inr (h s)), log_errFile _ _ _ _⟩
    · split
      · exact ⟨rfl, rfl⟩
      · exact logToTerm_files _ _ _ _

theorem runs_nobody {W : World} (h : Nobody W) (es : List Event) : (runs W es).logFile = W.logFile ∧ (runs W es).errFile = W.errFile := by
  induction es generalizing W with
  | nil => exact ⟨rfl, rfl⟩
  | cons e es ih =>
    have h' : Nobody (step W e) := by intro n; rw [step_site]; exact h n
    have := ih h'
    exact ⟨this.1.trans (step_nobody h e).1, this.2.trans (step_nobody h e).2⟩

theorem finish_nobody {W : World} {w : Nat} {lo : Bool} {f : Nat} (h : Open W w lo f) : Fresh (finish W w) := by
  intro n
  simp only [finish, setLogOpen, setErrOpen]
  refine ⟨?_, trivial, trivial, trivial⟩
  split
  · rfl
  · next hn => rw [h.isWriter]; simpa using hn

/-! ## The terminals -/

theorem log_term {W W' : World} {s : Nat} (hs : W'.site = W.site) (hf : W'.fill = W.fill) (v : Nat) (m : Text) (x : Nat) :
    (logToTerm W' s v m).out x = W'.out x ++ (if x = s ∧ ¬ (grave v = true ∨ (W.site s).server = true) then termText W.fill (W.site s) v m else []) ∧
    (logToTerm W' s v m).err x = W'.err x ++ (if x = s ∧ (grave v = true ∨ (W.site s).server = true) then termText W.fill (W.site s) v m else []) := by
  have hg : (v = ERROR ∨ v = WARNING ∨ (W.site s).server = true) ↔ (grave v = true ∨ (W.site s).server = true) := by
    simp [grave, ERROR, WARNING, or_assoc]
  simp only [logToTerm, hs, hf]
  split
  · next h =>
    rw [hg] at h
    simp only [upd_append]
    constructor
    · simp [h]
    · by_cases hx : x = s <;> simp [hx, h]
  · next h =>
    rw [hg] at h
    simp only [upd_append]
    constructor
    · by_cases hx : x = s
      · simp only [hx, h, not_false_eq_true, and_self, if_true]
      · simp only [hx, false_and, if_false]
    · simp [h]

theorem log_shown (W : World) (s v : Nat) (m : Text) (x : Nat) :
    (log W s v m).out x = W.out x ++ (if x = s ∧ v ≤ (W.site s).termVerbosity ∧ ¬ (grave v = true ∨ (W.site s).server = true) then termText W.fill (W.site s) v m else []) ∧
    (log W s v m).err x = W.err x ++ (if x = s ∧ v ≤ (W.site s).termVerbosity ∧ (grave v = true ∨ (W.site s).server = true) then termText W.fill (W.site s) v m else []) := by
  simp only [log]
  split
  · next hv =>
    have h' : ¬ v ≤ (W.site s).termVerbosity := by omega
    simp [h']
  · have key : ∀ W' : World, W'.site = W.site → W'.fill = W.fill → W'.out = W.out → W'.err = W.err →
        ((if v ≤ (W.site s).termVerbosity then logToTerm W' s v m else W').out x = W.out x ++ (if x = s ∧ v ≤ (W.site s).termVerbosity ∧ ¬ (grave v = true ∨ (W.site s).server = true) then termText W.fill (W.site s) v m else []) ∧
        (if v ≤ (W.site s).termVerbosity then logToTerm W' s v m else W').err x = W.err x ++ (if x = s ∧ v ≤ (W.site s).termVerbosity ∧ (grave v = true ∨ (W.site s).server = true) then termText W.fill (W.site s) v m else [])) := by
      intro W' h1 h2 h3 h4
      by_cases hv : v ≤ (W.site s).termVerbosity
      · have := log_term (s := s) h1 h2 v m x
        simp only [hv, if_true, true_and]
        rw [this.1, this.2, h3, h4]
        exact ⟨rfl, rfl⟩
      · simp [hv, h3, h4]
    apply key
    all_goals
      split
      · split
        · rfl
        · split <;> rfl
      · rfl

/-- nothing hinders an exception from being told -/
def plain (W : World) : Event → Prop
  | .exception s ty v _ => ty = .normal ∨ v ≠ (W.site s).termVerbosity
  | _ => True

theorem shown_one (p : Nat → Bool) (g : Nat → Text → Text) (f : Nat) (a : Event → Nat) (ch : Nat → Bool) (x : Nat) (e : Event) :
    shown p g f a ch x [e] = if a e = x ∧ level e ≤ f ∧ ch (level e) = true then g (level e) (words p e) else [] := by
  simp only [shown, List.filter_cons, Bool.and_eq_true, decide_eq_true_eq, beq_iff_eq, and_assoc]
  split <;> simp

theorem shown_cons (p : Nat → Bool) (g : Nat → Text → Text) (f : Nat) (a : Event → Nat) (ch : Nat → Bool) (x : Nat) (e : Event) (es : List Event) :
    shown p g f a ch x (e :: es) = shown p g f a ch x [e] ++ shown p g f a ch x es := by
  simp only [shown, List.filter_cons]
  split <;> simp

/-- which terminal it is: standard error -/
def toErr (S : Site) (v : Nat) : Bool := grave v || S.server

theorem errToFile_shown (W : World) (w : Nat) (t : Text) (x : Nat) :
    (errToFile W w t).out x = (log W w WARNING t).out x ∧ (errToFile W w t).err x = (log W w WARNING t).err x := ⟨rfl, rfl⟩

theorem log_shown' (W : World) (s v : Nat) (m : Text) (x : Nat) :
    (log W s v m).out x = W.out x ++ (if s = x ∧ v ≤ (W.site x).termVerbosity ∧ (!toErr (W.site x) v) = true then termText W.fill (W.site x) v m else []) ∧
    (log W s v m).err x = W.err x ++ (if s = x ∧ v ≤ (W.site x).termVerbosity ∧ toErr (W.site x) v = true then termText W.fill (W.site x) v m else []) := by
  have := log_shown W s v m x
  by_cases hx : s = x
  · subst hx
    rw [this.1, this.2]
    simp [toErr]
  · rw [this.1, this.2]
    simp [hx, Ne.symm hx]

theorem exception_shown (W : World) (s : Nat) (ty : LogType) (v : Nat) (m : Text) (he : ty = .normal ∨ v ≠ (W.site s).termVerbosity) (x : Nat) :
    (exception W s ty v m).out x = W.out x ++ (if s = x ∧ v ≤ (W.site x).termVerbosity ∧ (!toErr (W.site x) v) = true then
      termText W.fill (W.site x) v (if (W.site s).parsable then joined m else m) else []) ∧
    (exception W s ty v m).err x = W.err x ++ (if s = x ∧ v ≤ (W.site x).termVerbosity ∧ toErr (W.site x) v = true then
      termText W.fill (W.site x) v (if (W.site s).parsable then joined m else m) else []) := by
  simp only [exception, flatMap_joined]
  split
  · exact log_shown' W s v _ x
  · next ht =>
    have hv : v ≠ (W.site s).termVerbosity := by
      rcases he with h1 | h1
      · exact absurd (.inl h1) ht
      · exact h1
    split
    · next hle =>
      by_cases hx : s = x
      · subst hx
        have : ¬ v ≤ (W.site s).termVerbosity := by omega
        simp [this]
      · simp [hx]
    · next hle =>
      have hlt : v ≤ (W.site s).termVerbosity := by omega
      have := log_term (W := W) (W' := W) (s := s) rfl rfl v (if (W.site s).parsable = true then joined m else m) x
      by_cases hx : s = x
      · subst hx
        rw [this.1, this.2]
        simp [toErr, hlt]
      · rw [this.1, this.2]
        simp [hx, Ne.symm hx]

theorem step_shown {W : World} {a : Event → Nat} (ha : ∀ e, a e = match e with | .error _ _ => a e | e => place e)
    (herr : ∀ s t x, (step W (.error s t)).out x = (log W (a (.error s t)) WARNING t).out x ∧ (step W (.error s t)).err x = (log W (a (.error s t)) WARNING t).err x)
    (e : Event) (he : plain W e) (x : Nat) :
    (step W e).out x = W.out x ++ shown (fun n => (W.site n).parsable) (termText W.fill (W.site x)) (W.site x).termVerbosity a (fun v => !toErr (W.site x) v) x [e] ∧
    (step W e).err x = W.err x ++ shown (fun n => (W.site n).parsable) (termText W.fill (W.site x)) (W.site x).termVerbosity a (fun v => toErr (W.site x) v) x [e] := by
  rw [shown_one, shown_one]
  cases e with
  | log s v m => rw [ha (.log s v m)]; exact log_shown' W s v m x
  | error s t =>
    rw [(herr s t x).1, (herr s t x).2]
    exact log_shown' W _ WARNING t x
  | exception s ty v m => rw [ha (.exception s ty v m)]; exact exception_shown W s ty v m he x

theorem Open.shown {W : World} {w : Nat} {lo : Bool} {f : Nat} (h : Open W w lo f) (e : Event) (he : plain W e) (x : Nat) :
    (Logging.step W e).out x = W.out x ++ Spec.Logging.shown (fun n => (W.site n).parsable) (termText W.fill (W.site x)) (W.site x).termVerbosity (atBackup w) (fun v => !toErr (W.site x) v) x [e] ∧
    (Logging.step W e).err x = W.err x ++ Spec.Logging.shown (fun n => (W.site n).parsable) (termText W.fill (W.site x)) (W.site x).termVerbosity (atBackup w) (fun v => toErr (W.site x) v) x [e] := by
  apply step_shown (a := atBackup w) (by intro e; cases e <;> rfl) _ e he
  intro s t x
  simp only [Logging.step, errOpen_error h, errToFile_shown]
  exact ⟨rfl, rfl⟩

theorem _root_.Verif.Spec.Logging.Fresh.shown {W : World} (h : Fresh W) (e : Event) (he : plain W e) (x : Nat) :
    (step W e).out x = W.out x ++ Spec.Logging.shown (fun n => (W.site n).parsable) (termText W.fill (W.site x)) (W.site x).termVerbosity place (fun v => !toErr (W.site x) v) x [e] ∧
    (step W e).err x = W.err x ++ Spec.Logging.shown (fun n => (W.site n).parsable) (termText W.fill (W.site x)) (W.site x).termVerbosity place (fun v => toErr (W.site x) v) x [e] := by
  apply step_shown (a := place) (by intro e; cases e <;> rfl) _ e he
  intro s t x
  simp only [step, error, (h s).2.2.2]
  exact ⟨rfl, rfl⟩

theorem plain_step {W : World} {es : List Event} {e : Event} (he : ∀ e' ∈ e :: es, plain W e') : ∀ e' ∈ es, plain (step W e) e' := by
  intro e' h'
  have := he e' (List.mem_cons_of_mem _ h')
  cases e' <;> simp only [plain, step_site] at this ⊢
  exact this

theorem runs_shown {W : World} {w : Nat} {lo : Bool} {f : Nat} (h : Open W w lo f) (es : List Event) (he : ∀ e ∈ es, plain W e) (x : Nat) :
    (runs W es).out x = W.out x ++ shown (fun n => (W.site n).parsable) (termText W.fill (W.site x)) (W.site x).termVerbosity (atBackup w) (fun v => !toErr (W.site x) v) x es ∧
    (runs W es).err x = W.err x ++ shown (fun n => (W.site n).parsable) (termText W.fill (W.site x)) (W.site x).termVerbosity (atBackup w) (fun v => toErr (W.site x) v) x es := by
  induction es generalizing W with
  | nil => simp [runs, shown]
  | cons e es ih =>
    have h1 := ih (h.step e) (plain_step he)
    have h2 := h.shown e (he e (by simp)) x
    rw [step_site, (step_fill W e).1] at h1
    show (runs (step W e) es).out x = _ ∧ (runs (step W e) es).err x = _
    rw [h1.1, h1.2, h2.1, h2.2, shown_cons _ _ _ _ _ _ e es, shown_cons _ _ _ _ _ _ e es]
    simp

theorem runs_shown_fresh {W : World} (h : Fresh W) (es : List Event) (he : ∀ e ∈ es, plain W e) (x : Nat) :
    (runs W es).out x = W.out x ++ shown (fun n => (W.site n).parsable) (termText W.fill (W.site x)) (W.site x).termVerbosity place (fun v => !toErr (W.site x) v) x es ∧
    (runs W es).err x = W.err x ++ shown (fun n => (W.site n).parsable) (termText W.fill (W.site x)) (W.site x).termVerbosity place (fun v => toErr (W.site x) v) x es := by
  induction es generalizing W with
  | nil => simp [runs, shown]
  | cons e es ih =>
    have h1 := ih (by intro n; rw [step_site]; exact h n) (plain_step he)
    have h2 := h.shown e (he e (by simp)) x
    rw [step_site, (step_fill W e).1] at h1
    show (runs (step W e) es).out x = _ ∧ (runs (step W e) es).err x = _
    rw [h1.1, h1.2, h2.1, h2.2, shown_cons _ _ _ _ _ _ e es, shown_cons _ _ _ _ _ _ e es]
    simp

/-! ## A server says nothing on its standard output -/

theorem log_out_server {W : World} {x : Nat} (hx : (W.site x).server = true) (s v : Nat) (m : Text) : (log W s v m).out x = W.out x := by
  rw [(log_shown' W s v m x).1]; simp [toErr, hx]

theorem step_out_server {W : World} {x : Nat} (hx : (W.site x).server = true) (e : Event) : (step W e).out x = W.out x := by
  cases e with
  | log s v m => exact log_out_server hx _ _ _
  | error s t =>
    simp only [step, error]
    split
    · split
      · exact log_out_server hx _ _ _
      · split
        · exact log_out_server hx _ _ _
        · rfl
    · exact log_out_server hx _ _ _
  | exception s ty v m =>
    simp only [step, exception]
    split
    · exact log_out_server hx _ _ _
    · split
      · rfl
      · rw [(log_term (W := W) (W' := W) (s := s) rfl rfl _ _ x).1]
        by_cases hs : x = s
        · subst hs; simp [hx]
        · simp [hs]

theorem act_server (W : World) (a : Act) (x : Nat) : ((act W a).site x).server = (W.site x).server := by
  cases a with
  | startBackup w => exact (startBackup_parsable W w x).2.2.2
  | startSingle w => simp only [act, startSingle, setLogOpen]; split <;> rfl
  | finish w => rfl
  | event e => simp only [act, step_site]

theorem act_out_server {W : World} {x : Nat} (hx : (W.site x).server = true) (a : Act) : (act W a).out x = W.out x := by
  cases a with
  | startBackup w => rw [act, (startBackup_rest W w).2.2.1]
  | startSingle w => simp only [act, startSingle, setLogOpen]; split <;> rfl
  | finish w => rfl
  | event e => exact step_out_server hx e

theorem acts_out_server {W : World} {x : Nat} (hx : (W.site x).server = true) (as : List Act) : (acts W as).out x = W.out x := by
  induction as generalizing W with
  | nil => rfl
  | cons a as ih =>
    show (acts (act W a) as).out x = _
    rw [ih (by rw [act_server]; exact hx), act_out_server hx]

end Verif.Logging
