import Verif.Model.SelOpts
import Verif.Model.RepoDirs
import Mathlib.Order.MinMax
import Mathlib.Data.List.Forall2

/-!
C89: the selection options of the command line are those of the manual, and arrive with the meaning and in the order which they have there.

Specification: `Use` (the options of the manual), `Use.text`, `Use.arg`, `Use.meaning`. The model: `Verif.SelOpts` (`run`). What `Opt` asks for is C77.
-/

namespace Verif.C89
open Verif.SelOpts Verif.SelParse Verif.Quoting Verif.Selection

/-! ### Specification: the manual -/

/-- the selection options of the manual (`docs/rdiff-backup.1.adoc`), to include or exclude -/
inductive Use where
  | glob (incl : Bool) (g : Bytes)
  | regexp (incl : Bool) (r : Bytes)
  | ifPresent (incl : Bool) (name : Bytes)
  | filelist (incl : Bool) (file : Bytes)
  | filelistStdin (incl : Bool)
  | globbingFilelist (incl : Bool) (file : Bytes)
  | globbingFilelistStdin (incl : Bool)
  | deviceFiles (incl : Bool)
  | fifos (incl : Bool)
  | sockets (incl : Bool)
  | symbolicLinks (incl : Bool)
  | specialFiles (incl : Bool)
  | otherFilesystems (incl : Bool)
  | maxFileSize (size : Bytes)
  | minFileSize (size : Bytes)
deriving DecidableEq

/-- `--include`, `--exclude` -/
def dash (incl : Bool) : Str := if incl then "--include".toList else "--exclude".toList

/-- how it's written -/
def Use.text : Use → Str
  | .glob i _ => dash i
  | .regexp i _ => dash i ++ "-regexp".toList
  | .ifPresent i _ => dash i ++ "-if-present".toList
  | .filelist i _ => dash i ++ "-filelist".toList
  | .filelistStdin i => dash i ++ "-filelist-stdin".toList
  | .globbingFilelist i _ => dash i ++ "-globbing-filelist".toList
  | .globbingFilelistStdin i => dash i ++ "-globbing-filelist-stdin".toList
  | .deviceFiles i => dash i ++ "-device-files".toList
  | .fifos i => dash i ++ "-fifos".toList
  | .sockets i => dash i ++ "-sockets".toList
  | .symbolicLinks i => dash i ++ "-symbolic-links".toList
  | .specialFiles i => dash i ++ "-special-files".toList
  | .otherFilesystems i => dash i ++ "-other-filesystems".toList
  | .maxFileSize _ => "--max-file-size".toList
  | .minFileSize _ => "--min-file-size".toList

/-- its argument -/
def Use.arg : Use → Option Bytes
  | .glob _ x | .regexp _ x | .ifPresent _ x | .filelist _ x | .globbingFilelist _ x | .maxFileSize x | .minFileSize x => some x
  | _ => none

/-- options which read standard input -/
def Use.stdin : Use → Bool
  | .filelistStdin _ | .globbingFilelistStdin _ => true
  | _ => false

/-- the four options of the manual which don't work (F135) -/
def Use.broken : Use → Bool
  | .deviceFiles true | .fifos true | .sockets true | .otherFilesystems true => true
  | _ => false

/-- the lists which can be read, and what Python's `int` makes of a text -/
structure World where
  files : Bytes → Option Bytes
  input : Option Bytes
  int : Bytes → Option Int

/-- What is asked for, with lists read. `none`: it can't be understood or read. -/
def Use.meaning (w : World) : Use → Option Opt
  | .glob i g => some (.glob g i)
  | .regexp i r => some (.regexp r i)
  | .ifPresent i f => some (.presence f i)
  | .filelist i f => (w.files f).map (.filelist · i)
  | .filelistStdin i => w.input.map (.filelist · i)
  | .globbingFilelist i f => (w.files f).map (.globlist · i)
  | .globbingFilelistStdin i => w.input.map (.globlist · i)
  | .deviceFiles i => if i then none else some .devices
  | .fifos i => if i then none else some .fifos
  | .sockets i => if i then none else some .sockets
  | .symbolicLinks i => some (.symlinks i)
  | .specialFiles i => some (.special i)
  | .otherFilesystems i => if i then none else some .otherFs
  | .maxFileSize t => if (w.int t).isSome then some (.size t true) else none
  | .minFileSize t => if (w.int t).isSome then some (.size t false) else none

/-- the command line -/
def command (us : List Use) : List (Str × Option Bytes) := us.map fun u => (u.text, u.arg)

def World.stdin (w : World) : Stdin := match w.input with | some b => .content b | none => .fails

/-! ### One option -/

/-- what is kept of an option, once its list is read -/
def Use.name : Use → Str
  | .filelistStdin i => (dash i ++ "-filelist".toList).drop 2
  | .globbingFilelistStdin i => (dash i ++ "-globbing-filelist".toList).drop 2
  | u => u.text.drop 2

/-- the action which has an option -/
def action (o : Str) : Option Arg := parser.find? (fun a => a.strings.contains o)

/-- one option of the command line -/
def step (files : Files) (int : Bytes → Option Int) (st : State) (o : Str) (x : Option Bytes) : Except Bad State :=
  match action o with
  | none => .error .argument
  | some a => match value int a x with
      | none => .error .argument
      | some v => call files a st o v

theorem parse_cons (files : Files) (int : Bytes → Option Int) (st : State) (o : Str) (x : Option Bytes) (rest) :
    parse files int st ((o, x) :: rest) = (match step files int st o x with | .error e => .error e | .ok st' => parse files int st' rest) := by
  unfold step action
  rw [parse]
  cases parser.find? (fun a => a.strings.contains o) with
  | none => rfl
  | some a => dsimp only; cases value int a x <;> rfl

/-- the action for each option of the manual -/
def actionOf : Use → Arg
  | .glob _ _ => { text := "--SELECT".toList }
  | .regexp _ _ => { text := "--SELECT-regexp".toList }
  | .ifPresent _ _ => { text := "--SELECT-if-present".toList }
  | .filelist _ _ => { text := "--SELECT-filelist".toList }
  | .filelistStdin _ => { text := "--SELECT-filelist-stdin".toList, type := .bool }
  | .globbingFilelist _ _ => { text := "--SELECT-globbing-filelist".toList }
  | .globbingFilelistStdin _ => { text := "--SELECT-globbing-filelist-stdin".toList, type := .bool }
  | .deviceFiles _ => { text := "--SELECT-device-files".toList, type := .bool, default := some true }
  | .fifos _ => { text := "--SELECT-fifos".toList, type := .bool, default := some true }
  | .sockets _ => { text := "--SELECT-sockets".toList, type := .bool, default := some true }
  | .symbolicLinks _ => { text := "--SELECT-symbolic-links".toList, type := .bool, default := some true }
  | .specialFiles _ => { text := "--SELECT-special-files".toList, type := .bool, default := some true }
  | .otherFilesystems _ => { text := "--SELECT-other-filesystems".toList, type := .bool, default := some true }
  | .maxFileSize _ => { text := "--max-file-size".toList, type := .int }
  | .minFileSize _ => { text := "--min-file-size".toList, type := .int }

/-- each option once -/
def reps : List Use :=
  [true, false].flatMap (fun i => [.glob i [], .regexp i [], .ifPresent i [], .filelist i [], .filelistStdin i, .globbingFilelist i [], .globbingFilelistStdin i, .deviceFiles i,
    .fifos i, .sockets i, .symbolicLinks i, .specialFiles i, .otherFilesystems i]) ++ [.maxFileSize [], .minFileSize []]

def rep : Use → Use
  | .glob i _ => .glob i []
  | .regexp i _ => .regexp i []
  | .ifPresent i _ => .ifPresent i []
  | .filelist i _ => .filelist i []
  | .globbingFilelist i _ => .globbingFilelist i []
  | .maxFileSize _ => .maxFileSize []
  | .minFileSize _ => .minFileSize []
  | u => u

theorem rep_mem (u : Use) : rep u ∈ reps := by
  cases u with
  | maxFileSize x => simp [rep, reps]
  | minFileSize x => simp [rep, reps]
  | _ i => cases i <;> simp [rep, reps]

/-- what depends on the name of the option only -/
theorem of_reps {P : Use → Prop} (h : ∀ u ∈ reps, P u) (hp : ∀ u, P (rep u) → P u) (u : Use) : P u := hp u (h _ (rep_mem u))

theorem action_use (u : Use) : action u.text = some (actionOf u) :=
  of_reps (P := fun u => action u.text = some (actionOf u)) (by decide +kernel) (fun u h => by cases u <;> exact h) u

/-- whether the option has a list -/
def isList : Use → Bool
  | .filelist .. | .filelistStdin .. | .globbingFilelist .. | .globbingFilelistStdin .. => true
  | _ => false

theorem contains_use (u : Use) : contains "filelist".toList u.text = isList u :=
  of_reps (P := fun u => contains "filelist".toList u.text = isList u) (by decide +kernel) (fun u h => by cases u <;> exact h) u

theorem suffix_use (u : Use) : "-stdin".toList.isSuffixOf u.text = u.stdin :=
  of_reps (P := fun u => "-stdin".toList.isSuffixOf u.text = u.stdin) (by decide +kernel) (fun u h => by cases u <;> exact h) u

theorem name_use (u : Use) : replaceAll "--".toList [] (if u.stdin then u.text.take (u.text.length - 6) else u.text) = u.name :=
  of_reps (P := fun u => replaceAll "--".toList [] (if u.stdin then u.text.take (u.text.length - 6) else u.text) = u.name) (by decide +kernel)
    (fun u h => by cases u <;> exact h) u

/-- the value kept of an option -/
def kept (w : World) : Use → Option Value
  | .glob _ x | .regexp _ x | .ifPresent _ x => some (.text x)
  | .filelist _ f | .globbingFilelist _ f => (w.files f).map .list
  | .filelistStdin _ | .globbingFilelistStdin _ => w.input.map .list
  | .maxFileSize t | .minFileSize t => if (w.int t).isSome then some (.text t) else none
  | _ => some (.flag true)

/-- the value given to the action -/
def given (int : Bytes → Option Int) : Use → Option Value
  | .glob _ x | .regexp _ x | .ifPresent _ x | .filelist _ x | .globbingFilelist _ x => some (.text x)
  | .maxFileSize t | .minFileSize t => if (int t).isSome then some (.text t) else none
  | _ => some .empty

theorem value_of (int : Bytes → Option Int) (a : Arg) : (a.type = .bool → value int a none = some .empty) ∧ (∀ x, a.type = .str → value int a (some x) = some (.text x)) ∧
    (∀ x, a.type = .int → value int a (some x) = if (int x).isSome then some (.text x) else none) := by
  unfold value Arg.nargs
  refine ⟨fun h => by simp [h], fun x h => by simp [h], fun x h => ?_⟩
  simp only [h]
  cases int x <;> simp

theorem value_use (int : Bytes → Option Int) (u : Use) : value int (actionOf u) u.arg = given int u := by
  have := value_of int (actionOf u)
  cases u
  case maxFileSize t => exact this.2.2 t rfl
  case minFileSize t => exact this.2.2 t rfl
  all_goals first
    | exact this.1 rfl
    | exact this.2.1 _ rfl

/-- options without argument and list -/
def isFlag : Use → Bool
  | .deviceFiles _ | .fifos _ | .sockets _ | .symbolicLinks _ | .specialFiles _ | .otherFilesystems _ => true
  | _ => false

theorem dflt_use (u : Use) (h : isFlag u = true) : (actionOf u).dflt = some true := by
  cases u <;> first | rfl | cases h

theorem append_value (a : Arg) (st : State) (o : Str) (v : Value) (h : v ≠ .empty) : append a st o v = { st with sels := st.sels ++ [(replaceAll "--".toList [] o, v)] } := by
  unfold append
  rw [if_neg h]

theorem append_flag (a : Arg) (st : State) (o : Str) (h : a.dflt = some true) : append a st o .empty = { st with sels := st.sels ++ [(replaceAll "--".toList [] o, .flag true)] } := by
  unfold append
  rw [if_pos rfl, h]

theorem step_use (w : World) (st : State) (u : Use) (h : u.stdin = false) : step w.files w.int st u.text u.arg =
    match kept w u with
    | some v => .ok { st with sels := st.sels ++ [(u.name, v)] }
    | none => .error .argument := by
  have hn := name_use u
  have hf := dflt_use u
  have hc := contains_use u
  have hs := suffix_use u
  rw [h] at hn hs
  simp only [Bool.false_eq_true, if_false] at hn
  unfold step
  rw [action_use]
  dsimp only
  rw [value_use]
  generalize actionOf u = a at hf
  generalize u.text = tx at hn hc hs
  unfold call readContent
  rw [hc, hs]
  cases u <;> simp only [Use.stdin, reduceCtorEq] at h <;> simp only [given, kept, isList, isFlag, Bool.false_eq_true, if_false, if_true] at hf ⊢
  case filelist i f => cases w.files f with
    | none => rfl
    | some b => exact congrArg Except.ok ((append_value _ _ _ _ (by simp)).trans (by rw [hn]))
  case globbingFilelist i f => cases w.files f with
    | none => rfl
    | some b => exact congrArg Except.ok ((append_value _ _ _ _ (by simp)).trans (by rw [hn]))
  case maxFileSize t =>
    cases w.int t with
    | none => rfl
    | some n => exact congrArg Except.ok ((append_value _ _ _ _ (by simp)).trans (by rw [hn]))
  case minFileSize t =>
    cases w.int t with
    | none => rfl
    | some n => exact congrArg Except.ok ((append_value _ _ _ _ (by simp)).trans (by rw [hn]))
  all_goals first
    | rw [append_flag _ _ _ (hf trivial), hn]
    | rw [append_value _ _ _ _ (by simp), hn]

theorem step_stdin (w : World) (st : State) (u : Use) (h : u.stdin = true) : step w.files w.int st u.text u.arg =
    match st.stdin with
    | .content b => .ok ⟨st.sels ++ [(u.name, .list b)], .closed⟩
    | .fails => .error .argument
    | .closed => .error .closed := by
  have hn := name_use u
  have hc := contains_use u
  have hs := suffix_use u
  rw [h] at hn hs
  simp only [if_true] at hn
  unfold step
  rw [action_use]
  dsimp only
  rw [value_use]
  generalize actionOf u = a
  generalize u.text = tx at hn hc hs
  unfold call readContent
  rw [hc, hs]
  have hl : isList u = true ∧ given w.int u = some .empty := by cases u <;> first | exact ⟨rfl, rfl⟩ | cases h
  rw [hl.1, hl.2]
  simp only [if_true]
  cases st.stdin with
  | content b => exact congrArg Except.ok ((append_value _ _ _ _ (by simp)).trans (by rw [hn]))
  | fails => rfl
  | closed => rfl

/-- the dictionaries with an option's name -/
theorem dicts (u : Use) : (find u.name noArgs = if u.broken then none else match u with
      | .deviceFiles _ => some .devices | .fifos _ => some .fifos | .sockets _ => some .sockets | .symbolicLinks i => some (.symlinks i)
      | .specialFiles i => some (.special i) | .otherFilesystems _ => some .otherFs | _ => none) ∧
    (find u.name oneArg = match u with
      | .glob i _ => some (.glob, i) | .regexp i _ => some (.regexp, i) | .ifPresent i _ => some (.presence, i) | .maxFileSize _ => some (.size, true)
      | .minFileSize _ => some (.size, false) | _ => none) ∧
    (find u.name listOpts = match u with | .filelist i _ => some i | .filelistStdin i => some i | _ => none) ∧
    (find u.name globlistOpts = match u with | .globbingFilelist i _ => some i | .globbingFilelistStdin i => some i | _ => none) :=
  of_reps (P := fun u => (find u.name noArgs = if u.broken then none else match u with
      | .deviceFiles _ => some .devices | .fifos _ => some .fifos | .sockets _ => some .sockets | .symbolicLinks i => some (.symlinks i)
      | .specialFiles i => some (.special i) | .otherFilesystems _ => some .otherFs | _ => none) ∧
    (find u.name oneArg = match u with
      | .glob i _ => some (.glob, i) | .regexp i _ => some (.regexp, i) | .ifPresent i _ => some (.presence, i) | .maxFileSize _ => some (.size, true)
      | .minFileSize _ => some (.size, false) | _ => none) ∧
    (find u.name listOpts = match u with | .filelist i _ => some i | .filelistStdin i => some i | _ => none) ∧
    (find u.name globlistOpts = match u with | .globbingFilelist i _ => some i | .globbingFilelistStdin i => some i | _ => none)) (by decide +kernel)
    (fun u h => by cases u <;> exact h) u

theorem kept_stdin (w : World) (u : Use) (h : u.stdin = true) : kept w u = w.input.map .list := by
  cases u <;> first | rfl | cases h

/-- what is kept means what was asked -/
theorem optOf_use (w : World) (u : Use) (v : Value) (h : kept w u = some v) : optOf (u.name, v) = u.meaning w := by
  obtain ⟨h1, h2, h3, h4⟩ := dicts u
  unfold optOf
  dsimp only
  rw [h1, h2, h3, h4]
  cases u with
  | glob | regexp | ifPresent => cases h; rfl
  | deviceFiles i | fifos i | sockets i | otherFilesystems i => cases i <;> cases h <;> rfl
  | symbolicLinks i | specialFiles i => cases h; rfl
  | filelist i f | globbingFilelist i f =>
      simp only [kept] at h
      simp only [Use.meaning]
      cases hf : w.files f with
      | none => rw [hf] at h; cases h
      | some b => rw [hf] at h; cases h; rfl
  | filelistStdin i | globbingFilelistStdin i =>
      simp only [kept] at h
      simp only [Use.meaning]
      cases hf : w.input with
      | none => rw [hf] at h; cases h
      | some b => rw [hf] at h; cases h; rfl
  | maxFileSize t | minFileSize t =>
      simp only [kept] at h
      simp only [Use.meaning]
      split at h
      · rename_i hi; cases h; rw [if_pos hi]; rfl
      · cases h

/-- what isn't kept means nothing -/
theorem kept_none (w : World) (u : Use) (h : kept w u = none) : u.meaning w = none := by
  cases u <;> simp only [kept, reduceCtorEq, Option.map_eq_none_iff] at h
  case filelist => simp [Use.meaning, h]
  case globbingFilelist => simp [Use.meaning, h]
  case filelistStdin => simp [Use.meaning, h]
  case globbingFilelistStdin => simp [Use.meaning, h]
  case maxFileSize => simp only [Use.meaning]; split at h <;> simp_all
  case minFileSize => simp only [Use.meaning]; split at h <;> simp_all

/-! ### All options -/

/-- number of options which read standard input -/
def inputs (us : List Use) : Nat := (us.filter Use.stdin).length

/-- the options which are kept -/
theorem parse_ok (w : World) (us : List Use) (vs : List Value) (h : List.Forall₂ (fun u v => kept w u = some v) us vs) : ∀ st : State,
    (inputs us = 0 ∨ inputs us = 1 ∧ st.stdin = w.stdin) →
    ∃ si, parse w.files w.int st (command us) = .ok ⟨st.sels ++ List.zipWith (fun u v => (u.name, v)) us vs, si⟩ := by
  induction h with
  | nil => intro st _; exact ⟨st.stdin, by simp [command, parse]⟩
  | @cons u v us vs huv _ ih =>
      intro st hn
      have hc : command (u :: us) = (u.text, u.arg) :: command us := rfl
      rw [hc, parse_cons]
      cases hs : u.stdin with
      | false =>
          rw [step_use w st u hs, huv]
          dsimp only
          obtain ⟨si, hi⟩ := ih ⟨st.sels ++ [(u.name, v)], st.stdin⟩ (by simpa [inputs, List.filter_cons, hs] using hn)
          exact ⟨si, by rw [hi]; simp⟩
      | true =>
          have h1 : inputs us = 0 ∧ st.stdin = w.stdin := by
            simp only [inputs, List.filter_cons, hs, if_true, List.length_cons] at hn ⊢
            rcases hn with hn | ⟨hn, h⟩
            · omega
            · exact ⟨by omega, h⟩
          rw [step_stdin w st u hs, h1.2]
          cases hi : w.input with
          | none =>
              have : kept w u = none := by rw [kept_stdin w u hs, hi]; rfl
              rw [this] at huv; cases huv
          | some b =>
              have : v = .list b := by
                have : kept w u = some (.list b) := by rw [kept_stdin w u hs, hi]; rfl
                rw [this] at huv; cases huv; rfl
              subst this
              simp only [World.stdin, hi]
              obtain ⟨si, h⟩ := ih ⟨st.sels ++ [(u.name, .list b)], .closed⟩ (.inl h1.1)
              exact ⟨si, by rw [h]; simp⟩

theorem parse_bad (w : World) (us : List Use) (hb : ∃ u ∈ us, kept w u = none) : ∀ st : State,
    (inputs us = 0 ∨ inputs us = 1 ∧ st.stdin = w.stdin) → parse w.files w.int st (command us) = .error .argument := by
  induction us with
  | nil => simp at hb
  | cons u us ih =>
      intro st hn
      have hc : command (u :: us) = (u.text, u.arg) :: command us := rfl
      rw [hc, parse_cons]
      cases hs : u.stdin with
      | false =>
          rw [step_use w st u hs]
          cases hk : kept w u with
          | none => rfl
          | some v =>
              refine ih ?_ _ (by simpa [inputs, List.filter_cons, hs] using hn)
              obtain ⟨x, hx, hx'⟩ := hb
              rcases List.mem_cons.mp hx with rfl | hx
              · rw [hk] at hx'; cases hx'
              · exact ⟨x, hx, hx'⟩
      | true =>
          have h1 : inputs us = 0 ∧ st.stdin = w.stdin := by
            simp only [inputs, List.filter_cons, hs, if_true, List.length_cons] at hn ⊢
            rcases hn with hn | ⟨hn, h⟩
            · omega
            · exact ⟨by omega, h⟩
          rw [step_stdin w st u hs, h1.2]
          cases hi : w.input with
          | none => simp only [World.stdin, hi]
          | some b =>
              simp only [World.stdin, hi]
              refine ih ?_ _ (.inl h1.1)
              obtain ⟨x, hx, hx'⟩ := hb
              rcases List.mem_cons.mp hx with rfl | hx
              · have : kept w x = some (.list b) := by rw [kept_stdin w x hs, hi]; rfl
                rw [this] at hx'; cases hx'
              · exact ⟨x, hx, hx'⟩

/-- the world which the conditions see -/
def World.fits (w : World) (e : Env) : Prop := e.int = w.int

theorem conds_ok (w : World) (e : Env) (us : List Use) (os : List Opt) (h : List.Forall₂ (fun u o => u.meaning w = some o) us os) :
    ∀ vs, List.Forall₂ (fun u v => kept w u = some v) us vs → conds e (List.zipWith (fun u v => (u.name, v)) us vs) = match allConds e os with | .ok c => .ok c | .error x => .error (.sel x) := by
  induction h with
  | nil => intro vs hv; cases hv; rfl
  | @cons u o us os ho _ ih =>
      intro vs hv
      cases hv with
      | @cons _ v _ vs h1 h2 =>
          rw [List.zipWith_cons_cons, conds, optOf_use w u v h1, ho]
          dsimp only
          rw [allConds, ih vs h2]
          cases condsOf e o with
          | error x => rfl
          | ok cs => dsimp only; cases allConds e os <;> rfl

theorem start_eq (si : Stdin) : start si = some ⟨[], si⟩ := by
  have h : (parser.find? (fun a => a.dest = "selections".toList)).map Arg.dflt = some none := by decide +kernel
  unfold start
  cases hf : parser.find? (fun a => a.dest = "selections".toList) with
  | none => rw [hf] at h; cases h
  | some a => rw [hf] at h; simp only [Option.map_some, Option.some.injEq] at h; simp [h]

theorem kept_all (w : World) (us : List Use) (h : ∀ u ∈ us, kept w u ≠ none) : ∃ vs, List.Forall₂ (fun u v => kept w u = some v) us vs := by
  induction us with
  | nil => exact ⟨[], .nil⟩
  | cons u us ih =>
      obtain ⟨vs, hv⟩ := ih (fun x hx => h x (.tail _ hx))
      obtain ⟨v, hk⟩ := Option.ne_none_iff_exists'.mp (h u (.head _))
      exact ⟨v :: vs, .cons hk hv⟩

/-- **C89 (the options mean what the manual says, in their order).** Whatever options of the manual are given, in whatever order, if each can be understood and its list be read
(and standard input is read once at most), the selection is made of exactly these, with the lists' contents, one after another. -/
theorem options_mean (w : World) (e : Env) (he : e.int = w.int) (us : List Use) (os : List Opt) (h : List.Forall₂ (fun u o => u.meaning w = some o) us os) (hi : inputs us ≤ 1) :
    run w.files w.stdin e (command us) = match parseArgs e os with | .ok c => .ok c | .error x => .error (.sel x) := by
  have hk : ∀ u ∈ us, kept w u ≠ none := by
    intro u hu hn
    have h0 := kept_none w u hn
    have : ∀ (us : List Use) (os : List Opt), List.Forall₂ (fun u o => u.meaning w = some o) us os → u ∉ us := by
      intro us os h
      induction h with
      | nil => simp
      | cons h _ ih =>
          intro hm
          rcases List.mem_cons.mp hm with rfl | hm
          · rw [h0] at h; cases h
          · exact ih hm
    exact this us os h hu
  obtain ⟨vs, hv⟩ := kept_all w us hk
  obtain ⟨si, hp⟩ := parse_ok w us vs hv ⟨[], w.stdin⟩ (by rcases Nat.lt_or_ge (inputs us) 1 with h | h; exact .inl (by omega); exact .inr ⟨by omega, rfl⟩)
  unfold run
  rw [start_eq, he]
  dsimp only
  rw [hp]
  simp only [List.nil_append]
  unfold parseSelections parseArgs
  rw [conds_ok w e us os h vs hv]
  cases allConds e os with
  | error x => rfl
  | ok cs => dsimp only; split <;> rfl

/-- **C89 (a list which can't be read, a size which isn't a number).** If some option's list can't be read, or its size not be understood, everything is refused when the command line
is parsed: no selection is made. -/
theorem unreadable_refused (w : World) (e : Env) (he : e.int = w.int) (us : List Use) (hi : inputs us ≤ 1) (u : Use) (hu : u ∈ us) (hm : u.meaning w = none) (hb : u.broken = false) :
    run w.files w.stdin e (command us) = .error .argument := by
  have hk : kept w u = none := by
    cases hk : kept w u with
    | none => rfl
    | some v =>
        exfalso
        cases u <;> simp only [kept, Option.map_eq_some_iff] at hk
        case filelist => obtain ⟨_, h, _⟩ := hk; simp [Use.meaning, h] at hm
        case globbingFilelist => obtain ⟨_, h, _⟩ := hk; simp [Use.meaning, h] at hm
        case filelistStdin => obtain ⟨_, h, _⟩ := hk; simp [Use.meaning, h] at hm
        case globbingFilelistStdin => obtain ⟨_, h, _⟩ := hk; simp [Use.meaning, h] at hm
        case maxFileSize => simp only [Use.meaning] at hm; split at hk <;> simp_all
        case minFileSize => simp only [Use.meaning] at hm; split at hk <;> simp_all
        all_goals (try rename_i i; cases i) <;> simp_all [Use.meaning, Use.broken]
  unfold run
  rw [start_eq, he]
  dsimp only
  rw [parse_bad w us ⟨u, hu, hk⟩ ⟨[], w.stdin⟩ (by rcases Nat.lt_or_ge (inputs us) 1 with h | h; exact .inl (by omega); exact .inr ⟨by omega, rfl⟩)]

/-- **C89 (nothing else).** The options which are accepted are those of the manual, and each is accepted with an argument if and only if it has one in the manual. -/
theorem accepted_iff (o : Str) : (∃ a ∈ parser, o ∈ a.strings) ↔ ∃ u : Use, u.text = o := by
  constructor
  · have h : ∀ a ∈ parser, ∀ o ∈ a.strings, o ∈ reps.map Use.text := by decide +kernel
    rintro ⟨a, ha, ho⟩
    obtain ⟨u, _, hu⟩ := List.mem_map.mp (h a ha o ho)
    exact ⟨u, hu⟩
  · rintro ⟨u, rfl⟩
    have h := action_use u
    exact ⟨actionOf u, List.mem_of_find?_eq_some h, by have := List.find?_some h; simpa using this⟩

theorem argument_iff (int : Bytes → Option Int) (u : Use) (x : Option Bytes) (h : ∀ b, x = some b → int b ≠ none) :
    (∃ a v, action u.text = some a ∧ value int a x = some v) ↔ (x.isSome ↔ u.arg.isSome) := by
  rw [action_use]
  have hn : (actionOf u).nargs = if u.arg.isSome then 1 else 0 := by cases u <;> rfl
  constructor
  · rintro ⟨a, v, ha, hv⟩
    cases ha
    unfold value at hv
    rw [hn] at hv
    cases x with
    | none => cases hu : u.arg <;> simp_all
    | some b => cases hu : u.arg <;> simp_all
  · intro hx
    refine ⟨actionOf u, ?_⟩
    unfold value
    rw [hn]
    cases x with
    | none => cases hu : u.arg <;> simp_all
    | some b =>
        have := h b rfl
        cases hu : u.arg <;> simp_all

/-- an option which isn't in the manual -/
theorem other_refused (w : World) (e : Env) (he : e.int = w.int) (us : List Use) (hi : inputs us ≤ 1) (o : Str) (x : Option Bytes) (rest : List (Str × Option Bytes))
    (ho : ∀ u : Use, u.text ≠ o) : run w.files w.stdin e (command us ++ (o, x) :: rest) = .error .argument := by
  have ha : action o = none := by
    unfold action
    rw [List.find?_eq_none]
    intro a ha hc
    obtain ⟨u, hu⟩ := (accepted_iff o).mp ⟨a, ha, by simpa using hc⟩
    exact ho u hu
  have hb : ∀ st, (inputs us = 0 ∨ inputs us = 1 ∧ st.stdin = w.stdin) → parse w.files w.int st (command us ++ (o, x) :: rest) = .error .argument := by
    clear hi
    induction us with
    | nil => intro st _; rw [show command [] ++ (o, x) :: rest = (o, x) :: rest from rfl, parse_cons]; unfold step; rw [ha]
    | cons u us ih =>
        intro st hn
        rw [show command (u :: us) ++ (o, x) :: rest = (u.text, u.arg) :: (command us ++ (o, x) :: rest) from rfl, parse_cons]
        cases hs : u.stdin with
        | false =>
            rw [step_use w st u hs]
            cases kept w u with
            | none => rfl
            | some v => exact ih _ (by simpa [inputs, List.filter_cons, hs] using hn)
        | true =>
            have h1 : inputs us = 0 ∧ st.stdin = w.stdin := by
              simp only [inputs, List.filter_cons, hs, if_true, List.length_cons] at hn ⊢
              rcases hn with hn | ⟨hn, h⟩
              · omega
              · exact ⟨by omega, h⟩
            rw [step_stdin w st u hs, h1.2]
            cases hi : w.input with
            | none => simp only [World.stdin, hi]
            | some b => simp only [World.stdin, hi]; exact ih _ (.inl h1.1)
  unfold run
  rw [start_eq, he]
  dsimp only
  rw [hb ⟨[], w.stdin⟩ (by rcases Nat.lt_or_ge (inputs us) 1 with h | h; exact .inl (by omega); exact .inr ⟨by omega, rfl⟩)]

/-! ### What is wrong -/

/-- **Four options of the manual don't work (F135).** `--include-device-files`, `--include-fifos`, `--include-sockets` and `--include-other-filesystems` are accepted, and the program
then fails with an exception, whatever else is given. -/
theorem broken_fail (w : World) (e : Env) (he : e.int = w.int) (us : List Use) (hi : inputs us ≤ 1) (u : Use) (hu : u ∈ us) (hb : u.broken = true) :
    ∀ c, run w.files w.stdin e (command us) ≠ .ok c := by
  intro c hr
  unfold run at hr
  rw [start_eq, he] at hr
  dsimp only at hr
  have hst : inputs us = 0 ∨ inputs us = 1 ∧ (⟨[], w.stdin⟩ : State).stdin = w.stdin := by
    rcases Nat.lt_or_ge (inputs us) 1 with h | h
    · exact .inl (by omega)
    · exact .inr ⟨by omega, rfl⟩
  by_cases hk : ∃ u ∈ us, kept w u = none
  · rw [parse_bad w us hk _ hst] at hr; cases hr
  obtain ⟨vs, hv⟩ := kept_all w us (fun u hu hn => hk ⟨u, hu, hn⟩)
  obtain ⟨si, hp⟩ := parse_ok w us vs hv _ hst
  rw [hp] at hr
  simp only [List.nil_append] at hr
  have : ∀ (us : List Use) (vs : List Value), u ∈ us → List.Forall₂ (fun u v => kept w u = some v) us vs → ∀ c, conds e (List.zipWith (fun u v => (u.name, v)) us vs) ≠ .ok c := by
    intro us vs hm hv
    induction hv with
    | nil => cases hm
    | @cons x v us vs h1 _ ih =>
        intro c hc
        rw [List.zipWith_cons_cons, conds, optOf_use w x v h1] at hc
        rcases List.mem_cons.mp hm with rfl | hm
        · have : u.meaning w = none := by cases u <;> (try rename_i i; cases i) <;> first | rfl | cases hb
          rw [this] at hc; cases hc
        · cases hx : x.meaning w with
          | none => rw [hx] at hc; cases hc
          | some o =>
              rw [hx] at hc
              dsimp only at hc
              cases hco : condsOf e o with
              | error y => rw [hco] at hc; cases hc
              | ok cs =>
                  rw [hco] at hc
                  dsimp only at hc
                  cases hcr : conds e (List.zipWith (fun u v => (u.name, v)) us vs) with
                  | error y => rw [hcr] at hc; cases hc
                  | ok ds => exact ih hm ds hcr
  unfold parseSelections at hr
  cases hc : conds e (List.zipWith (fun u v => (u.name, v)) us vs) with
  | error y => rw [hc] at hr; cases hr
  | ok cs => exact this us vs hu hv cs hc

/-- **Standard input twice (F136).** Two options which read their list from standard input end the program with an exception: it's closed after the first. -/
theorem stdin_twice (w : World) (e : Env) (he : e.int = w.int) (b : Bytes) (hw : w.input = some b) (u v : Use) (hu : u.stdin = true) (hv : v.stdin = true) :
    run w.files w.stdin e (command [u, v]) = .error .closed := by
  unfold run
  rw [start_eq, he]
  dsimp only
  rw [show command [u, v] = (u.text, u.arg) :: (v.text, v.arg) :: [] from rfl, parse_cons, step_stdin w _ u hu]
  simp only [World.stdin, hw]
  rw [parse_cons, step_stdin w _ v hv]

/-! ### Selections and parts of a repository -/

/-- which options name files -/
def Use.namesFiles : Use → Bool
  | .glob .. | .regexp .. | .filelist .. | .filelistStdin _ | .globbingFilelist .. | .globbingFilelistStdin _ => true
  | _ => false

theorem names_iff (u : Use) : RepoDirs.fileSelections.contains (String.ofList u.name) = u.namesFiles :=
  of_reps (P := fun u => RepoDirs.fileSelections.contains (String.ofList u.name) = u.namesFiles) (by decide +kernel) (fun u h => by cases u <;> exact h) u

theorem kept_of_meaning (w : World) (u : Use) (h : u.broken = true ∨ u.meaning w ≠ none) : kept w u ≠ none := by
  rcases h with h | h
  · cases u <;> first | cases h | (intro hh; cases hh)
  · exact fun hh => h (kept_none w u hh)

/-- **C89 (restoring a part).** With options which are accepted, restoring a part of a repository is refused just if one of the options names files: with patterns, regular expressions
or lists. -/
theorem part_refused (w : World) (us : List Use) (hi : inputs us ≤ 1) (hk : ∀ u ∈ us, u.broken = true ∨ u.meaning w ≠ none) (idx : List Str) (hidx : idx ≠ []) :
    ∃ st, parse w.files w.int ⟨[], w.stdin⟩ (command us) = .ok st ∧
      (RepoDirs.checkSelections idx (st.sels.map fun s => String.ofList s.1) = false ↔ ∃ u ∈ us, u.namesFiles = true) := by
  obtain ⟨vs, hv⟩ := kept_all w us (fun u hu => kept_of_meaning w u (hk u hu))
  obtain ⟨si, hp⟩ := parse_ok w us vs hv ⟨[], w.stdin⟩ (by rcases Nat.lt_or_ge (inputs us) 1 with h | h; exact .inl (by omega); exact .inr ⟨by omega, rfl⟩)
  refine ⟨_, hp, ?_⟩
  have hm : (List.zipWith (fun u v => (u.name, v)) us vs).map (fun s => String.ofList s.1) = us.map fun u => String.ofList u.name := by
    clear hk hi hp
    induction hv with
    | nil => rfl
    | cons _ _ ih => simp [ih]
  simp only [List.nil_append]
  rw [hm]
  unfold RepoDirs.checkSelections
  have ha : (us.map fun u => String.ofList u.name).any RepoDirs.fileSelections.contains = us.any Use.namesFiles := by
    rw [List.any_map]; congr 1; funext u; exact names_iff u
  rw [ha]
  cases us with
  | nil => simp
  | cons u us => cases hu : u.namesFiles <;> simp [hidx, hu]

/-! ### Examples -/

/-- `list` is a file with `/h/a`; standard input has `- *.o`; `int` reads one digit -/
def world : World := ⟨fun f => if f = [108] then some [47, 104, 47, 97, 10] else none, some [45, 32, 42, 46, 111],
  fun t => match t with | [c] => some (c.toNat - 48 : Int) | _ => none⟩

/-- `--include-symbolic-links --exclude-special-files --exclude-globbing-filelist-stdin --max-file-size 7 --include-filelist l --exclude '**'` -/
def uses : List Use := [.symbolicLinks true, .specialFiles false, .globbingFilelistStdin false, .maxFileSize [55], .filelist true [108], .glob false [42, 42]]

def opts : List Opt := [.symlinks true, .special false, .globlist [45, 32, 42, 46, 111] false, .size [55] true, .filelist [47, 104, 47, 97, 10] true, .glob [42, 42] false]

example : List.Forall₂ (fun u o => Use.meaning world u = some o) uses opts ∧ inputs uses ≤ 1 := by
  refine ⟨?_, by decide⟩
  simp only [uses, opts, List.forall₂_cons, List.forall₂_nil_left_iff]
  decide +kernel

/-- the base directory is `/h` -/
def env : Env := ⟨[47, 104], 0, 10, world.int, fun _ => none, fun _ _ => false, fun _ _ => false⟩

example : env.int = world.int := rfl
example : ((run world.files world.stdin env (command [.symbolicLinks true, .maxFileSize [55], .filelist true [108], .glob false [42, 42]])).toOption.map List.length) = some 5 := by decide +kernel
example : (Use.filelist true [109]).meaning world = none ∧ (Use.maxFileSize [55, 107]).meaning world = none := by decide +kernel
example : ∀ u : Use, u.text ≠ "--include-everything".toList :=
  of_reps (P := fun u => u.text ≠ "--include-everything".toList) (by decide +kernel) (fun u h => by cases u <;> exact h)
example : (command [.glob true [97], .fifos false, .minFileSize [57]]).map (fun c => (String.ofList c.1, c.2)) =
    [("--include", some [97]), ("--exclude-fifos", none), ("--min-file-size", some [57])] := by decide +kernel
example : (run world.files world.stdin env (command [.fifos true, .glob false [42, 42]])).toOption.isNone = true := by decide +kernel

end Verif.C89
