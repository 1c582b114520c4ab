import Verif.Model.SelParse
/-
From the command line to the list of selection options: `src/rdiffbackup/utils/argopts.py` 28-141 (`SelectAction`, "AO"), `src/rdiffbackup/actions/__init__.py` 136-236
(`SELECTION_PARSER`, "AI"), and from there to `Opt` (Model/SelParse.lean): `src/rdiff_backup/selection.py` 150-239 ("SE").

Given: `argparse` splits the command line into options and their arguments (abbreviated options are completed), and calls the actions in this order. Left out: help texts, messages.
Strings of the program are lists of characters, what the user gives are bytes (`os.fsencode` undoes how Python reads the command line).
-/
namespace Verif.SelOpts
open Verif.SelParse Verif.Quoting Verif.Selection

abbrev Str := List Char

/-- `s.replace(pat, rep)` of Python, for `pat` which isn't empty; `k` characters belong to what was replaced -/
def replaceGo (pat rep : Str) : Nat → Str → Str
  | _, [] => []
  | k + 1, _ :: s => replaceGo pat rep k s
  | 0, c :: s => if pat.isPrefixOf (c :: s) then rep ++ replaceGo pat rep (pat.length - 1) s else c :: replaceGo pat rep 0 s

def replaceAll (pat rep s : Str) : Str := replaceGo pat rep 0 s

/-- `pat in s` -/
def contains (pat : Str) : Str → Bool
  | [] => pat.isEmpty
  | c :: s => pat.isPrefixOf (c :: s) || contains pat s

/-- the types of arguments -/
inductive Ty where
  | str | bool | int
deriving DecidableEq, Repr

/-- one `add_argument` with `SelectAction`: AI 139-236 -/
structure Arg where
  text : Str
  type : Ty := .str
  default : Option Bool := none
deriving DecidableEq, Repr

/-- AI 139-236 `SELECTION_PARSER` -/
def parser : List Arg :=
  [{ text := "--SELECT".toList },
   { text := "--SELECT-device-files".toList, type := .bool, default := some true },
   { text := "--SELECT-fifos".toList, type := .bool, default := some true },
   { text := "--SELECT-filelist".toList },
   { text := "--SELECT-filelist-stdin".toList, type := .bool },
   { text := "--SELECT-symbolic-links".toList, type := .bool, default := some true },
   { text := "--SELECT-sockets".toList, type := .bool, default := some true },
   { text := "--SELECT-globbing-filelist".toList },
   { text := "--SELECT-globbing-filelist-stdin".toList, type := .bool },
   { text := "--SELECT-other-filesystems".toList, type := .bool, default := some true },
   { text := "--SELECT-regexp".toList },
   { text := "--SELECT-if-present".toList },
   { text := "--SELECT-special-files".toList, type := .bool, default := some true },
   { text := "--max-file-size".toList, type := .int },
   { text := "--min-file-size".toList, type := .int }]

def tr (old new : Char) (s : Str) : Str := s.map fun c => if c = old then new else c

/-- `argparse` (given): the destination is the option without dashes in front, the others made underscores. AO 72-73: then it's replaced by `selections` -/
def Arg.dest (a : Arg) : Str :=
  let d := tr '-' '_' (a.text.dropWhile (· = '-'))
  if ['-', '-'] ++ tr '_' '-' d ∈ [a.text] then "selections".toList else d

/-- AO 75-76: the number of arguments (1: `nargs` is `None`) -/
def Arg.nargs (a : Arg) : Nat := if a.type = .bool then 0 else 1

/-- AO 77-78: the default -/
def Arg.dflt (a : Arg) : Option Bool := if a.type = .bool ∧ a.default = none then some true else a.default

/-- AO 80-89: the options for the placeholder -/
def Arg.strings (a : Arg) : List Str :=
  let incl := [a.text].map (replaceAll "SELECT".toList "include".toList)
  let excl := [a.text].map (replaceAll "SELECT".toList "exclude".toList)
  if excl ≠ incl then excl ++ incl else [a.text]

/-- what is kept for an option: AO 135-140 -/
inductive Value where
  | text (b : Bytes)
  | flag (b : Bool)
  | empty
  | list (content : Bytes)
deriving DecidableEq, Repr

/-- standard input when it's read -/
inductive Stdin where
  | content (b : Bytes)
  | fails
  | closed
deriving DecidableEq, Repr

/-- the files which can be read, by name -/
abbrev Files := Bytes → Option Bytes

/-- how the options are refused -/
inductive Bad where
  /-- `ArgumentError`: a message and the end of the program -/
  | argument
  /-- `ValueError`: standard input is already closed -/
  | closed
  /-- `RuntimeError` (SE 190): an option unknown to the selection -/
  | unknown
  /-- SE 191-194 -/
  | sel (e : SelParse.Err)
deriving DecidableEq, Repr

/-- the list of options so far (`namespace.selections`), and standard input -/
structure State where
  sels : List (Str × Value)
  stdin : Stdin
deriving DecidableEq, Repr

/-- AO 120-135: the content of a list, standard input afterwards -/
def readContent (files : Files) (stdin : Stdin) (opt : Str) (v : Value) : Except Bad (Bytes × Stdin) :=
  if "-stdin".toList.isSuffixOf opt then
    match stdin with
    | .content b => .ok (b, .closed)
    | .fails => .error .argument
    | .closed => .error .closed
  else
    match v with
    | .text f =>
        match files f with
        | some b => .ok (b, stdin)
        | none => .error .argument
    | _ => .error .argument

/-- AO 136-140 -/
def append (a : Arg) (st : State) (opt : Str) (v : Value) : State :=
  let v' := if v = .empty then (match a.dflt with | some b => .flag b | none => v) else v
  { st with sels := st.sels ++ [(replaceAll "--".toList [] opt, v')] }

/-- AO 108-140 `SelectAction.__call__` -/
def call (files : Files) (a : Arg) (st : State) (opt : Str) (v : Value) : Except Bad State :=
  if contains "filelist".toList opt then
    match readContent files st.stdin opt v with
    | .error e => .error e
    | .ok (c, si) =>
        let opt' := if "-stdin".toList.isSuffixOf opt then opt.take (opt.length - 6) else opt
        .ok (append a { st with stdin := si } opt' (.list c))
  else .ok (append a st opt v)

/-- `argparse` (given): the value of an option's argument: none, a string, or a number, which stays as it's written here (`int` is done again later, SE 625) -/
def value (int : Bytes → Option Int) (a : Arg) : Option Bytes → Option Value
  | none => if a.nargs = 0 then some .empty else none
  | some b => if a.nargs = 0 then none else if a.type = .int ∧ int b = none then none else some (.text b)

/-- `argparse` (given): the options of the command line one after another, each with the action which has it -/
def parse (files : Files) (int : Bytes → Option Int) : State → List (Str × Option Bytes) → Except Bad State
  | st, [] => .ok st
  | st, (o, x) :: rest =>
      match parser.find? (fun a => a.strings.contains o) with
      | none => .error .argument
      | some a =>
          match value int a x with
          | none => .error .argument
          | some v =>
              match call files a st o v with
              | .error e => .error e
              | .ok st' => parse files int st' rest

/-- SE 208-221 `_sel_noargs_mapping` -/
def noArgs : List (Str × Opt) :=
  [("exclude-special-files".toList, .special false), ("exclude-symbolic-links".toList, .symlinks false), ("exclude-device-files".toList, .devices),
   ("exclude-sockets".toList, .sockets), ("exclude-fifos".toList, .fifos), ("exclude-other-filesystems".toList, .otherFs),
   ("include-special-files".toList, .special true), ("include-symbolic-links".toList, .symlinks true)]

/-- the methods which make a condition of an argument -/
inductive Fn where
  | glob | regexp | presence | size
deriving DecidableEq, Repr

def Fn.opt : Fn → Bytes → Bool → Opt
  | .glob, x, i => .glob x i
  | .regexp, x, i => .regexp x i
  | .presence, x, i => .presence x i
  | .size, x, m => .size x m

/-- SE 222-231 `_sel_onearg_mapping`; `Select.MIN` is `false`, `Select.MAX` `true` -/
def oneArg : List (Str × (Fn × Bool)) :=
  [("exclude".toList, .glob, false), ("exclude-regexp".toList, .regexp, false), ("exclude-if-present".toList, .presence, false),
   ("include".toList, .glob, true), ("include-regexp".toList, .regexp, true), ("include-if-present".toList, .presence, true),
   ("min-file-size".toList, .size, false), ("max-file-size".toList, .size, true)]

/-- SE 232-235 `_sel_filelist_mapping` -/
def listOpts : List (Str × Bool) := [("exclude-filelist".toList, false), ("include-filelist".toList, true)]

/-- SE 236-239 `_sel_globfilelist_mapping` -/
def globlistOpts : List (Str × Bool) := [("exclude-globbing-filelist".toList, false), ("include-globbing-filelist".toList, true)]

/-- a look into a dictionary -/
def find {β : Type} (k : Str) : List (Str × β) → Option β
  | [] => none
  | (a, b) :: r => if a = k then some b else find k r

/-- SE 160-190: which condition an option is about. Arguments of another kind (`_`) are never given: a `TypeError` there. -/
def optOf (s : Str × Value) : Option Opt :=
  match find s.1 noArgs with
  | some o => some o
  | none =>
  match find s.1 oneArg, s.2 with
  | some (f, i), .text x => some (f.opt x i)
  | some _, _ => none
  | none, v =>
  match find s.1 listOpts, v with
  | some i, .list c => some (.filelist c i)
  | some _, _ => none
  | none, v =>
  match find s.1 globlistOpts, v with
  | some i, .list c => some (.globlist c i)
  | _, _ => none

/-- SE 158-190: the conditions of all options -/
def conds (e : Env) : List (Str × Value) → Except Bad (List (Cond Bytes))
  | [] => .ok []
  | s :: r =>
      match optOf s with
      | none => .error .unknown
      | some o =>
          match condsOf e o with
          | .error x => .error (.sel x)
          | .ok cs =>
              match conds e r with
              | .error x => .error x
              | .ok ds => .ok (cs ++ ds)

/-- SE 150-200 `parse_selection_args` -/
def parseSelections (e : Env) (sels : List (Str × Value)) : Except Bad (List (Cond Bytes)) :=
  match conds e sels with
  | .error x => .error x
  | .ok cs =>
      if cs.getLast?.any (fun c => !c.exclude) then .error (.sel .lastIncludes)
      else .ok (withRbdir dataDir cs)

/-- `argparse` (given): the destination `selections` begins as the default of the first action which has it. AO 115-119: `None` is no options; a boolean could not be extended. -/
def start (stdin : Stdin) : Option State :=
  match parser.find? (fun a => a.dest = "selections".toList) with
  | some a => if a.dflt = none then some ⟨[], stdin⟩ else none
  | none => none

/-- the options of the command line, and the selection made of them (`actions`: `selections` of `set_select`) -/
def run (files : Files) (stdin : Stdin) (e : Env) (cmd : List (Str × Option Bytes)) : Except Bad (List (Cond Bytes)) :=
  match start stdin with
  | none => .error .unknown
  | some st =>
      match parse files e.int st cmd with
      | .error x => .error x
      | .ok st => parseSelections e st.sels

end Verif.SelOpts
