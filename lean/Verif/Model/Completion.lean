import Mathlib.Data.List.Sort
import Mathlib.Data.List.Lex

/-
Completion of command lines: `src/rdiffbackup/actions/complete.py` 63-86 (`pre_check`), 92-113 (`run`), 115-156 (`_get_possible_options`), 158-187
(`_get_possible_sub_options`), 189-238 (`_get_matching_options`), 240-259 (`_get_options_dict`).

Simplifications: the parsers of argparse are a tree of the names of the options, of the actions, and of how many locations there are; the log isn't modelled.
Options whose names differ only in dashes are sorted in any order by the code (a set), here as the parser lists them.
-/
namespace Verif.Completion

abbrev Word := List Char

/-- an option, of which the code looks at: `typed`: 202-206 its `type` is set, and not to `bool`; its choices; `file`: 209-213 it is of type `FileType`, or
a string with a metavar which ends with `_FILE`. `takes`: a value follows on the command line (the code doesn't look at this) -/
structure Opt where
  takes : Bool
  typed : Bool
  choices : List Word
  file : Bool
  deriving DecidableEq

/-- `nargs` of the locations: `*` or `+`, `?`, a number -/
inductive Nargs
  | many | optional | exactly (n : Nat)

/-- 240-259: a parser, the names of its (sub-)actions, with a parser for each of them; `empty`: the parser of what isn't the name of an action, which is never used -/
inductive Parser
  | empty
  | mk (opts : List (Word × Opt)) (names : List Word) (sub : Word → Parser) (locs : Option Nargs)

def Parser.opts : Parser → List (Word × Opt) | .empty => [] | .mk o _ _ _ => o
def Parser.names : Parser → List Word | .empty => [] | .mk _ n _ _ => n
def Parser.sub : Parser → Word → Parser | .empty, _ => .empty | .mk _ _ s _, w => s w
def Parser.locs : Parser → Option Nargs | .empty => none | .mk _ _ _ l => l

def fileMark : Word := "::file::".toList

/-- 199-216: what is proposed as value of an option; `none`: go on -/
def valueOf (o : Opt) : Option (List Word) :=
  if o.typed then some (if o.choices ≠ [] then o.choices else if o.file then [fileMark] else []) else none

/-- 227: dashes don't count -/
def key (w : Word) : Word := w.filter (· ≠ '-')

/-- 227 `sorted` -/
def sorted (l : List Word) : List Word := l.insertionSort fun a b => key a ≤ key b

/-- 230-235: is a location expected at the cursor (for `?` 234 raises an exception if 233 doesn't hold, but no action uses it) -/
def wantsFile (locs : Option Nargs) (len cword : Nat) : Bool :=
  match locs with
  | none => false
  | some .many => true
  | some .optional => decide (len ≤ cword + 1)
  | some (.exactly n) => decide (len ≤ cword + n)

/-- 189-238 `_get_matching_options`; `none`: an exception (`options_set` has no value at 227 if not `unique`) -/
def matching (options : List (Word × Opt)) (locs : Option Nargs) (words : List Word) (cword : Nat) (unique : Bool) : Option (List Word) :=
  let word := words.getD cword []
  match (options.lookup (words.getD (cword - 1) [])).bind valueOf with
  | some l => some l
  | none =>
    let found := if word = [] then options.map (·.1) else (options.map (·.1)).filter fun o => word.isPrefixOf o
    let isMatched := decide (word ≠ [] ∧ found ≠ [])
    if unique then
      -- 222-225, a union of sets
      let set := found.filter fun o => decide (o ∉ words ∨ (word ≠ [] ∧ o = word))
      some (sorted set ++ if !isMatched && wantsFile locs words.length cword then [fileMark] else [])
    else none

/-- 133, 167, 186: the options and the names of the actions -/
def both (P : Parser) : List (Word × Opt) := P.opts ++ P.names.map fun n => (n, { takes := false, typed := false, choices := [], file := false })

/-- 158-187 `_get_possible_sub_options`; 176-183: without a `return` the result is `None`, which can't be iterated over -/
def subOptions (P : Parser) (words : List Word) (cword : Nat) (unique : Bool) : Option (List Word) :=
  match P with
  | .empty => matching [] none words cword unique
  | .mk opts names sub locs =>
    if words.length = 2 then matching (both (.mk opts names sub locs)) locs words cword unique
    else match words.findIdx? (fun w => decide (w ∈ names)) with
      | none => matching (both (.mk opts names sub locs)) locs words cword unique
      | some k =>
        if cword = k then some [words.getD k []]
        else if k < cword then subOptions (sub (words.getD k [])) (words.drop k) (cword - k) unique
        else none

/-- 124-156 `_get_possible_options`, but for the negative indices -/
def options (P : Parser) (words : List Word) (cword : Nat) (unique : Bool) : Option (List Word) :=
  if words.length = 1 ∨ cword = 0 then some [words.getD 0 []]
  else if words.length = 2 then matching (both P) P.locs words cword unique
  else match words.findIdx? (fun w => decide (w ∈ P.names)) with
    | none => matching (both P) P.locs words cword unique
    | some k =>
      if cword = k then some [words.getD k []]
      else if k < cword then subOptions (P.sub (words.getD k [])) (words.drop k) (cword - k) unique
      else matching P.opts P.locs words cword unique

inductive Result
  | refused | crash | lines (l : List Word)
  deriving DecidableEq

/-- 63-86 `pre_check` (an index into a list of Python: from the end if it is negative), 92-113 `run`, 115-121 -/
def run (P : Parser) (words : List Word) (cword : Int) (unique : Bool) : Result :=
  let len : Int := words.length
  if words = [] ∨ cword < -len ∨ len ≤ cword then .refused
  else match options P words (if cword < 0 then cword + len else cword).toNat unique with
    | none => .crash
    | some l => .lines l

end Verif.Completion
