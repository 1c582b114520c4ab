import Verif.Model.Location
/-
The command which starts a server: `src/rdiff_backup/SetConnections.py` (SC) 43-100 `get_cmd_pairs`, 273-311 `_fill_schema`, with Python's `str.format`
(CPython `Objects/stringlib/unicode_format.h`, `MarkupIterator_next`, `parse_field`).

Bytes stand for the characters which they are decoded to and encoded from (SC 300-301): braces, letters and digits are ASCII, and `os.fsencode` undoes `os.fsdecode`.
123 and 125 are the braces, 104 `h`, 86 `V`, 120-122 `x`, `y`, `z`.
-/
namespace Verif.Schema
open Verif.Quoting

/-- The text up to a closing brace, and the rest, if there is no opening brace before: `[^{}]*}` -/
def inner : Bytes → Option (Bytes × Bytes)
  | [] => none
  | c :: r =>
      if c = 125 then some ([], r)
      else if c = 123 then none
      else match inner r with
        | none => none
        | some (a, b) => some (c :: a, b)

/-- SC 290: `findall(b"(?<!{){[^{}]*}")`, without the braces around each. `prev`: the byte before is an opening brace. A match has no opening brace inside, so that to go on
after the match is the same as to go on after its first byte. -/
def find1 : Bool → Bytes → List Bytes
  | _, [] => []
  | prev, c :: r =>
      if c = 123 then
        (if prev then [] else match inner r with | none => [] | some (a, _) => [a]) ++ find1 true r
      else find1 false r

/-- `h}` or `V[xyz]}` at the beginning -/
def name? : Bytes → Option Bytes
  | 104 :: 125 :: _ => some [104]
  | 86 :: 120 :: 125 :: _ => some [86, 120]
  | 86 :: 121 :: 125 :: _ => some [86, 121]
  | 86 :: 122 :: 125 :: _ => some [86, 122]
  | _ => none

/-- SC 291: `findall(b"{h}|{V[xyz]}")`, likewise -/
def find2 : Bytes → List Bytes
  | [] => []
  | c :: r => (if c = 123 then (name? r).toList else []) ++ find2 r

/-- What `format` does -/
inductive Res where
  | ok (b : Bytes)
  | keyError
  | valueError
  /-- a field with an attribute, an index, a conversion, a format or without a name: its value, or some other exception -/
  | other
  /-- a field within the format of another one: its value, or some exception -/
  | nested
deriving DecidableEq, Repr

def Res.pre (a : Bytes) : Res → Res
  | .ok b => .ok (a ++ b)
  | r => r

/-- the four values which SC 300-307 hands over -/
structure Vars where
  h : Bytes
  vx : Bytes
  vy : Bytes
  vz : Bytes

def value (v : Vars) (name : Bytes) : Option Bytes :=
  if name = [104] then some v.h
  else if name = [86, 120] then some v.vx
  else if name = [86, 121] then some v.vy
  else if name = [86, 122] then some v.vz
  else none

/-- `.` `:` `!` `[` -/
def special (c : UInt8) : Bool := c = 46 || c = 58 || c = 33 || c = 91

/-- positions instead of names -/
def positional (name : Bytes) : Bool := name.all fun c => 48 ≤ c && c ≤ 57

/-- Python's `format`, on literal text (`none`) or within a field of which the given bytes were read. Errors are raised in the order of the text. -/
def format (v : Vars) : Option Bytes → Bytes → Res
  | none, [] => .ok []
  | none, c :: r =>
      if c = 123 then
        match r with
        | [] => .valueError
        | c' :: r' => if c' = 123 then (format v none r').pre [123] else format v (some []) (c' :: r')
      else if c = 125 then
        match r with
        | [] => .valueError
        | c' :: r' => if c' = 125 then (format v none r').pre [125] else .valueError
      else (format v none r).pre [c]
  | some _, [] => .valueError
  | some acc, c :: r =>
      if c = 123 then (if acc.any special then .nested else .valueError)
      else if c = 125 then
        match value v acc with
        | some b => (format v none r).pre b
        | none => if acc.any special || positional acc then .other else .keyError
      else format v (some (acc ++ [c])) r

/-- How filling the schema ends: with a command, with the message about an invalid schema (SC 309-311), or otherwise -/
inductive Fill where
  | cmd (b : Bytes)
  | invalid
  | traceback
  | unsafeField
deriving DecidableEq, Repr

/-- SC 289-293: the check -/
def check (schema : Bytes) : Bool := find1 false schema = find2 schema && (find2 schema).contains [104]

/-- SC 273-311 `_fill_schema`. `{h}` is part of the schema iff it is found by the second expression. -/
def fill (v : Vars) (schema : Bytes) : Fill :=
  if !check schema then .invalid
  else match format v none schema with
    | .ok b => .cmd b
    | .keyError => .invalid
    | .valueError => .traceback
    | .other => .unsafeField
    | .nested => .unsafeField

/-- ASCII text -/
def asc (s : String) : Bytes := s.toList.map fun c => c.toNat.toUInt8

/-- SC 59-73: the schema; `tempdir` is the option `--remote-tempdir` (`none` also if it is empty), `verb` the digits of the verbosity -/
def schemaOf (remoteSchema : Option Bytes) (compression : Bool) (tempdir verb : Option Bytes) : Bytes :=
  match remoteSchema with
  | some s => s
  | none =>
      (if compression then asc "ssh -C {h} rdiff-backup" else asc "ssh {h} rdiff-backup") ++
      (match tempdir with | none => [] | some t => asc " --tempdir=" ++ t) ++
      (match verb with | none => [] | some d => asc " --terminal-verbosity " ++ d) ++
      asc " server"

/-- How `get_cmd_pairs` fails: an error in a location (SC 79-81), or the schema can't be filled -/
inductive Err where
  | location (e : Location.Error)
  | schema (f : Fill)
deriving DecidableEq, Repr

/-- SC 75-81: all locations are parsed first, and the first error is raised -/
def parseAll : List Bytes → Except Err (List (Option Bytes × Bytes))
  | [] => .ok []
  | l :: r =>
      match Location.parse l with
      | .error e => .error (.location e)
      | .ok p =>
          match parseAll r with
          | .error e => .error e
          | .ok ps => .ok (p :: ps)

/-- SC 89-100: a command for each pair with a host -/
def fillAll (vars : Bytes → Vars) (schema : Bytes) : List (Option Bytes × Bytes) → Except Err (List (Option Bytes × Bytes))
  | [] => .ok []
  | (none, p) :: r =>
      match fillAll vars schema r with
      | .error e => .error e
      | .ok ps => .ok ((none, p) :: ps)
  | (some h, p) :: r =>
      match fill (vars h) schema with
      | .cmd c =>
          match fillAll vars schema r with
          | .error e => .error e
          | .ok ps => .ok ((some c, p) :: ps)
      | f => .error (.schema f)

/-- SC 43-100 `get_cmd_pairs` -/
def cmdPairs (vars : Bytes → Vars) (schema : Bytes) (locations : List Bytes) : Except Err (List (Option Bytes × Bytes)) :=
  match parseAll locations with
  | .error e => .error e
  | .ok ps => fillAll vars schema ps

end Verif.Schema
