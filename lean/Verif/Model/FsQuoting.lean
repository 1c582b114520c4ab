import Verif.Model.Filenames
/-
Which characters of file names are quoted in a repository: `src/rdiffbackup/locations/fs_abilities.py` (FA) 864-868, 904-971, 985-1069, 1101-1156,
`_repo_shadow.py` (RS) 212-232, 1986-2030, `map/filenames.py` 167-185.

Simplifications: what file systems can do is given (detected in FA 125-760). Not modelled: settings for attributes (FA 781-866), connections (`generics.set` sets a value
on all sides), and the interruption of writing the configuration (a first backup, started over: C56).
-/
namespace Verif.FsQuoting
open Verif Verif.Filenames

/-- FA 33-58 what a file system can do, as far as names are concerned; `extended`: names with other than ASCII characters, unknown for a file system which isn't written to -/
structure Fsa where
  caseSensitive : Bool
  extended : Option Bool
  winReserved : Bool
  escapeDos : Bool
  escapeTrailing : Bool
  deriving DecidableEq

/-- the quoting of a session: `generics.chars_to_quote`, `escape_dos_devices`, `escape_trailing_spaces` -/
structure Quoting where
  ctq : Bytes
  dos : Bool
  trailing : Bool
  deriving DecidableEq

/-- the configuration in a repository: the texts of the files `chars_to_quote` and `special_escapes`, if they are there -/
structure Config where
  ctq : Option Bytes
  esc : Option (List Char)
  deriving DecidableEq

/-! ### the configuration files -/

/-- `str.isspace` of the characters which occur -/
def isSpace (c : Char) : Bool := c = ' ' || c = '\n' || c = '\t' || c = '\r'

/-- `str.strip` -/
def strip (s : List Char) : List Char := ((s.dropWhile isSpace).reverse.dropWhile isSpace).reverse

/-- `str.split("\n")` -/
def lines : List Char → List (List Char)
  | [] => [[]]
  | c :: r =>
    if c = '\n' then [] :: lines r
    else match lines r with
      | [] => [[c]]
      | x :: xs => (c :: x) :: xs

/-- `"\n".join` -/
def joinLines : List (List Char) → List Char
  | [] => []
  | [a] => a
  | a :: b :: r => a ++ '\n' :: joinLines (b :: r)

def dosKey : List Char := "escape_dos_devices".toList
def trailingKey : List Char := "escape_trailing_spaces".toList

/-- RS 1986-2004 `get_config("special_escapes")` and FA 938-939, 1107-1108: the text, read -/
def readEscapes (text : List Char) : Bool × Bool :=
  let s := lines (strip text)
  (decide (dosKey ∈ s), decide (trailingKey ∈ s))

/-- FA 931-936, RS 2006-2030: the text which is written. The order of the elements of a set is not known: `flip`. -/
def writeEscapes (flip dos trailing : Bool) : List Char :=
  let l := (if dos then [dosKey] else []) ++ (if trailing then [trailingKey] else [])
  joinLines (if flip then l.reverse else l)

/-! ### which quoting -/

/-- FA 985-1006 `_get_ctq_from_fsas` -/
def suggested (src dst : Fsa) : Bytes :=
  let l := (if src.caseSensitive && !dst.caseSensitive then [65, 45, 90] else []) ++
    (if dst.extended = some false then [0, 45, 31] ++ [128, 45, 255] else []) ++
    (if dst.winReserved then (if dst.extended = some true then [0, 45, 31] else []) ++ [34, 42, 47, 58, 60, 62, 63, 92, 92, 124, 127] else [])
  if l = [] then [] else l ++ [semi]

/-- FA 1008-1069 `_compare_ctq_file`: the quoting of a backup and the new configuration; `opt`: the option `--chars-to-quote`. `none`: a fatal error, nothing is done. -/
def compareCtq (opt prev : Option Bytes) (sugg : Bytes) : Option (Bytes × Option Bytes) :=
  match prev with
  | none =>
    let actual := opt.getD sugg
    some (actual, some actual)
  | some p =>
    let actual := match opt with
      | none => if sugg ≠ [] ∧ sugg ≠ p then sugg else p
      | some o => o
    if actual = p then some (actual, some p) else none

/-- FA 904-956 `set_special_escapes` of a backup -/
def backupEscapes (flip : Bool) (src dst : Fsa) (prev : Option (List Char)) : (Bool × Bool) × Option (List Char) :=
  match prev with
  | none =>
    let dos := dst.escapeDos && !src.escapeDos
    let trailing := dst.escapeTrailing && !src.escapeTrailing
    ((dos, trailing), some (writeEscapes flip dos trailing))
  | some text => (readEscapes text, some text)

/-- FA 885-902 a backup's quoting, and the configuration afterwards -/
def backup (flip : Bool) (opt : Option Bytes) (src dst : Fsa) (cfg : Config) : Option (Quoting × Config) :=
  (compareCtq opt cfg.ctq (suggested src dst)).map fun x =>
    let e := backupEscapes flip src dst cfg.esc
    (⟨x.1, e.1.1, e.1.2⟩, ⟨x.2, e.2⟩)

/-- FA 127-152 `_detect_readonly`: what is detected of a file system which isn't written to (FA 50-52: the rest is `None`) -/
def readOnly (f : Fsa) : Fsa := { f with extended := none, winReserved := false }

/-- compare.py 103, repository.py 91-103: the repository is set up as for a backup, but isn't written to (RS 1975-1984). -/
def compareAction (flip : Bool) (opt : Option Bytes) (src dst : Fsa) (cfg : Config) : Option (Quoting × Config) := backup flip opt src (readOnly dst) cfg

/-- FA 1101-1156 the quoting of all other actions (except compare, see above). `repo`: the repository's file system; `other`: the one restored to (`none`: other actions, FA 1159-1210) -/
def quotingOf (opt : Option Bytes) (repo : Fsa) (other : Option Fsa) (cfg : Config) : Quoting :=
  let e := match cfg.esc with
    | some text => readEscapes text
    | none => match other with
      | some d => (repo.escapeDos && !d.escapeDos, repo.escapeTrailing && !d.escapeTrailing)
      | none => (repo.escapeDos, repo.escapeTrailing)
  ⟨(opt.orElse fun _ => cfg.ctq).getD [], e.1, e.2⟩

/-! ### names -/

/-- filenames.py 167-185: a bracket expression `[...]` of a regular expression. Not modelled: complements (`^` in front), classes as `\w`, and what isn't accepted. -/
def classOf : Bytes → UInt8 → Bool
  | [], _ => false
  | 92 :: c :: r, x => x = c || classOf r x
  | a :: 45 :: b :: r, x => (a ≤ x && x ≤ b) || classOf r x
  | a :: r, x => x = a || classOf r x

/-- RS 212-232 `_setup_quoting`: names are quoted only if there are characters to be quoted -/
def written (q : Quoting) (name : Bytes) : Bytes := if q.ctq = [] then name else quote (classOf q.ctq) q.trailing q.dos name

/-- filenames.py 84-91 `listdir` of a quoted path -/
def readBack (q : Quoting) (name : Bytes) : Bytes := if q.ctq = [] then name else unquote name

end Verif.FsQuoting
