import Mathlib.Data.List.Lex
/-
Model of the parsing and matching of globs, `src/rdiff_backup/selection.py` 644-836, byte by byte.

`_glob_to_re` works on the pattern decoded to a string and encodes the resulting regular expression; all characters with a meaning are
ASCII and every other byte is copied, so that the model works on bytes throughout. The regular expression is kept as a list of its parts
(`Tok`), and `re.match` is modelled by a backtracking matcher (`rmatch`).
-/
namespace Verif.Glob

/-- a character of a file name (selection.py 644-836 works on bytes) -/
abbrev Byte := UInt8
/-- Python's `bytes` -/
abbrev Bytes := List UInt8

/-- parts of the regular expression: `re.escape(c)`, `.*`, `[^/]*`, `[^/]`, `[stuff]` or `[^stuff]` -/
inductive Tok
  | lit (c : Byte)
  | any
  | star
  | one
  | cls (neg : Bool) (body : Bytes)
  deriving DecidableEq

/-- 818-826: `str_pat[i:j]` and what follows `]`, from the text after `[` -/
def classEnd (r : Bytes) : Option (Bytes × Bytes) :=
  let j := if r.head? = some 33 ∨ r.head? = some 94 then 1 else 0
  let j := if r[j]? = some 93 then j + 1 else j
  match (r.drop j).findIdx? (· = 93) with
  | none => none
  | some k => some (r.take (j + k), r.drop (j + k + 1))

/-- 830-832: `!` or `^` at the beginning negates -/
def mkClass (stuff : Bytes) : Tok :=
  if stuff.head? = some 33 ∨ stuff.head? = some 94 then .cls true stuff.tail else .cls false stuff

theorem classEnd_length {r stuff p : Bytes} (h : classEnd r = some (stuff, p)) : p.length < r.length := by
  simp only [classEnd] at h
  split at h
  · simp at h
  · next k hk =>
    obtain ⟨h1, -, -⟩ := List.findIdx?_eq_some_iff_getElem.1 hk
    simp only [Option.some.injEq, Prod.mk.injEq] at h
    rw [← h.2]
    simp only [List.length_drop] at h1 ⊢
    omega

/-- 789-836 `_glob_to_re` -/
def parse : Bytes → List Tok
  | [] => []
  | c :: r =>
    if c = 92 then
      match r with
      | [] => [.lit 92]
      | d :: r' => .lit d :: parse r'
    else if c = 42 then
      match r with
      | [] => [.star]
      | d :: r' => if d = 42 then .any :: parse r' else .star :: parse (d :: r')
    else if c = 63 then .one :: parse r
    else if c = 91 then
      match h : classEnd r with
      | none => .lit 91 :: parse r
      | some (stuff, p) => mkClass stuff :: parse p
    else .lit c :: parse r
  termination_by r => r.length
  decreasing_by
    all_goals simp_wf
    all_goals first | omega | (have := classEnd_length h; omega)

/-- `bytes.lower` for one byte -/
def lower (c : Byte) : Byte := if 65 ≤ c ∧ c ≤ 90 then c + 32 else c

/-- literals under `re.I` (`fold`) -/
def sameChar (fold : Bool) (a b : Byte) : Bool := if fold then lower a = lower b else a = b

/-- the characters of `[...]` in Python's `re`: ranges `x-y`, and single characters; `none`: bad character range (`re.error`).
(Backslashes have been doubled at 828, hence they stand for themselves.) -/
def ranges : Bytes → Option (List (Byte × Byte))
  | [] => some []
  | [x] => some [(x, x)]
  | [x, y] => some [(x, x), (y, y)]
  | x :: y :: z :: r =>
    if y = 45 then (if z < x then none else (ranges r).map ((x, z) :: ·)) else (ranges (y :: z :: r)).map ((x, x) :: ·)

/-- `c` is one of the characters of the class, under `re.I` up to case -/
def inClass (fold : Bool) (body : Bytes) (c : Byte) : Bool :=
  ((ranges body).getD []).any fun r => (List.range 256).any fun x => r.1.toNat ≤ x && x ≤ r.2.toNat && sameChar fold (UInt8.ofNat x) c

/-- the loop of `.*` or `[^/]*` -/
def starLoop (p : Byte → Bool) (m : Bytes → Bool) : Bytes → Bool
  | [] => m []
  | c :: s => m (c :: s) || (p c && starLoop p m s)

/-- `re.match` of the parts at the beginning of the string, followed by `k` -/
def rmatch (fold : Bool) (k : Bytes → Bool) : List Tok → Bytes → Bool
  | [], s => k s
  | .any :: ts, s => starLoop (fun _ => true) (rmatch fold k ts) s
  | .star :: ts, s => starLoop (· ≠ 47) (rmatch fold k ts) s
  | .lit c :: ts, s => match s with | [] => false | d :: s => sameChar fold c d && rmatch fold k ts s
  | .one :: ts, s => match s with | [] => false | d :: s => d ≠ 47 && rmatch fold k ts s
  | .cls neg body :: ts, s => match s with | [] => false | d :: s => (inClass fold body d != neg) && rmatch fold k ts s

/-- `$`: at the end of the string or before a newline at the end -/
def dollar (s : Bytes) : Bool := s = [] ∨ s = [10]

/-- 733 `glob_comp_re` -/
def globRe (fold : Bool) (g s : Bytes) : Bool := rmatch fold (fun r => dollar r || r.head? = some 47) (parse g) s

/-- 735-736 -/
def truncate : Bytes → Bytes
  | [] => []
  | c :: r => if c = 42 ∧ r.head? = some 42 then [42, 42] else c :: truncate r

/-- `bytes.split(b"/")` -/
def split : Bytes → List Bytes
  | [] => [[]]
  | c :: r => if c = 47 then [] :: split r else match split r with | [] => [[c]] | p :: ps => (c :: p) :: ps

/-- `b"/".join` -/
def join : List Bytes → Bytes
  | [] => []
  | [p] => p
  | p :: ps => p ++ 47 :: join ps

/-- `re.fullmatch(b"[a-zA-Z*]:", p)` -/
def isDrive (p : Bytes) : Bool :=
  match p with
  | [a, b] => b = 58 && (97 ≤ a && a ≤ 122 || 65 ≤ a && a ≤ 90 || a = 42)
  | _ => false

/-- 763-787 `_glob_get_prefix_res` (not on Windows): the prefixes; `none`: GlobbingError -/
def prefixes (g : Bytes) : Option (List Bytes) :=
  let parts := split g
  if parts.tail.dropLast.any (· = []) then none
  else
    let ps := (List.range parts.length).map fun i => join (parts.take (i + 1))
    some (match ps with
      | [] => []
      | p :: ps => (if p = [] ∨ isDrive p then p ++ [47] else p) :: ps)

/-- 738-740 `scan_comp_re` -/
def scanRe (fold : Bool) (ps : List Bytes) (s : Bytes) : Bool := ps.any fun p => rmatch fold dollar (parse p) s

/-- the classes of the regular expression are accepted by `re.compile` -/
def compiles (ts : List Tok) : Bool :=
  ts.all fun t => match t with | .cls _ body => (ranges body).isSome | _ => true

/-- "ignorecase:" -/
def ignorecase : Bytes := [105, 103, 110, 111, 114, 101, 99, 97, 115, 101, 58]

/-- 721-731: flags and the glob itself -/
def flags (g : Bytes) : Bool × Bytes :=
  if (g.take 11).map lower = ignorecase then (true, g.drop 11) else (false, g)

/-- 706-761 `_glob_get_normal_sf` for the base directory `base`: the functions `glob_comp_re.match` and `scan_comp_re.match` on paths;
`none` if an exception is raised -/
def normalSf (base g : Bytes) : Option ((Bytes → Bool) × (Bytes → Bool)) :=
  let (fold, g) := flags g
  if !compiles (parse g) then none
  else
    match prefixes (truncate g) with
    | none => none
    | some ps =>
      if !ps.all (fun p => compiles (parse p)) then none
      else if globRe fold g base || scanRe fold ps base then some (globRe fold g, scanRe fold ps)
      else none                                       -- FilePrefixError

/-- `RORPath.path_join` (rpath.py 104-122) of a path and a name: `os.path.join` -/
def joinName (p n : Bytes) : Bytes := if p = [] ∨ p.getLast? = some 47 then p ++ n else p ++ 47 :: n

/-- the path of the file with this index -/
def path (base : Bytes) (i : List Bytes) : Bytes := i.foldl joinName base

end Verif.Glob
