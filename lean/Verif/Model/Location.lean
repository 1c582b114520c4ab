import Verif.Model.Quoting
/-
Locations given on the command line: `src/rdiff_backup/SetConnections.py` 177-270 `parse_location`.
58 is the colon, 92 the backslash, 47 the slash, 10 the newline.
-/
namespace Verif.Location
open Verif.Quoting

/-- The number of backslashes at the beginning. -/
def run (s : Bytes) : Nat := (s.takeWhile (· = 92)).length

/-- `::` at the beginning; what comes after -/
def afterSep : Bytes → Option Bytes
  | 58 :: 58 :: r => some r
  | _ => none

/-- The regular expression `(\\{2})*::` (SetConnections.py 192) at the beginning of `s`: the number of backslashes, and the rest. The stars take pairs, and
after them there must be a colon, hence all backslashes are taken and their number is even. -/
def matchHere (s : Bytes) : Option (Nat × Bytes) :=
  if run s % 2 = 0 then (afterSep (s.drop (run s))).map fun rest => (run s, rest) else none

/-- The leftmost match of `(?<!\\)(\\{2})*::`; `prev`: is there a backslash before? The result: what is before, the number of backslashes, what is after. -/
def search : Bool → Bytes → Option (Bytes × Nat × Bytes)
  | _, [] => none
  | prev, c :: rest =>
    match (if prev then none else matchHere (c :: rest)) with
    | some m => some ([], m.1, m.2)
    | none => (search (c = 92) rest).map fun x => (c :: x.1, x.2.1, x.2.2)

theorem search_length {prev : Bool} {s b a : Bytes} {k : Nat} (h : search prev s = some (b, k, a)) : a.length < s.length := by
  induction s generalizing prev b with
  | nil => cases h
  | cons c s ih =>
    simp only [search] at h
    split at h
    · next m hm =>
      cases h
      split at hm
      · cases hm
      · simp only [matchHere] at hm
        split at hm
        · obtain ⟨r, hr, e⟩ := Option.map_eq_some_iff.mp hm
          cases e
          simp only [afterSep] at hr
          split at hr
          · next r' hd =>
            cases hr
            have := congrArg List.length hd
            simp only [List.length_drop, List.length_cons] at this ⊢
            omega
          · cases hr
        · cases hm
    · obtain ⟨⟨b', k', a'⟩, h1, h2⟩ := Option.map_eq_some_iff.mp h
      cases h2
      have : a'.length < s.length := ih h1
      show a'.length < s.length + 1
      omega

/-- SetConnections.py 191-193: `re.split`, without the `None`. The group matches several times if there are several pairs of backslashes, and what
`re.split` returns is the last of them only. -/
def splitRe (s : Bytes) : List Bytes :=
  match _h : search false s with
  | none => [s]
  | some (b, k, a) => (if k = 0 then [b] else [b, [92, 92]]) ++ splitRe a
termination_by s.length
decreasing_by exact search_length _h

/-- SetConnections.py 201: `^(\\{2})+$`; the dollar sign also matches before a newline at the end. -/
def isPairs (p : Bytes) : Bool :=
  let q := if p.getLast? = some 10 then p.dropLast else p
  q ≠ [] && q.length % 2 = 0 && q.all (· = 92)

/-- SetConnections.py 200-207: one step of the loop over the reversed parts -/
def stitchOne (x : Option Bytes × List Bytes) (part : Bytes) : Option Bytes × List Bytes :=
  if isPairs part then (some part, x.2)
  else
    match x.1 with
    | some keep => (none, (part ++ keep) :: x.2)
    | none => (none, part :: x.2)

/-- SetConnections.py 198-208; the list is built from its end, and so need not be reversed -/
def stitch (parts : List Bytes) : List Bytes := (parts.reverse.foldl stitchOne (none, [])).2

/-- `split(b"\\\\")` with a double backslash -/
def splitDbs : Bytes → List Bytes
  | [] => [[]]
  | 92 :: 92 :: r => [] :: splitDbs r
  | c :: r =>
    match splitDbs r with
    | [] => [[c]]
    | x :: xs => (c :: x) :: xs

/-- `replace(b"\\:", b":")` -/
def replaceColon : Bytes → Bytes
  | [] => []
  | 92 :: 58 :: r => 58 :: replaceColon r
  | c :: r => c :: replaceColon r

/-- `b"\\".join` -/
def joinSbs : List Bytes → Bytes
  | [] => []
  | [x] => x
  | x :: y :: r => x ++ 92 :: joinSbs (y :: r)

/-- SetConnections.py 250-254, 262 -/
def unquote (s : Bytes) : Bytes := joinSbs ((splitDbs s).map replaceColon)

/-- SetConnections.py 257-270, 320-352: the error messages -/
inductive Error where
  | tooMany | nothing | noHost | noPath
  deriving DecidableEq, Repr

/-- SetConnections.py 257-261 -/
def isUnc (p : Bytes) : Bool :=
  match p with
  | 92 :: 92 :: c :: _ => c ≠ 92
  | _ => false

/-- SetConnections.py 256-270 -/
def fixPath (p : Bytes) : Bytes :=
  let q := (unquote p).map fun c => if c = 92 then 47 else c
  if isUnc p then 47 :: q else q

/-- SetConnections.py 177-270 `parse_location` -/
def parse (s : Bytes) : Except Error (Option Bytes × Bytes) :=
  match stitch (splitRe s) with
  | [] => .error .nothing
  | [p] => .ok (none, fixPath p)
  | [h, p] =>
    if h = [] then .error .noHost
    else if p = [] then .error .noPath
    else .ok (some (unquote h), fixPath p)
  | _ => .error .tooMany

end Verif.Location
