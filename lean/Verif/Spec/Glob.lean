import Mathlib.Data.List.Lex
/-
What a glob stands for, as in the manual page (docs/rdiff-backup.1.adoc 569-576): `*` any string without `/`, `?` any character but `/`, `**` any
string, `[...]` one of the characters specified (also ranges; `!` or `^` in front: any other), a backslash takes the meaning of the next character away,
other characters stand for themselves, with `ignorecase:` (`fold`) up to case.
-/
namespace Verif.Spec.Glob

abbrev Bytes := List UInt8

/-- the same letter -/
def Like (fold : Bool) (a b : UInt8) : Prop :=
  a = b ∨ fold = true ∧ ((65 ≤ a ∧ a ≤ 90 ∧ b = a + 32) ∨ (65 ≤ b ∧ b ≤ 90 ∧ a = b + 32))

/-- a `[...]` and what follows it: `r` (the text after `[`) is an optional `!` or `^`, then `body`, then `]`, then `p`; a `]` is part of the body
if it is the first character of it -/
def ClassText (r : Bytes) (neg : Bool) (body p : Bytes) : Prop :=
  (neg = true ∧ (r = 33 :: body ++ 93 :: p ∨ r = 94 :: body ++ 93 :: p) ∨
    neg = false ∧ r = body ++ 93 :: p ∧ body.head? ≠ some 33 ∧ body.head? ≠ some 94) ∧
  ∃ b bs, body = b :: bs ∧ 93 ∉ bs

/-- the characters specified by the body of a class -/
inductive InSet : Bytes → UInt8 → Prop
  | range {x z c : UInt8} {r : Bytes} : x ≤ c → c ≤ z → InSet (x :: 45 :: z :: r) c
  | afterRange {x z c : UInt8} {r : Bytes} : InSet r c → InSet (x :: 45 :: z :: r) c
  | char {x : UInt8} {r : Bytes} : (∀ z r', r ≠ 45 :: z :: r') → InSet (x :: r) x
  | afterChar {x c : UInt8} {r : Bytes} : (∀ z r', r ≠ 45 :: z :: r') → InSet r c → InSet (x :: r) c

/-- a character matched by a class -/
def InClass (fold neg : Bool) (body : Bytes) (c : UInt8) : Prop :=
  (neg = false ∧ ∃ x, Like fold x c ∧ InSet body x) ∨ (neg = true ∧ ¬ ∃ x, Like fold x c ∧ InSet body x)

/-- the glob can be expanded to the string -/
inductive Expands (fold : Bool) : Bytes → Bytes → Prop
  | nil : Expands fold [] []
  | starstar {p s : Bytes} (t : Bytes) : Expands fold p s → Expands fold (42 :: 42 :: p) (t ++ s)
  | star {p s : Bytes} (t : Bytes) : p.head? ≠ some 42 → 47 ∉ t → Expands fold p s → Expands fold (42 :: p) (t ++ s)
  | question {p s : Bytes} (c : UInt8) : c ≠ 47 → Expands fold p s → Expands fold (63 :: p) (c :: s)
  | backslash {p s : Bytes} {c d : UInt8} : Like fold c d → Expands fold p s → Expands fold (92 :: c :: p) (d :: s)
  | lastBackslash : Expands fold [92] [92]
  | cls {r p s : Bytes} {neg : Bool} {body : Bytes} {c : UInt8} : ClassText r neg body p → InClass fold neg body c → Expands fold p s →
      Expands fold (91 :: r) (c :: s)
  | openBracket {p s : Bytes} : (∀ neg body q, ¬ ClassText p neg body q) → Expands fold p s → Expands fold (91 :: p) (91 :: s)
  | other {p s : Bytes} {c d : UInt8} : c ≠ 42 → c ≠ 63 → c ≠ 91 → c ≠ 92 → Like fold c d → Expands fold p s → Expands fold (c :: p) (d :: s)

/-- the glob can be expanded to the path or to a directory the path is in -/
def Covers (fold : Bool) (g path : Bytes) : Prop := Expands fold g path ∨ ∃ d t, path = d ++ 47 :: t ∧ Expands fold g d

end Verif.Spec.Glob
