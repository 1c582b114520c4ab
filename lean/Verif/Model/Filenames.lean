import Verif.Model.Quoting
/-
Model of `quote`/`unquote` in `src/rdiffbackup/locations/map/filenames.py` lines 110-210.

`generics.chars_to_quote_regexp` is compiled from `[chars_to_quote]|;` (lines 167-185); the
bracket expression is a set of bytes and is modelled as the predicate `ctq`.  (An empty
`chars_to_quote` gives no regexp at all: then `QuotedRPath` is not used, see
`_repo_shadow.py:215-235`.)
The file-system encoding used by `os.fsencode` is UTF-8.
-/
namespace Verif.Filenames
open Verif

/-- `consts.QUOTING_CHAR`, `b";"`. -/
def semi : UInt8 := 59

/-- filenames.py:188-192 `_quote_single`: `b"%b%03d" % (";", ord(c))`. -/
def esc (b : UInt8) : Bytes :=
  [semi, UInt8.ofNat (48 + b.toNat / 100), UInt8.ofNat (48 + b.toNat / 10 % 10),
    UInt8.ofNat (48 + b.toNat % 10)]

/-- filenames.py:119 `chars_to_quote_regexp.sub(_quote_single, path)`. -/
def quoteChars (ctq : UInt8 → Bool) : Bytes → Bytes
  | [] => []
  | b :: bs => (if ctq b || b == semi then esc b else [b]) ++ quoteChars ctq bs

/-- filenames.py:126-133: replace a final blank or period by its escape. -/
def escTrailing : Bytes → Bytes
  | [] => []
  | [b] => if b = 32 ∨ b = 46 then esc b else [b]
  | b :: c :: r => b :: escTrailing (c :: r)

/-- ASCII lower-casing, the effect of `re.I` on a bytes pattern. -/
def lower (b : UInt8) : UInt8 := if 65 ≤ b.toNat ∧ b.toNat ≤ 90 then b + 32 else b

/-- Length of a match of `aux|prn|con|nul|com[0-9]|lpt[1-9]` (re.I) at the start, if any:
the bytes following it.  filenames.py:140 -/
def dosPrefix : Bytes → Option Bytes
  | a :: b :: c :: r =>
    let w := [lower a, lower b, lower c]
    if w = [97, 117, 120] ∨ w = [112, 114, 110] ∨ w = [99, 111, 110] ∨ w = [110, 117, 108] then some r
    else match r with
      | d :: r' =>
        if w = [99, 111, 109] ∧ 48 ≤ d.toNat ∧ d.toNat ≤ 57 then some r'
        else if w = [108, 112, 116] ∧ 49 ≤ d.toNat ∧ d.toNat ≤ 57 then some r'
        else none
      | [] => none
  | _ => none

/-- filenames.py:139-141 the whole pattern `(...)(\.|$)`; `$` matches at the end and
before a final newline. -/
def dosMatch (p : Bytes) : Bool :=
  match dosPrefix p with
  | some [] => true
  | some (c :: r) => c == 46 || (c == 10 && r == [])
  | none => false

/-- filenames.py:139-143: escape the first byte of a DOS device name. -/
def escDos (p : Bytes) : Bytes :=
  match p with
  | [] => []
  | b :: r => if dosMatch (b :: r) then esc b ++ r else b :: r

/-- filenames.py:110-143 `quote`. -/
def quote (ctq : UInt8 → Bool) (escapeTrailing escapeDos : Bool) (p : Bytes) : Bytes :=
  let q := quoteChars ctq p
  let q := if escapeTrailing then escTrailing q else q
  if escapeDos then escDos q else q

/-- `[0-9]` -/
def isDigit (b : UInt8) : Bool := 48 ≤ b.toNat && b.toNat ≤ 57

/-- filenames.py:206 `os.fsencode(chr(n))` for n ≤ 999 (UTF-8). -/
def fsencodeChr (n : Nat) : Bytes :=
  if n < 128 then [UInt8.ofNat n] else [UInt8.ofNat (192 + n / 64), UInt8.ofNat (128 + n % 64)]

/-- filenames.py:146-150 `unquote` with 195-210 `_unquote_single`: every `;ddd` (leftmost,
non-overlapping) is replaced. -/
def unquote : Bytes → Bytes
  | a :: b :: c :: d :: rest =>
    if a = semi ∧ isDigit b ∧ isDigit c ∧ isDigit d then
      fsencodeChr ((b.toNat - 48) * 100 + (c.toNat - 48) * 10 + (d.toNat - 48)) ++ unquote rest
    else a :: unquote (b :: c :: d :: rest)
  | a :: rest => a :: unquote rest
  | [] => []

end Verif.Filenames
