/-
Model of `src/rdiffbackup/utils/quoting.py` (whole file, lines 26-67).
Byte strings are lists of `UInt8`.
-/
namespace Verif

/-- A Python `bytes` object. -/
abbrev Bytes := List UInt8

namespace Quoting

/-- newline, `b"\n"` -/
def nl : UInt8 := 10
/-- backslash, `b"\\"` -/
def bs : UInt8 := 92
/-- the letter `n` -/
def chN : UInt8 := 110

/-- quoting.py:33-51 `quote_path`.  `_CHARS_TO_QUOTE = \n|\\` is a one-byte
alternative, so `re.sub` handles each byte on its own (replacement_func 42-49). -/
def quotePath : Bytes → Bytes
  | [] => []
  | c :: cs =>
    if c = nl then bs :: chN :: quotePath cs
    else if c = bs then bs :: bs :: quotePath cs
    else c :: quotePath cs

/-- quoting.py:54-67 `unquote_path`.  `_CHARS_TO_UNQUOTE = \\n|\\\\` (two-byte
sequences); `re.sub` scans left to right, a match consumes two bytes, everything
else is copied. -/
def unquotePath : Bytes → Bytes
  | [] => []
  | [c] => [c]
  | c :: d :: cs =>
    if c = bs ∧ d = chN then nl :: unquotePath cs
    else if c = bs ∧ d = bs then bs :: unquotePath cs
    else c :: unquotePath (d :: cs)

end Quoting
end Verif
