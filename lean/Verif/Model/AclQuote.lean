import Verif.Model.Quoting
/-
Model of the C functions `quote` and `unquote` in `src/cmodule.c` lines 89-157
(exported as `C.acl_quote` / `C.acl_unquote`, lines 160-177).

Simplifications: the C strings are NUL-terminated; the Python wrapper (`"y"` format)
refuses byte strings containing NUL, so NUL never occurs in an input.  `isprint` and
`isspace` are those of the C/POSIX and UTF-8 locales for single bytes.  Memory
management (`high_water_alloc`) is not modelled, nor is the fact that `unquote`
overwrites the buffer of its argument.
-/
namespace Verif.AclQuote
open Verif

/-- C `isprint` on one byte (C and UTF-8 locales): 0x20 .. 0x7e. -/
def isPrint (b : UInt8) : Bool := 32 ≤ b.toNat && b.toNat ≤ 126
/-- C `isspace`: tab, newline, vt, ff, cr, blank. -/
def isSpace (b : UInt8) : Bool := (9 ≤ b.toNat && b.toNat ≤ 13) || b.toNat == 32
/-- cmodule.c:102,112 the condition under which a byte is quoted. -/
def needsQuote (b : UInt8) : Bool := !isPrint b || isSpace b || b == 92 || b == 61

/-- cmodule.c:89-124 `quote`: `\ooo` with three octal digits. (The early return when
`nonpr == 0` gives the same result as the loop.) -/
def quote : Bytes → Bytes
  | [] => []
  | b :: bs =>
    if needsQuote b then
      92 :: UInt8.ofNat (48 + b.toNat / 64) :: UInt8.ofNat (48 + b.toNat / 8 % 8) ::
        UInt8.ofNat (48 + b.toNat % 8) :: quote bs
    else b :: quote bs

/-- cmodule.c:138-139 `isoctal`. -/
def isOctal (b : UInt8) : Bool := 48 ≤ b.toNat && b.toNat ≤ 55

/-- cmodule.c:126-157 `unquote`: `\ooo` becomes the byte (arithmetic modulo 256, the
target is an `unsigned char`), everything else is copied.  Here the four bytes are
matched at once; `isoctal` of the terminating NUL is false. -/
def unquote : Bytes → Bytes
  | a :: b :: c :: d :: rest =>
    if a = 92 ∧ isOctal b ∧ isOctal c ∧ isOctal d then
      UInt8.ofNat ((b.toNat - 48) * 64 + (c.toNat - 48) * 8 + (d.toNat - 48)) :: unquote rest
    else a :: unquote (b :: c :: d :: rest)
  | a :: rest => a :: unquote rest
  | [] => []

end Verif.AclQuote
