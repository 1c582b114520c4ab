import Verif.Model.Quoting
/- Specification vocabulary for C17 and C18 (independent of the model). -/
namespace Verif.FilenamesSpec
open Verif

/-- ASCII lower case -/
def toLower (b : UInt8) : UInt8 := if 65 ≤ b.toNat ∧ b.toNat ≤ 90 then b + 32 else b

/-- The names reserved for devices by DOS and Windows: `aux prn con nul com0..com9 lpt1..lpt9` -/
def deviceNames : List Bytes :=
  [[97, 117, 120], [112, 114, 110], [99, 111, 110], [110, 117, 108],
   [99, 111, 109, 48], [99, 111, 109, 49], [99, 111, 109, 50], [99, 111, 109, 51],
   [99, 111, 109, 52], [99, 111, 109, 53], [99, 111, 109, 54], [99, 111, 109, 55],
   [99, 111, 109, 56], [99, 111, 109, 57],
   [108, 112, 116, 49], [108, 112, 116, 50], [108, 112, 116, 51],
   [108, 112, 116, 52], [108, 112, 116, 53], [108, 112, 116, 54], [108, 112, 116, 55],
   [108, 112, 116, 56], [108, 112, 116, 57]]

/-- A file name denotes a DOS device if, case ignored, it is a device name, possibly followed
by an extension. -/
def IsDosDevice (name : Bytes) : Prop :=
  ∃ dev ∈ deviceNames, ∃ ext : Bytes,
    name.map toLower = dev ++ ext ∧ (ext = [] ∨ ext.head? = some 46)

/-- characters which can be part of an escape sequence `;ddd` -/
def escapeSyntax (b : UInt8) : Prop := b = 59 ∨ (48 ≤ b.toNat ∧ b.toNat ≤ 57)

end Verif.FilenamesSpec
