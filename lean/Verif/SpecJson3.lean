import Verif.SpecJson2

/-!
# Specification: the spellings of a JSON string
-/

namespace Amino.Spec

/-- The UTF-8 encoding of a text (Lean's own). -/
def utf8 (cs : List Char) : Bytes := cs.flatMap String.utf8EncodeChar

/-- `d` is a hexadecimal digit, of either case, for `v`. -/
def HexIs (v : Nat) (d : UInt8) : Prop :=
  (v < 10 ∧ d.toNat = 48 + v) ∨ (10 ≤ v ∧ v < 16 ∧ (d.toNat = 55 + v ∨ d.toNat = 87 + v))

/-- `ds` are four hexadecimal digits for `v`. -/
inductive Hex4 : Nat → Bytes → Prop
  | mk {w x y z : Nat} {a b c d : UInt8} : HexIs w a → HexIs x b → HexIs y c → HexIs z d →
      Hex4 (4096 * w + 256 * x + 16 * y + z) [a, b, c, d]

/-- The two-character escapes of RFC 8259. -/
def shortEscapes : List (Char × Char) :=
  [('"', '"'), ('\\', '\\'), ('/', '/'), ('\x08', 'b'), ('\x0c', 'f'), ('\n', 'n'), ('\x0d', 'r'), ('\t', 't')]

/-- `Spells cs b`: `b`, between quotes, is a JSON string literal for the text `cs` (RFC 8259, section 7). -/
inductive Spells : List Char → Bytes → Prop
  | nil : Spells [] []
  | raw {ch : Char} {cs : List Char} {b : Bytes} : 0x20 ≤ ch.toNat → ch ≠ '"' → ch ≠ '\\' → Spells cs b →
      Spells (ch :: cs) (String.utf8EncodeChar ch ++ b)
  | short {ch e : Char} {cs : List Char} {b : Bytes} : (ch, e) ∈ shortEscapes → Spells cs b →
      Spells (ch :: cs) (0x5c :: UInt8.ofNat e.toNat :: b)
  | uni {ch : Char} {ds : Bytes} {cs : List Char} {b : Bytes} : Hex4 ch.toNat ds → Spells cs b →
      Spells (ch :: cs) (0x5c :: 0x75 :: (ds ++ b))
  /-- a character outside the Basic Multilingual Plane as a UTF-16 surrogate pair -/
  | pair {ch : Char} {hi lo : Bytes} {cs : List Char} {b : Bytes} : 0x10000 ≤ ch.toNat →
      Hex4 (0xd800 + (ch.toNat - 0x10000) / 0x400) hi → Hex4 (0xdc00 + (ch.toNat - 0x10000) % 0x400) lo →
      Spells cs b → Spells (ch :: cs) (0x5c :: 0x75 :: (hi ++ 0x5c :: 0x75 :: (lo ++ b)))

end Amino.Spec
