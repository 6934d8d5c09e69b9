import Verif.SpecDoc

/-!
# Specification: the JSON texts for a string of bytes
-/

namespace Amino.Spec

/-- The bits of a number below 64, most significant first. -/
def sixBits (n : Nat) : List Nat := [5, 4, 3, 2, 1, 0].map fun i => n / 2 ^ i % 2

/-- A text in base64: letters and padding to a multiple of four; the bytes are the bits of the letters, without the last two or
four if there is padding. -/
inductive Base64Text : List Char → Bytes → Prop
  | mk {ns : List Nat} {pad : Nat} {b : Bytes} : (∀ n ∈ ns, n < 64) → pad ≤ 2 → (ns.length + pad) % 4 = 0 →
      b.length = ns.length * 6 / 8 → b.flatMap bits = (ns.flatMap sixBits).take (8 * b.length) →
      Base64Text (ns.map (fun n => base64Alphabet.getD n '=') ++ List.replicate pad '=') b

/-- A byte in an array: a number, or `null` for the byte that was there. -/
inductive ByteText (old : UInt8) : UInt8 → Bytes → Prop
  | null : ByteText old old [0x6e, 0x75, 0x6c, 0x6c]
  | num {x : UInt8} {ds : Bytes} : IntPart ds → decVal ds = x.toNat → ByteText old x ds

/-- An element of an array of bytes, with white space around it. -/
structure BElem where
  byte : UInt8
  text : Bytes
  pre : Bytes
  post : Bytes

def BElem.out (e : BElem) : Bytes := e.pre ++ (e.text ++ e.post)

/-- The JSON texts for a string of bytes, where `old` was before: `null`; base64 in a string, line breaks not counting; an array
of numbers. -/
inductive BytesText (old : Bytes) : Bytes → Bytes → Prop
  | null : BytesText old [] [0x6e, 0x75, 0x6c, 0x6c]
  | str {cs : List Char} {t b : Bytes} : Spells cs t → Base64Text (cs.filter fun ch => ch != '\n' && ch != '\r') b →
      BytesText old b (0x22 :: (t ++ [0x22]))
  | arr {w : Bytes} {es : List BElem} : White w → (∀ e ∈ es, White e.pre ∧ White e.post) →
      (∀ (i : Nat) e, es[i]? = some e → ByteText (old.getD i 0) e.byte e.text) →
      BytesText old (es.map BElem.byte) (0x5b :: (w ++ (commas (es.map BElem.out) ++ [0x5d])))

end Amino.Spec
