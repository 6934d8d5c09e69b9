import Verif.SpecJson3

/-!
# Specification: the JSON document a value stands for

`Stands t fo v d`: the Go value `v` of type `t` stands for the document `d`.  `Notation d b`: the text `b` is a JSON
notation (RFC 8259, without white space) for the document `d`.
-/

namespace Amino.Spec

/-- A JSON document.  `lit`: a text that is not looked into (floats, times, MarshalJSON). -/
inductive JDoc
  | null
  | bool (b : Bool)
  | num (i : Int)
  | str (cs : List Char)
  | arr (ds : List JDoc)
  | obj (ms : List (List Char × JDoc))
  | lit (b : Bytes)

/-- A member of an object, with the text of its name (between quotes) and of its value. -/
structure NMember where
  name : List Char
  doc : JDoc
  nameText : Bytes
  text : Bytes

def NMember.out (m : NMember) : Bytes := 0x22 :: (m.nameText ++ 0x22 :: 0x3a :: m.text)

inductive Notation : JDoc → Bytes → Prop
  | null : Notation .null [0x6e, 0x75, 0x6c, 0x6c]
  | true : Notation (.bool true) [0x74, 0x72, 0x75, 0x65]
  | false : Notation (.bool false) [0x66, 0x61, 0x6c, 0x73, 0x65]
  | num {i : Int} {b : Bytes} : DecText i b → Notation (.num i) b
  | str {cs : List Char} {b : Bytes} : Spells cs b → Notation (.str cs) (0x22 :: (b ++ [0x22]))
  | arr {l : List (JDoc × Bytes)} : (∀ x ∈ l, Notation x.1 x.2) →
      Notation (.arr (l.map (·.1))) (0x5b :: (commas (l.map (·.2)) ++ [0x5d]))
  | obj {l : List NMember} : (∀ m ∈ l, Spells m.name m.nameText) → (∀ m ∈ l, Notation m.doc m.text) →
      Notation (.obj (l.map fun m => (m.name, m.doc))) (0x7b :: (commas (l.map NMember.out) ++ [0x7d]))
  | lit {b : Bytes} : Notation (.lit b) b

/-- The text of a string of bytes: UTF-8, with U+FFFD for each byte that is not part of an encoded character. -/
inductive Decodes : Bytes → List Char → Prop
  | nil : Decodes [] []
  | char {ch : Char} {r : Bytes} {cs : List Char} : Decodes r cs → Decodes (String.utf8EncodeChar ch ++ r) (ch :: cs)
  | bad {b : UInt8} {r : Bytes} {cs : List Char} : (∀ ch s, b :: r ≠ String.utf8EncodeChar ch ++ s) → Decodes r cs →
      Decodes (b :: r) ('�' :: cs)

/-! ## Base64 (RFC 4648, section 4) -/

/-- The bits of a byte, most significant first. -/
def bits (b : UInt8) : List Nat := [7, 6, 5, 4, 3, 2, 1, 0].map fun i => b.toNat / 2 ^ i % 2

/-- Groups of six bits as numbers; a last group of two or four bits is filled with zeros. -/
def sextets : List Nat → List Nat
  | a :: b :: c :: d :: e :: f :: r => (32 * a + 16 * b + 8 * c + 4 * d + 2 * e + f) :: sextets r
  | [a, b, c, d] => [32 * a + 16 * b + 8 * c + 4 * d]
  | [a, b] => [32 * a + 16 * b]
  | _ => []

def base64Alphabet : List Char := "ABCDEFGHIJKLMNOPQRSTUVWXYZabcdefghijklmnopqrstuvwxyz0123456789+/".toList

/-- The letters, filled up with `=` to a multiple of four. -/
def base64 (b : Bytes) : List Char :=
  let cs := (sextets (b.flatMap bits)).map fun n => base64Alphabet.getD n '='
  cs ++ List.replicate ((4 - cs.length % 4) % 4) '='

/-! ## Values -/

section
variable (Γ : Prog) (c : Codec) (J : JLib)

/-- Types without methods that matter to a value that is (`a`) or is not addressable. -/
def NoMarshal (a : Bool) (id : TId) : Prop := Γ.shape id = .time ∨ Γ.marsh id = none ∧ J.marsh id a = none

/-- The names of registered types need no escapes. -/
def PlainNames : Prop := ∀ id ci, c.conc? id = some ci → PlainName ci.name

/-- Fields that are written. -/
def shown (p : Field × Val) : Bool := p.1.visible && !(p.1.opts.omitEmpty && leftOut Γ p.1.ty p.2)

/-- `{"type": name, "value": d}` -/
def disfixed (name : List Char) (d : JDoc) : JDoc := .obj [("type".toList, .str name), ("value".toList, d)]

/-- `Stands a t fo v d`; `a`: the value is addressable, so that methods of the pointer to it count. -/
inductive Stands : Bool → Ty → FOpts → Val → JDoc → Prop
  | nil {a : Bool} {t : Ty} {fo : FOpts} {v : Val} : (∀ w, v ≠ .ptr w) → Stands a (.ptr t) fo v .null
  | ptr {a : Bool} {t : Ty} {fo : FOpts} {v : Val} {d : JDoc} : Stands true t fo v d → Stands a (.ptr t) fo (.ptr v) d
  /-- MarshalJSON, of the type or (if the value is addressable) of the pointer to it -/
  | method {a : Bool} {id : TId} {m : Val → Res Bytes} {fo : FOpts} {v : Val} {b : Bytes} : Γ.shape id ≠ .time →
      J.marsh id a = some m → m v = .ok b → Stands a (.base id) fo v (.lit b)
  | amino {a : Bool} {id rid : TId} {m : Val → Res Val} {fo : FOpts} {v r : Val} {d : JDoc} : Γ.shape id ≠ .time →
      J.marsh id a = none → Γ.marsh id = some (rid, m) → m v = .ok r → Stands false (.base rid) fo r d →
      Stands a (.base id) fo v d
  | nilIface {a : Bool} {id : TId} {fo : FOpts} : NoMarshal Γ J a id → Γ.shape id = .iface → Stands a (.base id) fo .nil .null
  /-- a registered type in an interface, under its name -/
  | iface {a : Bool} {id : TId} {fo : FOpts} {t : Ty} {v dv : Val} {ci : ConcInfo} {name : List Char} {d : JDoc} : NoMarshal Γ J a id →
      Γ.shape id = .iface → pointee t v = some dv → c.conc? t.deref = some ci → Decodes ci.name name →
      Stands t.isPtr (.base t.deref) fo dv d → Stands a (.base id) fo (.iface t v) (disfixed name d)
  | nilSlice {a : Bool} {id : TId} {e : Ty} {fo : FOpts} : NoMarshal Γ J a id → Γ.shape id = .slice e → Stands a (.base id) fo .nil .null
  | bytes {a : Bool} {id : TId} {e : Ty} {fo : FOpts} {b : Bytes} : NoMarshal Γ J a id → (Γ.shape id).elem? = some e →
      Stands a (.base id) fo (.bytes b) (.str (base64 b))
  /-- the elements of a slice are addressable -/
  | list {a : Bool} {id : TId} {e : Ty} {fo : FOpts} {l : List (Val × JDoc)} : NoMarshal Γ J a id → Γ.shape id = .slice e →
      (∀ x ∈ l, Stands true e fo x.1 x.2) → Stands a (.base id) fo (.list (l.map (·.1))) (.arr (l.map (·.2)))
  | array {a : Bool} {id : TId} {n : Nat} {e : Ty} {fo : FOpts} {l : List (Val × JDoc)} : NoMarshal Γ J a id →
      Γ.shape id = .array n e → (∀ x ∈ l, Stands a e fo x.1 x.2) → Stands a (.base id) fo (.list (l.map (·.1))) (.arr (l.map (·.2)))
  /-- the written fields, in the order of declaration -/
  | struct {a : Bool} {id : TId} {fs : List Field} {fo : FOpts} {vs : List Val} {l : List ((Field × Val) × List Char × JDoc)} :
      NoMarshal Γ J a id → Γ.shape id = .struct fs → fs.length = vs.length →
      (fs.zip vs).filter (shown Γ) = l.map (·.1) → (∀ x ∈ l, Decodes x.1.1.opts.jsonName x.2.1) →
      (∀ x ∈ l, Stands a x.1.1.ty x.1.1.opts x.1.2 x.2.2) → Stands a (.base id) fo (.struct vs) (.obj (l.map (·.2)))
  | nilMap {a : Bool} {id : TId} {e : Ty} {fo : FOpts} : NoMarshal Γ J a id → Γ.shape id = .map e → Stands a (.base id) fo .nil (.obj [])
  | map {a : Bool} {id : TId} {e : Ty} {fo : FOpts} {l : List ((Bytes × Val) × List Char × JDoc)} : NoMarshal Γ J a id →
      Γ.shape id = .map e → (∀ x ∈ l, Decodes x.1.1 x.2.1) → (∀ x ∈ l, Stands false e fo x.1.2 x.2.2) →
      Stands a (.base id) fo (.map (l.map (·.1))) (.obj (l.map (·.2)))
  /-- 64-bit integers as strings of digits -/
  | quoted {a : Bool} {id : TId} {k : IntKind} {fo : FOpts} {i : Int} {cs : List Char} : NoMarshal Γ J a id → Γ.shape id = .int k →
      k ∈ [.int, .int64, .uint, .uint64] → DecText i (utf8 cs) → Stands a (.base id) fo (.int i) (.str cs)
  | int {a : Bool} {id : TId} {k : IntKind} {fo : FOpts} {i : Int} : NoMarshal Γ J a id → Γ.shape id = .int k →
      k ∈ [.int8, .int16, .int32, .uint8, .uint16, .uint32] → Stands a (.base id) fo (.int i) (.num i)
  | f32 {a : Bool} {id : TId} {fo : FOpts} {x : UInt64} {b : Bytes} : NoMarshal Γ J a id → Γ.shape id = .float32 → fo.floatOk = true →
      J.f32Text x = some b → Stands a (.base id) fo (.f32 x) (.lit b)
  | f64 {a : Bool} {id : TId} {fo : FOpts} {x : UInt64} {b : Bytes} : NoMarshal Γ J a id → Γ.shape id = .float64 → fo.floatOk = true →
      J.f64Text x = some b → Stands a (.base id) fo (.f64 x) (.lit b)
  | bool {a : Bool} {id : TId} {fo : FOpts} {b : Bool} : NoMarshal Γ J a id → Γ.shape id = .bool → Stands a (.base id) fo (.bool b) (.bool b)
  | str {a : Bool} {id : TId} {fo : FOpts} {s : Bytes} {cs : List Char} : NoMarshal Γ J a id → Γ.shape id = .string → Decodes s cs →
      Stands a (.base id) fo (.str s) (.str cs)
  | time {a : Bool} {id : TId} {fo : FOpts} {s ns : Int} {b : Bytes} : Γ.shape id = .time → J.timeText s ns = some b →
      Stands a (.base id) fo (.time s ns) (.lit b)

end
end Amino.Spec
