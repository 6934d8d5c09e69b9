import Verif.SpecByteText
import Verif.SpecWrite
import Verif.SpecSpace

/-!
# Specification: what a JSON text is read as

`ReadAs t old b v`: the text `b`, read into a variable of type `t` that holds `old`, gives `v`.  The rules speak of JSON texts
(RFC 8259) and of the types of the program; they do not mention the decoder.
-/

namespace Amino.Spec

/-- `Denotes b cs`: the text between the quotes of a string literal, `b`, is read as the text `cs`.  The rules are those of
`Spells`, and two for texts that spell no characters. -/
inductive Denotes : Bytes → List Char → Prop
  | nil : Denotes [] []
  | raw {ch : Char} {cs : List Char} {b : Bytes} : 0x20 ≤ ch.toNat → ch ≠ '"' → ch ≠ '\\' → Denotes b cs →
      Denotes (String.utf8EncodeChar ch ++ b) (ch :: cs)
  | short {ch e : Char} {cs : List Char} {b : Bytes} : (ch, e) ∈ shortEscapes → Denotes b cs →
      Denotes (0x5c :: UInt8.ofNat e.toNat :: b) (ch :: cs)
  | uni {ch : Char} {ds : Bytes} {cs : List Char} {b : Bytes} : Hex4 ch.toNat ds → Denotes b cs →
      Denotes (0x5c :: 0x75 :: (ds ++ b)) (ch :: cs)
  | pair {ch : Char} {hi lo : Bytes} {cs : List Char} {b : Bytes} : 0x10000 ≤ ch.toNat →
      Hex4 (0xd800 + (ch.toNat - 0x10000) / 0x400) hi → Hex4 (0xdc00 + (ch.toNat - 0x10000) % 0x400) lo →
      Denotes b cs → Denotes (0x5c :: 0x75 :: (hi ++ 0x5c :: 0x75 :: (lo ++ b))) (ch :: cs)
  /-- half of a surrogate pair, without the other half -/
  | lone {v : Nat} {ds : Bytes} {cs : List Char} {b : Bytes} : Hex4 v ds → 0xd800 ≤ v → v < 0xe000 →
      (v < 0xdc00 → ∀ v' lo r, Hex4 v' lo → 0xdc00 ≤ v' → v' < 0xe000 → b ≠ 0x5c :: 0x75 :: (lo ++ r)) →
      Denotes b cs → Denotes (0x5c :: 0x75 :: (ds ++ b)) ('�' :: cs)
  /-- a byte that does not begin an encoded character -/
  | bad {x : UInt8} {cs : List Char} {b : Bytes} : 0x80 ≤ x → (∀ ch s, x :: b ≠ String.utf8EncodeChar ch ++ s) → Denotes b cs →
      Denotes (x :: b) ('�' :: cs)

/-- A JSON value, with white space between its tokens but not around it. -/
def JValue (b : Bytes) : Prop := ∃ t, Spaced t b

/-- White space around a text. -/
def Around (core b : Bytes) : Prop := ∃ w1 w2, White w1 ∧ White w2 ∧ b = w1 ++ (core ++ w2)

def nullText : Bytes := [0x6e, 0x75, 0x6c, 0x6c]

/-- An element of an array, with white space around it. -/
structure RElem where
  text : Bytes
  pre : Bytes
  post : Bytes

def RElem.out (e : RElem) : Bytes := e.pre ++ (e.text ++ e.post)

/-- `ArrText l b`: `b` is an array of the values `l`. -/
inductive ArrText : List Bytes → Bytes → Prop
  | mk {w : Bytes} {es : List RElem} : White w → (∀ e ∈ es, JValue e.text ∧ White e.pre ∧ White e.post) →
      ArrText (es.map RElem.text) (0x5b :: (w ++ (commas (es.map RElem.out) ++ [0x5d])))

/-- A member of an object: its name, how this is written, and the text of its value, with white space around these. -/
structure RMember where
  name : List Char
  nameText : Bytes
  text : Bytes
  pre : Bytes
  mid : Bytes
  mid' : Bytes
  post : Bytes

def RMember.out (m : RMember) : Bytes :=
  m.pre ++ (0x22 :: (m.nameText ++ [0x22]) ++ (m.mid ++ 0x3a :: (m.mid' ++ (m.text ++ m.post))))

/-- `ObjText l b`: `b` is an object with the members `l`. -/
inductive ObjText : List (List Char × Bytes) → Bytes → Prop
  | mk {w : Bytes} {ms : List RMember} : White w → (∀ m ∈ ms, Denotes m.nameText m.name ∧ JValue m.text ∧
        White m.pre ∧ White m.mid ∧ White m.mid' ∧ White m.post) →
      ObjText (ms.map fun m => (m.name, m.text)) (0x7b :: (w ++ (commas (ms.map RMember.out) ++ [0x7d])))

/-- The value of the last member with the name. -/
def lastMember (l : List (List Char × Bytes)) (key : Bytes) : Option Bytes :=
  (l.reverse.find? fun m => utf8 m.1 == key).map (·.2)

/-- Each of the names once, where it is first. -/
def firsts : List Bytes → List Bytes
  | [] => []
  | k :: ks => k :: (firsts ks).filter (· != k)

/-- `{"type": name, "value": data}`: the names of these members in any case; other members do not matter; of several the last
counts, but a type `null` does not. -/
structure Wrapped (l : List (List Char × Bytes)) (name : List Char) (data : Bytes) : Prop where
  types : ∀ m ∈ l, m.1.map Char.toLower = "type".toList → m.2 = nullText ∨ ∃ s cs, m.2 = 0x22 :: (s ++ [0x22]) ∧ Denotes s cs
  type : ∃ m s, (l.filter fun m => m.1.map Char.toLower == "type".toList && m.2 != nullText).getLast? = some m ∧
    m.2 = 0x22 :: (s ++ [0x22]) ∧ Denotes s name
  named : name ≠ []
  value : ∃ m, (l.filter fun m => m.1.map Char.toLower == "value".toList).getLast? = some m ∧ m.2 = data

section
variable (Γ : Prog) (c : Codec) (J : JLib)

/-- A type without methods that read JSON. -/
def NoUnmarshal (id : TId) : Prop := Γ.shape id = .time ∨ Γ.unmarsh id = none ∧ J.unmarsh id = none

/-- The members of a struct text, or none for `null` (with white space around it). -/
inductive MembersText : List (List Char × Bytes) → Bytes → Prop
  | null : MembersText [] nullText
  | obj {l : List (List Char × Bytes)} {b : Bytes} : ObjText l b → MembersText l b

/-- The elements of a list, or none for `null` (with white space around it). -/
inductive ElemsText : List Bytes → Bytes → Prop
  | null : ElemsText [] nullText
  | arr {l : List Bytes} {b : Bytes} : ArrText l b → ElemsText l b

/-- A field: its declaration, the old and the new contents. -/
structure FieldRead where
  field : Field
  old : Val
  new : Val

/-- An element of an array. -/
structure ElemRead where
  text : Bytes
  old : Val
  new : Val

/-- An entry of a map. -/
structure EntryRead where
  key : Bytes
  text : Bytes
  new : Val

inductive ReadAs : Ty → Val → Bytes → Val → Prop
  /-- `null`, with nothing around it, gives the zero value -/
  | null {t : Ty} {old : Val} : noIfacePtr Γ t → ReadAs t old nullText (Γ.zeroTy t)
  | ptr {t : Ty} {old v : Val} {b : Bytes} : Γ.shape t.deref ≠ .iface → b ≠ nullText → ReadAs t (target Γ t old) b v →
      ReadAs (.ptr t) old b (.ptr v)
  | method {id : TId} {old v : Val} {b : Bytes} {um : Val → Bytes → Res Val} : b ≠ nullText → Γ.shape id ≠ .time →
      J.unmarsh id = some um → um old b = .ok v → ReadAs (.base id) old b v
  | amino {id rid : TId} {old r v : Val} {b : Bytes} {um : Val → Val → Res Val} : b ≠ nullText → Γ.shape id ≠ .time →
      J.unmarsh id = none → Γ.unmarsh id = some (rid, um) → Known Γ c rid → ReadAs (.base rid) (Γ.zero rid) b r →
      um old r = .ok v → ReadAs (.base id) old b v
  /-- the registered type of that name, as it was registered -/
  | iface {id : TId} {old v : Val} {b o data : Bytes} {l : List (List Char × Bytes)} {name : List Char} {ci : ConcInfo} :
      NoUnmarshal Γ J id → Γ.shape id = .iface → Around o b → ObjText l o → Wrapped l name data →
      c.name? (utf8 name) = some ci → ReadAs (.base ci.tid) (Γ.zero ci.tid) data v →
      Γ.implements (if ci.ptrPref then .ptr (.base ci.tid) else .base ci.tid) id = true →
      ReadAs (.base id) old b
        (if ci.ptrPref then .iface (.ptr (.base ci.tid)) (.ptr v) else .iface (.base ci.tid) v)
  /-- `null` with white space around it gives the empty string, and likewise for the next kinds -/
  | strNull {id : TId} {old : Val} {b : Bytes} : b ≠ nullText → NoUnmarshal Γ J id → Γ.shape id = .string → Around nullText b →
      ReadAs (.base id) old b (.str [])
  | str {id : TId} {old : Val} {b s : Bytes} {cs : List Char} : NoUnmarshal Γ J id → Γ.shape id = .string →
      Around (0x22 :: (s ++ [0x22])) b → Denotes s cs → ReadAs (.base id) old b (.str (utf8 cs))
  | boolNull {id : TId} {old : Val} {b : Bytes} : b ≠ nullText → NoUnmarshal Γ J id → Γ.shape id = .bool → Around nullText b →
      ReadAs (.base id) old b (.bool Bool.false)
  | true {id : TId} {old : Val} {b : Bytes} : NoUnmarshal Γ J id → Γ.shape id = .bool → Around [0x74, 0x72, 0x75, 0x65] b →
      ReadAs (.base id) old b (.bool true)
  | false {id : TId} {old : Val} {b : Bytes} : NoUnmarshal Γ J id → Γ.shape id = .bool →
      Around [0x66, 0x61, 0x6c, 0x73, 0x65] b → ReadAs (.base id) old b (.bool false)
  | intNull {id : TId} {k : IntKind} {old : Val} {b : Bytes} : b ≠ nullText → NoUnmarshal Γ J id → Γ.shape id = .int k →
      k ∈ [.int8, .int16, .int32, .uint8, .uint16, .uint32] → Around nullText b → ReadAs (.base id) old b (.int 0)
  | int {id : TId} {k : IntKind} {old : Val} {i : Int} {b ds : Bytes} : NoUnmarshal Γ J id → Γ.shape id = .int k →
      k ∈ [.int8, .int16, .int32, .uint8, .uint16, .uint32] → Around ds b → IntText i ds → (k.signed = false → ds.head? ≠ some 0x2d) →
      k.inRange i → ReadAs (.base id) old b (.int i)
  /-- 64-bit integers in quotes; the white space is inside of the quotes -/
  | quotedNull {id : TId} {k : IntKind} {old : Val} {b : Bytes} : NoUnmarshal Γ J id → Γ.shape id = .int k →
      k ∈ [.int, .int64, .uint, .uint64] → Around nullText b → ReadAs (.base id) old (0x22 :: (b ++ [0x22])) (.int 0)
  | quoted {id : TId} {k : IntKind} {old : Val} {i : Int} {b ds : Bytes} : NoUnmarshal Γ J id → Γ.shape id = .int k →
      k ∈ [.int, .int64, .uint, .uint64] → Around ds b → IntText i ds → (k.signed = false → ds.head? ≠ some 0x2d) → k.inRange i →
      ReadAs (.base id) old (0x22 :: (b ++ [0x22])) (.int i)
  /-- times end in `Z"`; package time reads the rest -/
  | time {id : TId} {old : Val} {b : Bytes} {s ns : Int} : Γ.shape id = .time → J.timeParse (0x22 :: (b ++ [0x5a, 0x22])) = some (s, ns) →
      ReadAs (.base id) old (0x22 :: (b ++ [0x5a, 0x22])) (.time s ns)
  | bytes {id : TId} {e : Ty} {old : Val} {o b core x : Bytes} : b ≠ nullText → NoUnmarshal Γ J id → Γ.shape id = .slice e →
      Γ.isByteKind e = true → (old = .bytes o ∨ old = .nil ∧ o = []) → Around core b → BytesText o x core →
      ReadAs (.base id) old b (if x = [] then Γ.zero id else .bytes x)
  | byteArray {id : TId} {n : Nat} {old : Val} {b core x : Bytes} : b ≠ nullText → NoUnmarshal Γ J id →
      Γ.shape id = .array n (.base Γ.byteId) → Γ.isByteKind (.base Γ.byteId) = true → Around core b → BytesText [] x core → x.length = n →
      ReadAs (.base id) old b (.bytes x)
  /-- slices are new, and nil if there are no elements -/
  | slice {id : TId} {e : Ty} {old : Val} {b core : Bytes} {l : List ElemRead} : b ≠ nullText → NoUnmarshal Γ J id →
      Γ.shape id = .slice e → Γ.isByteKind e = false → Known Γ c e.deref → Around core b →
      ElemsText (l.map ElemRead.text) core → (∀ x ∈ l, ReadAs e (Γ.zeroTy e) x.text x.new) →
      ReadAs (.base id) old b (if l = [] then Γ.zero id else .list (l.map ElemRead.new))
  /-- as many elements as the array has, over the old ones -/
  | array {id : TId} {n : Nat} {e : Ty} {b core : Bytes} {l : List ElemRead} : b ≠ nullText → NoUnmarshal Γ J id →
      Γ.shape id = .array n e → Γ.isByteKind e = false → Known Γ c e.deref → Around core b →
      ElemsText (l.map ElemRead.text) core → l.length = n → (∀ x ∈ l, ReadAs e x.old x.text x.new) →
      ReadAs (.base id) (.list (l.map ElemRead.old)) b (.list (l.map ElemRead.new))
  /-- entries are new; of several members with the same name the last counts -/
  | map {id : TId} {e : Ty} {old : Val} {b core : Bytes} {l : List (List Char × Bytes)} {r : List EntryRead} : b ≠ nullText →
      NoUnmarshal Γ J id → Γ.shape id = .map e → Known Γ c e.deref → Around core b → MembersText l core →
      r.map EntryRead.key = firsts (l.map fun m => utf8 m.1) → (∀ x ∈ r, lastMember l x.key = some x.text) →
      (∀ x ∈ r, ReadAs e (Γ.zeroTy e) x.text x.new) → ReadAs (.base id) old b (.map (r.map fun x => (x.key, x.new)))
  /-- the fields that are encoded, over the old ones, from the last member of their name; without one they become zero, or keep
  their contents if tagged `omitempty`; other fields keep their contents -/
  | struct {id : TId} {fs : List Field} {b core : Bytes} {l : List (List Char × Bytes)} {r : List FieldRead} : b ≠ nullText →
      NoUnmarshal Γ J id → Γ.shape id = .struct fs → Around core b → MembersText l core → fs = r.map FieldRead.field →
      (∀ x ∈ r, x.field.visible = false → x.new = x.old) →
      (∀ x ∈ r, x.field.visible = true → Known Γ c x.field.ty.deref) →
      (∀ x ∈ r, x.field.visible = true → lastMember l x.field.opts.jsonName = none →
        x.new = if x.field.opts.omitEmpty then x.old else Γ.zeroTy x.field.ty) →
      (∀ x ∈ r, x.field.visible = true → ∀ t, lastMember l x.field.opts.jsonName = some t → ReadAs x.field.ty x.old t x.new) →
      ReadAs (.base id) (.struct (r.map FieldRead.old)) b (.struct (r.map FieldRead.new))

/-- UnmarshalJSON as a whole: values of registered types stand in an object with the name. -/
inductive Reading : Ty → Val → Bytes → Val → Prop
  | plain {t : Ty} {old v : Val} {b : Bytes} : b ≠ [] → Known Γ c t.deref → c.conc? t.deref = none → ReadAs Γ c J t old b v →
      Reading t old b v
  | registered {t : Ty} {old v : Val} {b o data : Bytes} {ci : ConcInfo} {l : List (List Char × Bytes)} {name : List Char} :
      Known Γ c t.deref → c.conc? t.deref = some ci → Around o b → ObjText l o → Wrapped l name data → ci.name = utf8 name →
      ReadAs Γ c J t old data v → Reading t old b v

end
end Amino.Spec
