import Verif.SpecJson2

/-!
# Specification: white space between the tokens of a JSON text
-/

namespace Amino.Spec

/-- An element of an array: its text, and the same with white space in it and around it. -/
structure SElem where
  text : Bytes
  pre : Bytes
  spaced : Bytes
  post : Bytes

def SElem.out (e : SElem) : Bytes := e.pre ++ (e.spaced ++ e.post)

/-- A member of an object: the name as written, the text of the value, and the same with white space. -/
structure SMember where
  name : Bytes
  text : Bytes
  pre : Bytes
  mid : Bytes
  mid' : Bytes
  spaced : Bytes
  post : Bytes

def SMember.out (m : SMember) : Bytes := m.pre ++ (m.name ++ (m.mid ++ 0x3a :: (m.mid' ++ (m.spaced ++ m.post))))

/-- `Spaced b b'`: `b'` is the JSON text `b`, which has no white space between tokens, with white space inserted between
tokens. -/
inductive Spaced : Bytes → Bytes → Prop
  /-- words, numbers and strings are tokens -/
  | scalar {b : Bytes} : JText b → b.head? ≠ some 0x5b → b.head? ≠ some 0x7b → Spaced b b
  | arr {w : Bytes} {es : List SElem} : White w → (∀ e ∈ es, White e.pre ∧ White e.post) →
      (∀ e ∈ es, Spaced e.text e.spaced) →
      Spaced (0x5b :: (commas (es.map SElem.text) ++ [0x5d])) (0x5b :: (w ++ (commas (es.map SElem.out) ++ [0x5d])))
  | obj {w : Bytes} {ms : List SMember} : White w →
      (∀ m ∈ ms, StrText m.name ∧ White m.pre ∧ White m.mid ∧ White m.mid' ∧ White m.post) →
      (∀ m ∈ ms, Spaced m.text m.spaced) →
      Spaced (0x7b :: (commas (ms.map fun m => m.name ++ 0x3a :: m.text) ++ [0x7d]))
        (0x7b :: (w ++ (commas (ms.map SMember.out) ++ [0x7d])))

/-- Element by element. -/
inductive Pairs {α β : Type} (R : α → β → Prop) : List α → List β → Prop
  | nil : Pairs R [] []
  | cons {a : α} {b : β} {l : List α} {m : List β} : R a b → Pairs R l m → Pairs R (a :: l) (b :: m)

/-- What is assumed of the standard library's float parser and of UnmarshalJSON methods: white space between tokens makes
no difference to them either. -/
structure LibSpace (J : JLib) : Prop where
  f32 : ∀ {b b'}, Spaced b b' → J.f32Parse b' = J.f32Parse b
  f64 : ∀ {b b'}, Spaced b b' → J.f64Parse b' = J.f64Parse b
  unmarsh : ∀ {id um p b b'}, J.unmarsh id = some um → Spaced b b' → um p b' = um p b

/-- Kinds that are read by `json.Unmarshal` alone. -/
def jsonRead : Shape → Prop
  | .iface | .array _ _ | .slice _ | .struct _ | .map _ | .bool | .string => True
  | .int k => k.bits ≠ 64
  | .float32 | .float64 | .time => False

/-! ## The layout -/

/-- A new line for depth `d`. -/
def newLine (pre ind : Bytes) (d : Nat) : Bytes := 0x0a :: (pre ++ (List.replicate d ind).flatten)

/-- `Laid pre ind d b b'`: `b'` is the compact JSON text `b` laid out at depth `d` as the documentation of json.Indent
says: each element of an array or object begins on a new line, which starts with the prefix and as many copies of the
indentation as it is deep; so does the closing bracket; a space follows each colon; empty arrays and objects stay
together. -/
inductive Laid (pre ind : Bytes) : Nat → Bytes → Bytes → Prop
  | scalar {d : Nat} {b : Bytes} : JText b → b.head? ≠ some 0x5b → b.head? ≠ some 0x7b → Laid pre ind d b b
  | arrNil {d : Nat} : Laid pre ind d [0x5b, 0x5d] [0x5b, 0x5d]
  | objNil {d : Nat} : Laid pre ind d [0x7b, 0x7d] [0x7b, 0x7d]
  | arr {d : Nat} {es : List (Bytes × Bytes)} : es ≠ [] → (∀ e ∈ es, Laid pre ind (d + 1) e.1 e.2) →
      Laid pre ind d (0x5b :: (commas (es.map fun e => e.1) ++ [0x5d]))
        (0x5b :: (commas (es.map fun e => newLine pre ind (d + 1) ++ e.2) ++ (newLine pre ind d ++ [0x5d])))
  | obj {d : Nat} {ms : List (Bytes × Bytes × Bytes)} : ms ≠ [] → (∀ m ∈ ms, StrText m.1) →
      (∀ m ∈ ms, Laid pre ind (d + 1) m.2.1 m.2.2) →
      Laid pre ind d (0x7b :: (commas (ms.map fun m => m.1 ++ 0x3a :: m.2.1) ++ [0x7d]))
        (0x7b :: (commas (ms.map fun m => newLine pre ind (d + 1) ++ (m.1 ++ 0x3a :: 0x20 :: m.2.2)) ++
          (newLine pre ind d ++ [0x7d])))

end Amino.Spec
