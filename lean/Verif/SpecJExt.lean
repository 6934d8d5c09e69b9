import Verif.JsonExt
import Verif.SpecJMeth

/-!
# Specification: text methods and keys of maps in JSON
-/

namespace Amino.Spec
open Amino

/-- The kinds of which values with MarshalText are written as text: all but 64-bit integers (and floats, which are left
out here). -/
def textKind : Shape → Bool
  | .bool | .string | .int .int8 | .int .int16 | .int .int32 | .int .uint8 | .int .uint16 | .int .uint32 => true
  | _ => false

/-- The kinds of which values with UnmarshalText are read as text. -/
def textReadKind : Shape → Bool
  | .bool | .string | .int _ => true
  | _ => false

/-- The library of the same program, had the types with text methods these JSON methods instead: MarshalJSON, which
writes the text as a JSON string, for types of the kinds `textKind`; UnmarshalJSON, which reads one, also for 64-bit
integers.  Methods MarshalJSON, UnmarshalJSON, MarshalAmino, UnmarshalAmino of these types come first. -/
def withText (Γ : Prog) (J : JLib) (X : XLib) : JLib :=
  { J with
    marsh := fun id a =>
      match J.marsh id a with
      | some m => some m
      | none =>
        if (Γ.marsh id).isNone && textKind (Γ.shape id) then
          (X.text id).map fun m v => (m v).bind fun s => .ok (quoteStr s)
        else none
    unmarsh := fun id =>
      match J.unmarsh id with
      | some um => some um
      | none =>
        if (Γ.unmarsh id).isNone && textReadKind (Γ.shape id) then
          (X.untext id).map fun um _ bz => unmTextKind (Γ.shape id) (Γ.zero id) um bz
        else none }

/-- Keys of maps are of type `string`, and no floats have text methods. -/
structure PlainKeys (Γ : Prog) (X : XLib) : Prop where
  key : ∀ {id e}, Γ.shape id = .map e → X.key id = .plain
  float : ∀ {id}, Γ.shape id = .float32 ∨ Γ.shape id = .float64 → X.text id = none ∧ X.untext id = none

/-- What the text methods of the program must do: MarshalText writes UTF-8, of which UnmarshalText makes the same
value.  A type has both or none, and no other methods, and 64-bit integers have none. -/
structure TextMethods (Γ : Prog) (J : JLib) (X : XLib) (S : TId → Prop) : Prop where
  noJson : ∀ {id}, S id → (∀ a, J.marsh id a = none) ∧ J.unmarsh id = none
  text : ∀ {id}, S id → (X.text id = none ∧ X.untext id = none) ∨
    (textKind (Γ.shape id) = true ∧ Γ.marsh id = none ∧ Γ.unmarsh id = none ∧
      ∃ m um, X.text id = some m ∧ X.untext id = some um ∧
        ∀ v s, HasTy Γ (.base id) v → m v = .ok s → Utf8 s ∧ um s = .ok v)

/-- Values of types with text methods come back as they are. -/
def sameText (X : XLib) (id : TId) : Option (Val → Val) := (X.text id).map fun _ v => v

/-- The type has none of the other methods amino looks for, and is not registered. -/
def NoOther (Γ : Prog) (c : Codec) (J : JLib) (id : TId) : Prop :=
  (∀ a, J.marsh id a = none) ∧ J.unmarsh id = none ∧ Γ.marsh id = none ∧ Γ.unmarsh id = none ∧ c.conc? id = none

/-- The same program with keys of type `string`. -/
def stringKeys (X : XLib) : XLib := { X with key := fun _ => .plain }

end Amino.Spec
