import Verif.SpecNorm
import Verif.SpecPrim

/-!
# Specification: protobuf wire format, independent of any schema

A message is a sequence of fields; a field is a key (number and wire type) and a payload whose extent is
determined by the wire type alone.
-/

namespace Amino.Spec

/-- `p` is one complete payload of wire type `typ`. -/
inductive Payload : Nat → Bytes → Prop
  | varint {n : Nat} : n < 2 ^ 64 → Payload 0 (varint n)
  | fixed64 {b : Bytes} : b.length = 8 → Payload 1 b
  | bytes {b : Bytes} : b.length < 2 ^ 63 → Payload 2 (varint b.length ++ b)
  | fixed32 {b : Bytes} : b.length = 4 → Payload 5 b

/-- A field as it appears on the wire. -/
structure WField where
  num : Nat
  typ : Nat
  payload : Bytes

/-- `bz` is the sequence of fields `ws`. -/
inductive Wire : List WField → Bytes → Prop
  | nil : Wire [] []
  | cons {w : WField} {ws : List WField} {bz : Bytes} : 1 ≤ w.num → w.num < 2 ^ 29 → Payload w.typ w.payload →
      Wire ws bz → Wire (w :: ws) (varint (8 * w.num + w.typ) ++ w.payload ++ bz)

section
variable (Γ : Prog)

/-- The wire type of a kind. -/
def wireType (id : TId) (fo : FOpts) : Nat :=
  match Γ.shape id with
  | .bool => 0
  | .int .int64 | .int .uint64 => if fo.fixed64 then 1 else 0
  | .int .int32 | .int .uint32 => if fo.fixed32 then 5 else 0
  | .int _ => 0
  | .float64 => 1
  | .float32 => 5
  | _ => 2

/-- An override does not change the wire type (in particular: no overrides). -/
def SameWire (S : TId → FOpts → Prop) : Prop :=
  ∀ {id fo rid m}, S id fo → Γ.marsh id = some (rid, m) → wireType Γ rid fo = wireType Γ id fo

/-- How many of the declared fields are encoded; they are numbered 1, 2, ... in declaration order. -/
def fieldCount (fs : List Field) : Nat := (fs.filter fun f => f.visible).length

variable (bl : TId → Val → FOpts → Bool)

/-- The bytes of a struct value, one chunk per encoded field: nothing for an omitted field, otherwise its
key and contents.  `num` is the number of the last field before. -/
inductive Chunks : Nat → List Field → List Val → List Bytes → Prop
  | nil {num : Nat} : Chunks num [] [] []
  | hidden {num : Nat} {f : Field} {fs : List Field} {v : Val} {vs : List Val} {cs : List Bytes} :
      f.visible = false → Chunks num fs vs cs → Chunks num (f :: fs) (v :: vs) cs
  | omitted {num : Nat} {f : Field} {fs : List Field} {v : Val} {vs : List Val} {cs : List Bytes} :
      f.visible = true → omits Γ bl f (num + 1) v = true → Chunks (num + 1) fs vs cs →
      Chunks num (f :: fs) (v :: vs) ([] :: cs)
  | present {num : Nat} {f : Field} {fs : List Field} {v : Val} {vs : List Val} {cs : List Bytes} {ty : Nat} {p : Bytes} :
      f.visible = true → omits Γ bl f (num + 1) v = false → ty < 8 → Chunks (num + 1) fs vs cs →
      Chunks num (f :: fs) (v :: vs) ((varint (8 * (num + 1) + ty) ++ p) :: cs)

end

end Amino.Spec
