import Verif.SpecWire

/-!
# Specification: field order on the wire
-/

namespace Amino.Spec

variable (Γ : Prog)

/-- Kinds that use up all of the payload they are given: everything but `time.Time`, maps, types with an
UnmarshalAmino method, and lists of length delimited elements that are not repeated fields of a struct (for
example behind a pointer). -/
def exactKind (id : TId) : Bool :=
  (Γ.unmarsh id).isNone &&
  match Γ.shape id with
  | .time | .map _ => false
  | .slice e | .array _ e => Γ.isByteKind e || !lenKind Γ e.deref
  | _ => true

/-- The fields of a struct are of exact kinds, or repeated lists with elements of exact kinds. -/
def exactField (f : Field) : Bool :=
  if repeated Γ f then
    (Γ.unmarsh f.ty.deref).isNone &&
    match (Γ.shape f.ty.deref).elem? with
    | some e => exactKind Γ e.deref
    | none => false
  else exactKind Γ f.ty.deref

/-- The numbers of the repeated fields; `num` is the number of the last field before. -/
def repNums : Nat → List Field → List Nat
  | _, [] => []
  | num, f :: fs =>
    if f.visible then
      if repeated Γ f then (num + 1) :: repNums (num + 1) fs else repNums (num + 1) fs
    else repNums num fs

/-- Field numbers do not decrease, and only the numbers in `rep` occur more than once. -/
def Ordered (rep : List Nat) (ws : List WField) : Prop :=
  (ws.map WField.num).Pairwise fun a b => a < b ∨ (a = b ∧ a ∈ rep)

end Amino.Spec
