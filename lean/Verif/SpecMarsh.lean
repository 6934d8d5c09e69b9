import Verif.SpecNorm

/-!
# Specification: a value and its representation

`Γ.marsh`/`Γ.unmarsh` are the user's MarshalAmino and UnmarshalAmino methods.  `FieldRel` says that one struct
field has a type with MarshalAmino where another has the representation type, and so for the values.
-/

namespace Amino.Spec

variable (Γ : Prog)

/-- The value `x` of type `id` has the representation `r` of type `rid`. -/
def Represents (id : TId) (x : Val) (rid : TId) (r : Val) : Prop :=
  ∃ m, Γ.marsh id = some (rid, m) ∧ m x = .ok r

variable (R : TId → Val → TId → Val → Prop)

/-- Values of (pointer) types: both nil pointers, or related pointees that are both default or both not. -/
inductive ValRel (t t' : Ty) (v v' : Val) : Prop
  | null : pointee t v = none → pointee t' v' = none → ValRel t t' v v'
  | some {x r : Val} : pointee t v = some x → pointee t' v' = some r → R t.deref x t'.deref r →
      dflt (Γ.shape t.deref) x = dflt (Γ.shape t'.deref) r → ValRel t t' v v'

inductive ValRels (t t' : Ty) : List Val → List Val → Prop
  | nil : ValRels t t' [] []
  | cons {v v' : Val} {vs vs' : List Val} : ValRel Γ R t t' v v' → ValRels t t' vs vs' → ValRels t t' (v :: vs) (v' :: vs')

/-- A list type of the given element type. -/
def ListOf (l : TId) (e : Ty) : Prop := Γ.shape l = .slice e ∨ ∃ n, Γ.shape l = .array n e

/-- Two fields with the same name and options, of the same wire type, with related values. -/
inductive FieldRel (f f' : Field) (v v' : Val) : Prop
  | same : f = f' → v = v' → FieldRel f f' v v'
  | single : f.opts = f'.opts → f.visible = f'.visible → f.ty.isPtr = f'.ty.isPtr →
      Γ.typ3 f.ty.deref f.opts = Γ.typ3 f'.ty.deref f.opts → repeated Γ f = false → repeated Γ f' = false →
      ValRel Γ R f.ty f'.ty v v' → FieldRel f f' v v'
  | list {l l' : TId} {e e' : Ty} {vs vs' : List Val} : f.opts = f'.opts → f.visible = f'.visible →
      f.ty = .base l → f'.ty = .base l' → (Γ.shape l = .slice e ∧ Γ.shape l' = .slice e' ∨
        ∃ n, Γ.shape l = .array n e ∧ Γ.shape l' = .array n e') →
      repeated Γ f = true → repeated Γ f' = true → keepEmpty Γ e f.opts = keepEmpty Γ e' f.opts →
      v = .list vs → v' = .list vs' → ValRels Γ R e e' vs vs' → FieldRel f f' v v'

inductive FieldsRel : List Field → List Field → List Val → List Val → Prop
  | nil : FieldsRel [] [] [] []
  | cons {f f' : Field} {v v' : Val} {fs fs' : List Field} {vs vs' : List Val} : FieldRel Γ R f f' v v' →
      FieldsRel fs fs' vs vs' → FieldsRel (f :: fs) (f' :: fs') (v :: vs) (v' :: vs')

end Amino.Spec
