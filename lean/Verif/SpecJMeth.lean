import Verif.SpecJson

/-!
# Specification: the JSON round trip of types with MarshalJSON and UnmarshalJSON

`N id` says for a type with these methods what comes back of its values; `none` for a type without.
-/

namespace Amino.Spec
open Amino

section
variable (Γ : Prog) (N : TId → Option (Val → Val))

/-- Values written as `null` (`isNull`): none of a type with methods. -/
def isNullM : Nat → Ty → Val → Bool
  | 0, _, _ => false
  | fuel + 1, t, v =>
    match pointee t v with
    | none => true
    | some dv =>
      match N t.deref with
      | some _ => false
      | none =>
        match Γ.marsh t.deref with
        | some (rid, m) =>
          match m dv with
          | .ok r => isNullM fuel (.base rid) r
          | _ => false
        | none =>
          match Γ.shape t.deref, dv with
          | .slice _, .nil | .iface, .nil => true
          | _, _ => false

/-- What comes back of a value of type `t` (`jnorm`): as `N` says for types with methods. -/
def jnormM (c : Codec) : Nat → Ty → Val → Option Val
  | 0, _, _ => none
  | fuel + 1, t, v =>
    if isNullM Γ N (fuel + 1) t v then some (zeroOf Γ t)
    else (pointee t v).bind fun dv =>
      match N t.deref with
      | some n => some (refs t (n dv))
      | none => (jnormBase Γ c (jnormM c fuel) t.deref dv).map (refs t)

end

/-- What the methods of the program must do: MarshalJSON (of the type and of the pointer to it, or of the type only,
which Go then gives to the pointer) writes JSON other than `null`, of which UnmarshalJSON, given a zero value, makes
what `N` says. -/
structure JMethods (Γ : Prog) (J : JLib) (S : TId → Prop) (N : TId → Option (Val → Val)) : Prop where
  some : ∀ {id n}, S id → N id = some n → Γ.shape id ≠ .time ∧ ∃ m um, (∀ a, J.marsh id a = some m) ∧
    J.unmarsh id = some um ∧
    ∀ v b, HasTy Γ (.base id) v → m v = .ok b →
      JText b ∧ b ≠ [0x6e, 0x75, 0x6c, 0x6c] ∧ HasTy Γ (.base id) (n v) ∧ um (Γ.zero id) b = .ok (n v)
  none : ∀ {id}, S id → N id = none → (∀ a, J.marsh id a = none) ∧ J.unmarsh id = none

/-- The library without the program's methods. -/
def bare (J : JLib) : JLib := { J with marsh := fun _ _ => none, unmarsh := fun _ => none }

end Amino.Spec
