import Verif.Methods

/-!
# Specification: method sets of the Go language

The Go Programming Language Specification, "Selectors" and "Struct types": a selector denotes the field or method at
the shallowest depth where there is one of that name, and is illegal if there is not exactly one; a promoted method
with a pointer receiver is in the method set of a struct if it is reached through an embedded pointer, and in that of
a pointer to the struct in any case.
-/

namespace Amino.Spec
open Amino

/-- Everything called `name` at depth `d` below type `T`: a field is `none`; a method comes with a flag that says
whether its receiver is reached through a pointer. -/
def found (D : TId → TDecl) (name : Bytes) : Nat → TId → Bool → List (Option (MDecl × Bool))
  | 0, T, p =>
    ((D T).methods.filter fun m => m.name = name).map (fun m => some (m, p)) ++
    ((D T).fields.filter fun f => f = name).map fun _ => none
  | d + 1, T, p => (D T).embeds.flatMap fun e => found D name d e.target (p || e.byPtr)

/-- The method `name` in the method set of `T` (`p = false`) or `*T` (`p = true`). -/
def Selected (D : TId → TDecl) (T : TId) (p : Bool) (name : Bytes) (m : MDecl) : Prop :=
  ∃ d q, found D name d T p = [some (m, q)] ∧ (∀ d' < d, found D name d' T p = []) ∧ (m.ptrRecv = true → q = true)

/-- `reflect` follows the rules of the language. -/
def GoMethods (D : TId → TDecl) (mbn : MethodByName) : Prop :=
  ∀ T p name m, mbn T p name = some m ↔ Selected D T p name m

/-- `func () (r, error)`, `r` not a pointer. -/
def MarshalSig (s : MSig) (r : MTy) : Prop := s = ⟨[], [r, .error]⟩ ∧ ∀ t, r ≠ .ty (.ptr t)

/-- `func (r) error`, `r` not a pointer. -/
def UnmarshalSig (s : MSig) (r : MTy) : Prop := s = ⟨[r], [.error]⟩ ∧ ∀ t, r ≠ .ty (.ptr t)

/-- Type `T` declares the method itself. -/
def DeclaresM (D : TId → TDecl) (T : TId) (name : Bytes) (m : MDecl) : Prop :=
  m.name = name ∧ (D T).methods.filter (fun x => x.name = name) = [m] ∧ name ∉ (D T).fields

/-- Nothing of that name is declared in `T` itself. -/
def Lacks (D : TId → TDecl) (T : TId) (name : Bytes) : Prop :=
  (∀ m ∈ (D T).methods, m.name ≠ name) ∧ name ∉ (D T).fields

/-- `T` or a type embedded in it, directly or indirectly. -/
inductive Embeds (D : TId → TDecl) : TId → TId → Prop
  | self {T} : Embeds D T T
  | step {T U : TId} {e : Embed} : e ∈ (D T).embeds → Embeds D e.target U → Embeds D T U

/-- The methods the program `Γ` of the encoder and decoder has are those that the declarations give. -/
def MethodsOf (Γ : Prog) (D : TId → TDecl) : Prop :=
  ∀ id,
    (∀ r, (Γ.marsh id).map Prod.fst = some r ↔
      ∃ m, Selected D id false (ascii "MarshalAmino") m ∧ MarshalSig m.sig (.ty (.base r))) ∧
    (∀ r, (Γ.unmarsh id).map Prod.fst = some r ↔
      ∃ m, Selected D id true (ascii "UnmarshalAmino") m ∧ UnmarshalSig m.sig (.ty (.base r)))

end Amino.Spec
