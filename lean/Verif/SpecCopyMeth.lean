import Verif.SpecMethods
import Verif.DeepCopy

/-!
# Specification: the methods DeepCopy should use

deep_copy.go:11-17 (the comment of DeepCopy).
-/

namespace Amino.Spec
open Amino

/-- The method is in the method set of `t`: of a type of the program, or of a pointer to one that is not an interface. -/
inductive InMethodSet (D : TId → TDecl) (shape : TId → Shape) : Ty → Bytes → MDecl → Prop
  | val {id : TId} {name : Bytes} {m : MDecl} : Selected D id false name m → InMethodSet D shape (.base id) name m
  | ptr {id : TId} {name : Bytes} {m : MDecl} : shape id ≠ .iface → Selected D id true name m →
      InMethodSet D shape (.ptr (.base id)) name m

/-- `func (t) DeepCopy() o`. -/
def CopiesTo (D : TId → TDecl) (shape : TId → Shape) (t o : Ty) : Prop :=
  ∃ m, InMethodSet D shape t (ascii "DeepCopy") m ∧ m.sig = ⟨[], [.ty o]⟩

/-- `func (t) DeepCopy() t`, or `func (*u) DeepCopy() u` if `t` is `*u`. -/
def CopiesSelf (D : TId → TDecl) (shape : TId → Shape) (t : Ty) : Prop :=
  ∃ o, CopiesTo D shape t o ∧ (t = o ∨ t = .ptr o)

/-- `func (t) MarshalAmino() (r, error)` and `func (t) UnmarshalAmino(r) error`. -/
def CopiesAmino (D : TId → TDecl) (shape : TId → Shape) (t : Ty) : Prop :=
  ∃ m u r, InMethodSet D shape t (ascii "MarshalAmino") m ∧ InMethodSet D shape t (ascii "UnmarshalAmino") u ∧
    m.sig = ⟨[], [r, .error]⟩ ∧ u.sig = ⟨[r], [.error]⟩

end Amino.Spec
