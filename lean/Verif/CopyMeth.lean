import Verif.Methods
import Verif.DeepCopy

/-!
# The methods DeepCopy uses

deep_copy.go:151-253, in terms of what a program declares (`Methods.lean`): `dprogOf` is the program on which
`DeepCopy.lean` works.
-/

namespace Amino

/-- `rv.MethodByName(name)` for a value of type `t`.  Pointers to interfaces and pointers to pointers have no methods. -/
def valueMethod (Γ : Prog) (mbn : MethodByName) : Ty → Bytes → Option MDecl
  | .base id, name => mbn id false name
  | .ptr (.base id), name => if Γ.isIface id then none else mbn id true name
  | .ptr (.ptr _), _ => none

/-- deep_copy.go:153-163: the result type of a method DeepCopy without parameters. -/
def deepCopyOut (Γ : Prog) (mbn : MethodByName) (t : Ty) : Option Ty :=
  match valueMethod Γ mbn t (ascii "DeepCopy") with
  | none => none
  | some m =>
    if m.sig.ins.length ≠ 0 then none
    else if m.sig.outs.length ≠ 1 then none
    else match m.sig.outs.getD 0 .other with
      | .ty o => some o
      | _ => none

/-- deep_copy.go:219-253 `canAminoCopy`.  Types that amino has no use for count as one type (`MTy.other`). -/
def canAminoCopy (Γ : Prog) (mbn : MethodByName) (t : Ty) : Bool :=
  match valueMethod Γ mbn t (ascii "UnmarshalAmino") with
  | none => false
  | some ua =>
    if ua.sig.ins.length ≠ 1 then false
    else if ua.sig.outs.length ≠ 1 then false
    else if ua.sig.outs.getD 0 .other ≠ .error then false
    else
      match valueMethod Γ mbn t (ascii "MarshalAmino") with
      | none => false
      | some ma =>
        if ma.sig.ins.length ≠ 0 then false
        else if ma.sig.outs.length ≠ 2 then false
        else if ma.sig.outs.getD 1 .other ≠ .error then false
        else decide (ua.sig.ins.getD 0 .other = ma.sig.outs.getD 0 .other)

/-- What the methods of a program do. -/
structure CMethods where
  /-- calling DeepCopy on a value of the type -/
  deepCopy : Ty → Heap → HVal → Res (HVal × Heap)
  /-- calling MarshalAmino on a pointer -/
  marsh : Ty → Heap → HVal → Res (HVal × Heap)
  /-- calling UnmarshalAmino on a pointer to the variable at an address -/
  unmarsh : Ty → Heap → Addr → HVal → Res Heap

/-- `if !err.IsNil() { panic(err.Interface()) }` (deep_copy.go:209-211, 214-216). -/
def Res.raise {α : Type} : Res α → Res α
  | .err _ => .panic .user
  | r => r

/-- deep_copy.go:203-217: a new variable, MarshalAmino on the source, UnmarshalAmino on the new variable. -/
def aminoCopyRun (C : CMethods) (z : HVal) (t : Ty) (h : Heap) (v : HVal) : Res (HVal × Heap) :=
  (C.marsh t (h ++ [.var z]) v).raise.bind fun (r, h') =>
  (C.unmarsh t h' h.length r).raise.bind fun h'' => .ok (.ptr h.length, h'')

/-- `t.Elem()` of a pointer type. -/
def ptrElem : Ty → Ty
  | .ptr t => t
  | .base id => .base id

/-- The program DeepCopy sees. -/
def dprogOf (Γ : Prog) (mbn : MethodByName) (C : CMethods) (exported : TId → Nat → Bool) (zeroH : Ty → HVal) : DProg :=
  { Γ with
    exported := exported
    zeroH := zeroH
    deepCopyM := fun t => (deepCopyOut Γ mbn t).map fun o => (o, C.deepCopy t)
    aminoCopyM := fun t => if canAminoCopy Γ mbn t then some (aminoCopyRun C (zeroH (ptrElem t)) t) else none }

end Amino
