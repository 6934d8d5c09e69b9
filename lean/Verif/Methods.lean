import Verif.StructInfo

/-!
# Which methods amino uses

codec.go:551-576 (newTypeInfoUnregistered) and 775-813 (marshalAminoReprType, unmarshalAminoReprType): how amino finds
out whether a type has MarshalAmino and UnmarshalAmino, and of which type their representation is.

What `reflect` reports as `MethodByName` is a parameter; that it follows the rules of the Go language for method sets
is stated in `SpecMethods.lean` (`Spec.GoMethods`).
-/

namespace Amino

/-- A type in the signature of a method: `error`, a type of the program, or a type amino has no use for. -/
inductive MTy
  | error
  | ty (t : Ty)
  | other
  deriving DecidableEq, Repr

/-- The parameters (without receiver) and results of a method. -/
structure MSig where
  ins : List MTy
  outs : List MTy
  deriving DecidableEq, Repr

/-- A method declaration `func (x T) name...` or `func (x *T) name...`.  A method of an interface type has a
non-pointer receiver. -/
structure MDecl where
  name : Bytes
  ptrRecv : Bool
  sig : MSig
  deriving DecidableEq, Repr

/-- An embedded field `T` or `*T`. -/
structure Embed where
  target : TId
  byPtr : Bool
  deriving DecidableEq, Repr

/-- What a program declares about one type: its methods, the names of its fields, the embedded ones among them. -/
structure TDecl where
  methods : List MDecl := []
  fields : List Bytes := []
  embeds : List Embed := []

/-- `rt.MethodByName(name)` (`false`) and `reflect.PtrTo(rt).MethodByName(name)` (`true`). -/
abbrev MethodByName := TId → Bool → Bytes → Option MDecl

/-- `rrt.Kind() == reflect.Ptr`. -/
def MTy.isPointer : MTy → Bool
  | .ty (.ptr _) => true
  | _ => false

/-- The panics of codec.go:775-813. -/
inductive SigPan
  | marshalIn | marshalOut | marshalError | unmarshalIn | unmarshalRecv | unmarshalOut | unmarshalError | pointer
  deriving DecidableEq, Repr

/-- `rm.Type` of `reflect.Type.MethodByName`: the receiver is the first parameter. -/
def MDecl.allIns (recv : MTy) (m : MDecl) : List MTy := recv :: m.sig.ins

/-- codec.go:775-792 `marshalAminoReprType`. -/
def marshalAminoReprType (recv : MTy) (m : MDecl) : Except SigPan MTy :=
  if (m.allIns recv).length ≠ 1 then .error .marshalIn
  else if m.sig.outs.length ≠ 2 then .error .marshalOut
  else if m.sig.outs.getD 1 .other ≠ .error then .error .marshalError
  else if (m.sig.outs.getD 0 .other).isPointer then .error .pointer
  else .ok (m.sig.outs.getD 0 .other)

/-- codec.go:794-813 `unmarshalAminoReprType`. -/
def unmarshalAminoReprType (recv : MTy) (m : MDecl) : Except SigPan MTy :=
  if (m.allIns recv).length ≠ 2 then .error .unmarshalIn
  else if !((m.allIns recv).getD 0 .other).isPointer then .error .unmarshalRecv
  else if m.sig.outs.length ≠ 1 then .error .unmarshalOut
  else if m.sig.outs.getD 0 .other ≠ .error then .error .unmarshalError
  else if ((m.allIns recv).getD 1 .other).isPointer then .error .pointer
  else .ok ((m.allIns recv).getD 1 .other)

/-- codec.go:86-93: `IsAminoMarshaler` and `AminoMarshalReprType` are one option here, as are `IsAminoUnmarshaler` and
`AminoUnmarshalReprType`. -/
structure MInfo where
  marsh : Option MTy := none
  unmarsh : Option MTy := none
  deriving DecidableEq, Repr

/-- codec.go:551-576 `newTypeInfoUnregistered`, the part that looks for methods (the rest is in `StructInfo.lean` and
`Registry.lean`). -/
def methodInfo (mbn : MethodByName) (id : TId) : Except SigPan MInfo := do
  let info : MInfo := {}
  let info ← match mbn id false (ascii "MarshalAmino") with
    | none => .ok info
    | some m => (marshalAminoReprType (.ty (.base id)) m).map fun r => { info with marsh := some r }
  match mbn id true (ascii "UnmarshalAmino") with
    | none => .ok info
    | some m => (unmarshalAminoReprType (.ty (.ptr (.base id))) m).map fun r => { info with unmarsh := some r }

end Amino
