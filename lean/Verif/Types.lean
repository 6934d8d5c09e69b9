import Verif.Prim

/-!
# Go types and values as the reflect walkers see them

A Go type is a chain of pointers over a type descriptor.  Descriptors are numbers (`TId`), in the way
`reflect.Type` is a pointer to a runtime descriptor; their content (`Kind`, `Elem`, fields, methods) is
given by the program `Prog`.  So named, anonymous and recursive types are all covered.

Simplifications: no chan, func, complex, uintptr or unsafe.Pointer kinds; no *named* pointer types;
`int`/`uint` are 64 bit.
-/

namespace Amino

abbrev TId := Nat

/-- A Go type: `base id` or a pointer to a type. -/
inductive Ty
  | base (id : TId)
  | ptr (t : Ty)
  deriving DecidableEq, Repr

namespace Ty
/-- `for rt.Kind() == reflect.Ptr { rt = rt.Elem() }` (codec.go:373, amino.go `derefType`). -/
def deref : Ty → TId
  | base id => id
  | ptr t => t.deref

def isPtr : Ty → Bool
  | base _ => false
  | ptr _ => true
end Ty

inductive IntKind
  | int8 | int16 | int32 | int64 | int | uint8 | uint16 | uint32 | uint64 | uint
  deriving DecidableEq, Repr

namespace IntKind
def bits : IntKind → Nat
  | int8 | uint8 => 8
  | int16 | uint16 => 16
  | int32 | uint32 => 32
  | _ => 64

def signed : IntKind → Bool
  | int8 | int16 | int32 | int64 | int => true
  | _ => false

/-- The values of the Go type. -/
def inRange (k : IntKind) (i : Int) : Prop :=
  if k.signed then -(2 ^ (k.bits - 1) : Int) ≤ i ∧ i < 2 ^ (k.bits - 1) else 0 ≤ i ∧ i < 2 ^ k.bits

instance (k : IntKind) (i : Int) : Decidable (k.inRange i) := by
  unfold inRange; infer_instance
end IntKind

/-- codec.go:113-124 `FieldOptions`.  `floatOk` is the Go field `Unsafe`. -/
structure FOpts where
  jsonName : Bytes := []
  omitEmpty : Bool := false
  fixed64 : Bool := false
  fixed32 : Bool := false
  fnum : Nat := 0
  floatOk : Bool := false
  writeEmpty : Bool := false
  emptyElements : Bool := false
  deriving DecidableEq, Repr

/-- A declared struct field.  `visible`: exported and not tagged `json:"-"` (codec.go:456-464).
`opts` are the tag options; `opts.fnum` is not used, numbers are positional (codec.go:481). -/
structure Field where
  ty : Ty
  visible : Bool := true
  opts : FOpts := {}
  deriving DecidableEq, Repr

/-- Content of a type descriptor: `Kind()` and components.  `time` is the descriptor of `time.Time`
(`reflect.Struct` kind, special cased by identity everywhere). -/
inductive Shape
  | bool
  | int (k : IntKind)
  | float32
  | float64
  | string
  | time
  | slice (e : Ty)
  | array (n : Nat) (e : Ty)
  | map (e : Ty)
  | iface
  | struct (fs : List Field)
  deriving DecidableEq, Repr

/-- A Go value.  `nil` is the nil pointer, slice, map or interface.  `bytes` is the content of a
non-nil slice, or of an array, whose element kind is `uint8`; `list` the same for other element
kinds.  `struct` lists *all* declared fields in order.  `iface t v` is a non-nil interface value with
dynamic type `t`.  Floats are bit patterns, strings are byte strings, a time is its
(`Unix()`, `Nanosecond()`) pair. -/
inductive Val
  | bool (b : Bool)
  | int (i : Int)
  | f32 (b : UInt64)
  | f64 (b : UInt64)
  | str (s : Bytes)
  | time (s ns : Int)
  | nil
  | ptr (v : Val)
  | bytes (b : Bytes)
  | list (vs : List Val)
  | struct (vs : List Val)
  | iface (t : Ty) (v : Val)
  | map (kvs : List (Bytes × Val))
  deriving Repr

/-- The static Go program: what `reflect` reports about types, and the user's methods. -/
structure Prog where
  shape : TId → Shape
  /-- `reflect.Zero` of the type. -/
  zero : TId → Val
  /-- `MarshalAmino` of the (non pointer) type: representation type and function. -/
  marsh : TId → Option (TId × (Val → Res Val))
  /-- `UnmarshalAmino` of the pointer type: representation type and function of the receiver's old
  content and the representation, giving its new content. -/
  unmarsh : TId → Option (TId × (Val → Val → Res Val))
  /-- `rt.Implements(interface)`. -/
  implements : Ty → TId → Bool
  /-- The descriptor of the predeclared type `byte` = `uint8`. -/
  byteId : TId

namespace Prog
variable (Γ : Prog)

/-- `Kind() == reflect.Struct`. -/
def isStruct (id : TId) : Bool :=
  match Γ.shape id with
  | .struct _ | .time => true
  | _ => false

def isIface (id : TId) : Bool :=
  match Γ.shape id with
  | .iface => true
  | _ => false

/-- `info.Type.Kind() != reflect.Map && ... != reflect.Func` (amino.go:395, binary-decode.go:370). -/
def isKnown (id : TId) : Bool :=
  match Γ.shape id with
  | .map _ => false
  | _ => true

/-- `rt.Kind() == reflect.Uint8` (not through pointers). -/
def isByteKind (t : Ty) : Bool :=
  match t with
  | .base id => match Γ.shape id with | .int .uint8 => true | _ => false
  | .ptr _ => false

/-- `rt.Kind() == reflect.Slice || rt.Kind() == reflect.Array` (not through pointers). -/
def isListKind (t : Ty) : Bool :=
  match t with
  | .base id => match Γ.shape id with | .slice _ | .array _ _ => true | _ => false
  | .ptr _ => false

/-- `reflect.Zero(rt)`. -/
def zeroTy : Ty → Val
  | .base id => Γ.zero id
  | .ptr _ => .nil

/-- reflect.go:192-223 `typeToTyp3`. -/
def typ3 (id : TId) (fo : FOpts) : Nat :=
  match Γ.shape id with
  | .iface | .array _ _ | .slice _ | .string | .struct _ | .time | .map _ => typ3ByteLength
  | .int .int64 | .int .uint64 => if fo.fixed64 then typ38Byte else typ3Varint
  | .int .int32 | .int .uint32 => if fo.fixed32 then typ34Byte else typ3Varint
  | .int _ | .bool => typ3Varint
  | .float64 => typ38Byte
  | .float32 => typ34Byte

end Prog

/-- reflect.go:64-75 `derefPointers` on a value of static type `t`; `none` is `isNilPtr`. -/
def derefVal : Ty → Val → Option Val
  | .base _, v => some v
  | .ptr t, .ptr v => derefVal t v
  | .ptr _, _ => none

/-- `&...&v`: as many pointers as `t` has. -/
def wrapTy : Ty → Val → Val
  | .base _, v => v
  | .ptr t, v => .ptr (wrapTy t v)

/-- reflect.go:81-97 `derefPointersZero`. -/
def Prog.derefZero (Γ : Prog) (t : Ty) (v : Val) : Val :=
  match derefVal t v with
  | some v => v
  | none => Γ.zero t.deref

/-- reflect.go:110-125: the part of `isDefaultValue` after dereferencing, on a value whose static
type has the given shape. -/
def isDefaultBase (s : Shape) (v : Val) : Bool :=
  match s, v with
  | .int _, .int i => i == 0
  | .string, .str b => b.isEmpty
  | .slice _, .nil => true
  | .slice _, .bytes b => b.isEmpty
  | .slice _, .list vs => vs.isEmpty
  | .map _, .nil => true
  | .map _, .map kvs => kvs.isEmpty
  | .iface, .nil => true
  | _, _ => false

/-- reflect.go:105-126 `isDefaultValue`, the boolean. -/
def Prog.isDefault (Γ : Prog) (t : Ty) (v : Val) : Bool :=
  match derefVal t v with
  | none => true
  | some dv => isDefaultBase (Γ.shape t.deref) dv

/-- reflect.go:130-164 `defaultValue`: 1970 for (pointers to) `time.Time`, else `reflect.Zero`. -/
def Prog.defaultValue (Γ : Prog) (t : Ty) : Val :=
  match Γ.shape t.deref with
  | .time => wrapTy t (.time 0 0)
  | _ => Γ.zeroTy t

/-- The value `rv` the decoder ends up writing to after "Dereference-and-construct pointers all the
way" (binary-decode.go:52-60): existing pointees are reused, nil ones become zero values. -/
def Prog.derefPrior (Γ : Prog) : Ty → Val → Val
  | .base _, v => v
  | .ptr t, .ptr v => Γ.derefPrior t v
  | .ptr t, _ => Γ.derefPrior t (Γ.zeroTy t)

/-- Does parseStructInfo give the field the UnpackedList flag? (codec.go:465-479) -/
def Prog.unpackedList (Γ : Prog) (f : Field) : Bool :=
  match f.ty with
  | .ptr _ => false
  | .base id =>
    match Γ.shape id with
    | .slice e | .array _ e => !Γ.isByteKind e && Γ.typ3 e.deref f.opts == typ3ByteLength
    | _ => false

/-- The element type of a slice or array descriptor. -/
def Shape.elem? : Shape → Option Ty
  | .slice e => some e
  | .array _ e => some e
  | _ => none

/-- reflect.go:37-45 `checkUnsafe` on a field. -/
def Prog.badFloat (Γ : Prog) (f : Field) : Bool :=
  f.visible && !f.opts.floatOk &&
    match f.ty with
    | .ptr _ => false
    | .base id => match Γ.shape id with | .float32 | .float64 => true | _ => false

/-- amino.go:447-454 `isStructOrRepeatedStruct`. -/
def Prog.structOrRep (Γ : Prog) (id : TId) : Bool :=
  match Γ.shape id with
  | .struct _ | .time => true
  | .slice (.base e) | .array _ (.base e) => Γ.isStruct e
  | _ => false

/-! ## Codec registry (data only; the operations are in `Registry`) -/

/-- Registration data of a concrete type (codec.go:80-98 `ConcreteInfo`). -/
structure ConcInfo where
  tid : TId
  ptrPref : Bool
  name : Bytes
  disamb : Bytes
  prefx : Bytes
  deriving DecidableEq, Repr

/-- codec.go:767-773 `toDisfix`. -/
def ConcInfo.disfix (c : ConcInfo) : Bytes := c.disamb ++ c.prefx

/-- Registration data of an interface (codec.go:69-78 `InterfaceInfo`).  `impls` is the union of the
`Implementers` map's slices: `Implementers[p]` is the sublist with prefix `p`. -/
structure IfaceInfo where
  tid : TId
  priority : List Bytes
  always : Bool
  impls : List ConcInfo
  deriving DecidableEq, Repr

/-- `Implementers[p]`. -/
def IfaceInfo.withPrefix (i : IfaceInfo) (p : Bytes) : List ConcInfo :=
  i.impls.filter fun c => c.prefx == p

/-- codec.go:130-138 `Codec`.  `typeInfos` is split into its three kinds of entries: interfaces
(= `interfaceInfos`), registered concretes (= `concreteInfos`; both are appended together in
setTypeInfoNolock:347-353) and `plain`, the cached unregistered ones. -/
structure Codec where
  sealed : Bool := false
  ifaces : List IfaceInfo := []
  concs : List ConcInfo := []
  plain : List TId := []
  byDisfix : List (Bytes × ConcInfo) := []
  byName : List (Bytes × ConcInfo) := []
  deriving DecidableEq, Repr

namespace Codec
/-- `typeInfos[rt]` for an interface type. -/
def iface? (c : Codec) (id : TId) : Option IfaceInfo := c.ifaces.find? fun i => i.tid == id
/-- `typeInfos[rt]` for a registered concrete type. -/
def conc? (c : Codec) (id : TId) : Option ConcInfo := c.concs.find? fun i => i.tid == id
/-- `disfixToTypeInfo[df]`. -/
def disfix? (c : Codec) (df : Bytes) : Option ConcInfo := c.byDisfix.lookup df
/-- `nameToTypeInfo[name]`. -/
def name? (c : Codec) (nm : Bytes) : Option ConcInfo := c.byName.lookup nm
end Codec

/-- codec.go:366-390 `getTypeInfoWlock` on a dereferenced type: an unregistered interface is an error,
a struct with an untagged visible float field panics in parseStructInfo (codec.go:492, reflect.go:43).
The caching side effect and the lock are modelled in `Registry`/`Lock`, not here. -/
def getInfo (Γ : Prog) (c : Codec) (id : TId) : Res Unit :=
  match Γ.shape id with
  | .iface => if (c.iface? id).isSome then .ok () else .err .unregisteredIface
  | .struct fs => if fs.any Γ.badFloat then .panic .unsafeFloat else .ok ()
  | _ => .ok ()

end Amino
