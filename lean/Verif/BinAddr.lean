import Verif.AminoApi

/-!
# binary-encode.go with `reflect.Value.CanAddr`

`enc` treats addressable and other values alike.  The Go code does not: `encodeReflectBinaryByteArray`
(binary-encode.go:280-300) slices an addressable array, and copies another with `reflect.Copy`, which panics unless the
elements are of type `byte` itself.  `encA` is the encoder with a flag saying whether the value is addressable; the
helpers of `BinEncode` are used with the recursive call for the flag in question.
-/

namespace Amino

section
variable (Γ : Prog) (c : Codec) (rec : Bool → TId → Val → FOpts → Bool → Res Bytes)

/-- reflect: whether `rv.Index(i)`, dereferenced (reflect.go:67-97), is addressable.  Elements of slices are, elements of
arrays if the array is, and what a pointer points to; `derefPointersZero` gives `reflect.New(rt).Elem()` for nil. -/
def elemAddr (a : Bool) (s : Shape) (e : Ty) : Bool :=
  match s with
  | .slice _ => true
  | _ => a || e.isPtr

/-- reflect: whether the elements of the list in a field (`unpacked`), or else the field itself, after dereferencing, are
addressable: fields of addressable structs are (binary-encode.go:436-463). -/
def fieldAddr (a : Bool) (f : Field) : Bool :=
  if Γ.unpackedList f then
    match (Γ.shape f.ty.deref).elem? with
    | some e => elemAddr (a || f.ty.isPtr) (Γ.shape f.ty.deref) e
    | none => a || f.ty.isPtr
  else a || f.ty.isPtr

/-- binary-encode.go:435-464, as `encFields`. -/
def encFieldsA (a : Bool) : Nat → List Field → List Val → Res Bytes
  | _, [], [] => .ok []
  | num, f :: fs, v :: vs =>
    if !f.visible then encFieldsA a num fs vs
    else
      (encField Γ c (rec (fieldAddr Γ a f)) f (num + 1) v).bind fun b =>
      (encFieldsA a (num + 1) fs vs).bind fun bs => .ok (b ++ bs)
  | _, _, _ => .panic .illTyped

/-- reflect: the contents of an interface, `rv.Elem()`, are not addressable, but what a pointer in it points to is
(binary-encode.go:216-226). -/
def ifaceAddr : Val → Bool
  | .iface t _ => t.isPtr
  | _ => false

/-- binary-encode.go:57-201, as `encShape`; arrays of bytes are binary-encode.go:280-300. -/
def encShapeA (a : Bool) (fuel : Nat) (id : TId) (v : Val) (fo : FOpts) (bare : Bool) : Res Bytes :=
  match Γ.shape id with
  | .iface => encIface Γ c (rec (ifaceAddr v)) id v fo bare
  | .slice e => encShape Γ c (rec (elemAddr a (.slice e) e)) fuel id v fo bare
  | .array n e =>
    if Γ.isByteKind e && !a && e != .base Γ.byteId then .panic .notAssignable
    else encShape Γ c (rec (elemAddr a (.array n e) e)) fuel id v fo bare
  | .struct fs =>
    match v with
    | .struct vs => (encFieldsA Γ c rec a 0 fs vs).bind fun buf => framed bare buf
    | _ => .panic .illTyped
  | _ => encShape Γ c (rec a) fuel id v fo bare

/-- binary-encode.go:25-201, as `encBody`.  What `MarshalAmino` returns is not addressable (reflect.go:225-242). -/
def encBodyA (a : Bool) (fuel : Nat) (id : TId) (v : Val) (fo : FOpts) (bare : Bool) : Res Bytes :=
  match Γ.marsh id with
  | some (rid, m) =>
    (m v).bind fun r =>
    (getInfo Γ c rid).bind fun _ => rec false rid r fo bare
  | none => encShapeA Γ c rec a fuel id v fo bare

end

/-- `encodeReflectBinary` with recursion depth at most `fuel`, of an addressable value if `a`. -/
def encA (Γ : Prog) (c : Codec) : Nat → Bool → TId → Val → FOpts → Bool → Res Bytes
  | 0, _, _, _, _, _ => .oof
  | f + 1, a, id, v, fo, bare => encBodyA Γ c (encA Γ c f) a f id v fo bare

/-- amino.go:197-245 `MarshalBinaryBare`, as `marshalBare`: the argument is addressable if it is a pointer. -/
def marshalBareA (Γ : Prog) (c : Codec) (fuel : Nat) (t : Ty) (v : Val) : Res Bytes :=
  match derefVal t v with
  | none => .panic .nilTop
  | some rv =>
    let id := t.deref
    (getInfo Γ c id).bind fun _ =>
    (if !Γ.structOrRep id then
      writeField Γ (encA Γ c fuel t.isPtr) 1 id {} rv false (Γ.typ3 id {} != typ3ByteLength)
     else encA Γ c fuel t.isPtr id rv { fnum := 1 } true).bind fun bz =>
    match c.conc? id with
    | some ci => .ok (ci.prefx ++ bz)
    | none => .ok bz

/-- amino.go:143-167 `MarshalBinaryLengthPrefixed`, as `marshalLP`. -/
def marshalLPA (Γ : Prog) (c : Codec) (fuel : Nat) (t : Ty) (v : Val) : Res Bytes :=
  (marshalBareA Γ c fuel t v).bind fun bz =>
  (encodeUvarint (UInt64.ofNat bz.length)).bind fun p => .ok (p ++ bz)

end Amino
