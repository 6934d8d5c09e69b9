import Verif.MemDecode

/-!
# The binary encoder on memory

`enc` in `BinEncode.lean` works on trees.  Here the encoder works on values with references, as the Go code does: pointers, slices
and interface values are followed when they are met, so the same variable may be met several times, or without end.

Simplification: the contents of a variable are read when a pointer or slice leads to it; Go reads the parts of structs and arrays
one at a time.  This makes a difference only if MarshalAmino methods change variables that are being encoded, or other goroutines
do.
-/

namespace Amino

/-- The program, with the methods `MarshalAmino` on memory: given the memory and the receiver, they make the representation and
may allocate; the memory afterwards is used for the representation only. -/
structure EProg extends Prog where
  marshM : TId → Mem → MVal → Res (MVal × Mem)

/-- reflect.go:110-125: the part of `isDefaultValue` after dereferencing. -/
def isDefaultBaseM (h : Mem) (s : Shape) (v : MVal) : Bool :=
  match s, v with
  | .int _, .prim (.int i) => i == 0
  | .string, .prim (.str b) => b.isEmpty
  | .slice _, .nil => true
  | .slice _, .slice _ _ len => len == 0
  | .map _, .nil => true
  | .map _, .map a => match h[a]? with | some w => w.parts.isEmpty | none => false
  | .iface, .nil => true
  | _, _ => false

section
variable (Γ : EProg) (c : Codec) (h : Mem) (rec : TId → MVal → FOpts → Bool → Res Bytes)

/-- reflect.go:81-97 `derefPointersZero`. -/
def derefZeroM (t : Ty) (v : MVal) : MVal :=
  match derefM h t v with
  | some v => v
  | none => ofZero (Γ.zero t.deref)

/-- binary-encode.go:325-336: elements in packed form. -/
def encPackedM (e : Ty) (fo : FOpts) : List MVal → Res Bytes
  | [] => .ok []
  | v :: vs =>
    (rec e.deref (derefZeroM Γ h e v) fo false).bind fun b =>
    (encPackedM e fo vs).bind fun bs => .ok (b ++ bs)

/-- binary-encode.go:349-377: one element in unpacked form, without its key. -/
def encElemM (e : Ty) (fo : FOpts) (v : MVal) : Res Bytes :=
  match derefM h e v with
  | none =>
    if (e.isPtr && Γ.isStruct e.deref) && fo.emptyElements then .err .nilElement else encodeUint8 0
  | some dv =>
    if isDefaultBaseM h (Γ.shape e.deref) dv then
      if (e.isPtr && Γ.isStruct e.deref) && fo.emptyElements then .err .nilElement else encodeUint8 0
    else rec e.deref dv { fo with fnum := 1 } false

/-- binary-encode.go:342-378: elements in unpacked form. -/
def encUnpackedM (e : Ty) (fo : FOpts) : List MVal → Res Bytes
  | [] => .ok []
  | v :: vs =>
    (encodeKey fo.fnum typ3ByteLength).bind fun k =>
    (encElemM Γ h rec e fo v).bind fun b =>
    (encUnpackedM e fo vs).bind fun bs => .ok (k ++ b ++ bs)

/-- The elements of a slice (`rv.Len()`, `rv.Index(i)`) or array; `none` for anything else. -/
def elemsM : MVal → Option (List MVal)
  | .nil => some []
  | .arr ws => some ws
  | .slice a off len =>
    match h[a]? with
    | some (.arr ws) => some ((ws.drop off).take len)
    | _ => none
  | _ => none

/-- binary-encode.go:302-389 `encodeReflectBinaryList` for element type `e`. -/
def encListM (e : Ty) (v : MVal) (fo : FOpts) (bare : Bool) : Res Bytes :=
  (getInfo Γ.toProg c e.deref).bind fun _ =>
  match elemsM h v with
  | some vs =>
    (if Γ.typ3 e.deref fo ≠ typ3ByteLength then encPackedM Γ h rec e fo vs
     else encUnpackedM Γ h rec e fo vs).bind fun buf => framed bare buf
  | none => .panic .illTyped

/-- binary-encode.go:499-530 `writeFieldIfNotEmpty`. -/
def writeFieldM (num : Nat) (id : TId) (fo : FOpts) (dv : MVal) (writeEmpty bare : Bool) : Res Bytes :=
  (encodeKey num (Γ.typ3 id fo)).bind fun k =>
  (rec id dv fo bare).bind fun b =>
  if !writeEmpty && b == [0] then .ok [] else .ok (k ++ b)

/-- binary-encode.go:436-463: one visible field, with number `num`. -/
def encFieldM (f : Field) (num : Nat) (v : MVal) : Res Bytes :=
  (getInfo Γ.toProg c f.ty.deref).bind fun _ =>
  match derefM h f.ty v with
  | none => if f.opts.writeEmpty then .panic .invalidValue else .ok []
  | some dv =>
    if isDefaultBaseM h (Γ.shape f.ty.deref) dv && !f.opts.writeEmpty then .ok []
    else if Γ.unpackedList f then
      match (Γ.shape f.ty.deref).elem? with
      | some e => encListM Γ c h rec e dv { f.opts with fnum := num } true
      | none => .panic .illTyped
    else
      writeFieldM Γ rec num f.ty.deref { f.opts with fnum := num } dv
        (f.opts.writeEmpty || f.ty.isPtr) false

/-- binary-encode.go:435-464: the loop over the fields; `num` is the number of the last visible field. -/
def encFieldsM : Nat → List Field → List MVal → Res Bytes
  | _, [], [] => .ok []
  | num, f :: fs, v :: vs =>
    if !f.visible then encFieldsM num fs vs
    else
      (encFieldM Γ c h rec f (num + 1) v).bind fun b =>
      (encFieldsM (num + 1) fs vs).bind fun bs => .ok (b ++ bs)
  | _, _, _ => .panic .illTyped

/-- binary-encode.go:203-278 `encodeReflectBinaryInterface`. -/
def encIfaceM (id : TId) (v : MVal) (fo : FOpts) (bare : Bool) : Res Bytes :=
  match v with
  | .nil => .ok [0]
  | .iface t cv =>
    match derefM h t cv with
    | none => .panic .nilPtrInIface
    | some crv =>
      if t.isPtr && Γ.isIface t.deref then .panic .ifacePtr
      else
        (getInfo Γ.toProg c t.deref).bind fun _ =>
        match c.conc? t.deref with
        | none => .err .unregisteredConcrete
        | some ci =>
          match c.iface? id with
          | none => .err .unregisteredIface
          | some ii =>
            (rec t.deref crv fo true).bind fun b =>
            framed bare
              ((if ii.always || (ii.withPrefix ci.prefx).length > 1 then 0 :: ci.disamb else [])
                ++ ci.prefx ++ b)
  | _ => .panic .illTyped

/-- The bytes of a byte slice or byte array (`rv.Bytes()`, binary-encode.go:87, 281-299). -/
def bytesM : MVal → Option Bytes
  | .prim (.bytes b) => some b
  | .slice a off len =>
    match h[a]? with
    | some (.prim (.bytes b)) => some ((b.drop off).take len)
    | _ => none
  | _ => none

/-- binary-encode.go:57-201: the switch on the kind.  For the kinds without references and parts `encShape` is used. -/
def encShapeM (fuel : Nat) (id : TId) (v : MVal) (fo : FOpts) (bare : Bool) : Res Bytes :=
  match Γ.shape id with
  | .iface => encIfaceM Γ c h rec id v fo bare
  | .slice e =>
    if Γ.isByteKind e then
      match v with
      | .nil => encodeByteSlice []
      | v =>
        match bytesM h v with
        | some b => encodeByteSlice b
        | none => .panic .illTyped
    else if Γ.isListKind e then
      match innerIsByte Γ.toProg fuel e with
      | none => .oof
      | some true => .ok []
      | some false => .err .multiDim
    else encListM Γ c h rec e v fo bare
  | .array _ e =>
    if Γ.isByteKind e then
      match v with
      | .prim (.bytes b) => encodeByteSlice b
      | _ => .panic .illTyped
    else if Γ.isListKind e then
      match innerIsByte Γ.toProg fuel e with
      | none => .oof
      | some true => .ok []
      | some false => .err .multiDim
    else encListM Γ c h rec e v fo bare
  | .struct fs =>
    match v with
    | .struct vs => (encFieldsM Γ c h rec 0 fs vs).bind fun buf => framed bare buf
    | _ => .panic .illTyped
  | .map _ => .panic .unsupported
  | _ =>
    match v with
    | .prim v => encShape Γ.toProg c (fun _ _ _ _ => .oof) fuel id v fo bare
    | _ => .panic .illTyped

end

/-- binary-encode.go:25-201 `encodeReflectBinary`, for value `v` in memory `h`, with recursion depth at most the first number. -/
def encM (Γ : EProg) (c : Codec) : Nat → Mem → TId → MVal → FOpts → Bool → Res Bytes
  | 0, _, _, _, _, _ => .oof
  | f + 1, h, id, v, fo, bare =>
    match Γ.marsh id with
    | some (rid, _) =>
      (Γ.marshM id h v).bind fun r =>
      (getInfo Γ.toProg c rid).bind fun _ => encM Γ c f r.2 rid r.1 fo bare
    | none => encShapeM Γ c h (encM Γ c f h) f id v fo bare

section
variable (Γ : EProg) (c : Codec) (fuel : Nat) (h : Mem)

/-- amino.go:197-245 `MarshalBinaryBare`. -/
def mMarshalBare (t : Ty) (v : MVal) : Res Bytes :=
  match derefM h t v with
  | none => .panic .nilTop
  | some rv =>
    let id := t.deref
    (getInfo Γ.toProg c id).bind fun _ =>
    (if !Γ.structOrRep id then
      writeFieldM Γ (encM Γ c fuel h) 1 id {} rv false (Γ.typ3 id {} != typ3ByteLength)
     else encM Γ c fuel h id rv { fnum := 1 } true).bind fun bz =>
    match c.conc? id with
    | some ci => .ok (ci.prefx ++ bz)
    | none => .ok bz

/-- amino.go:143-167 `MarshalBinaryLengthPrefixed`. -/
def mMarshalLP (t : Ty) (v : MVal) : Res Bytes :=
  (mMarshalBare Γ c fuel h t v).bind fun bz =>
  (encodeUvarint (UInt64.ofNat bz.length)).bind fun p => .ok (p ++ bz)

end

end Amino
