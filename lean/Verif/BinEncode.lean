import Verif.Types

/-!
# binary-encode.go

`enc Γ c fuel id v fo bare` is `cdc.encodeReflectBinary(w, info, rv, fopts, bare)` for the
non-pointer type `id`; the result is what is appended to `w`.  `fuel` bounds the depth of the
recursion of encodeReflectBinary; the helpers take the recursive call as argument `rec`.
-/

namespace Amino

/-- `if bare { w.Write(buf) } else { EncodeByteSlice(w, buf) }`, end of the composite encoders. -/
def framed (bare : Bool) (buf : Bytes) : Res Bytes :=
  if bare then .ok buf else encodeByteSlice buf

section
variable (Γ : Prog) (c : Codec) (rec : TId → Val → FOpts → Bool → Res Bytes)

/-- binary-encode.go:325-336: elements in packed form. -/
def encPacked (e : Ty) (fo : FOpts) : List Val → Res Bytes
  | [] => .ok []
  | v :: vs =>
    (rec e.deref (Γ.derefZero e v) fo false).bind fun b =>
    (encPacked e fo vs).bind fun bs => .ok (b ++ bs)

/-- binary-encode.go:349-377: one element in unpacked form, without its key. -/
def encElem (e : Ty) (fo : FOpts) (v : Val) : Res Bytes :=
  match derefVal e v with
  | none =>
    if (e.isPtr && Γ.isStruct e.deref) && fo.emptyElements then .err .nilElement else encodeUint8 0
  | some dv =>
    if isDefaultBase (Γ.shape e.deref) dv then
      if (e.isPtr && Γ.isStruct e.deref) && fo.emptyElements then .err .nilElement else encodeUint8 0
    else rec e.deref dv { fo with fnum := 1 } false

/-- binary-encode.go:342-378: elements in unpacked form. -/
def encUnpacked (e : Ty) (fo : FOpts) : List Val → Res Bytes
  | [] => .ok []
  | v :: vs =>
    (encodeKey fo.fnum typ3ByteLength).bind fun k =>
    (encElem Γ rec e fo v).bind fun b =>
    (encUnpacked e fo vs).bind fun bs => .ok (k ++ b ++ bs)

/-- binary-encode.go:302-389 `encodeReflectBinaryList` for element type `e`. -/
def encList (e : Ty) (v : Val) (fo : FOpts) (bare : Bool) : Res Bytes :=
  (getInfo Γ c e.deref).bind fun _ =>
  match v with
  | .nil => framed bare []
  | .list vs =>
    (if Γ.typ3 e.deref fo ≠ typ3ByteLength then encPacked Γ rec e fo vs
     else encUnpacked Γ rec e fo vs).bind fun buf => framed bare buf
  | _ => .panic .illTyped

/-- binary-encode.go:499-530 `writeFieldIfNotEmpty`. -/
def writeField (num : Nat) (id : TId) (fo : FOpts) (dv : Val) (writeEmpty bare : Bool) : Res Bytes :=
  (encodeKey num (Γ.typ3 id fo)).bind fun k =>
  (rec id dv fo bare).bind fun b =>
  if !writeEmpty && b == [0] then .ok [] else .ok (k ++ b)

/-- binary-encode.go:436-463: one visible field, with number `num`.  The value `none` of `derefVal`
is the invalid `reflect.Value` on which encodeReflectBinary panics (binary-encode.go:31). -/
def encField (f : Field) (num : Nat) (v : Val) : Res Bytes :=
  (getInfo Γ c f.ty.deref).bind fun _ =>
  match derefVal f.ty v with
  | none => if f.opts.writeEmpty then .panic .invalidValue else .ok []
  | some dv =>
    if isDefaultBase (Γ.shape f.ty.deref) dv && !f.opts.writeEmpty then .ok []
    else if Γ.unpackedList f then
      match (Γ.shape f.ty.deref).elem? with
      | some e => encList Γ c rec e dv { f.opts with fnum := num } true
      | none => .panic .illTyped
    else
      writeField Γ rec num f.ty.deref { f.opts with fnum := num } dv
        (f.opts.writeEmpty || f.ty.isPtr) false

/-- binary-encode.go:435-464: the loop over the fields; `num` is the number of the last visible field
(parseStructInfo numbers the visible fields from 1, codec.go:481). -/
def encFields : Nat → List Field → List Val → Res Bytes
  | _, [], [] => .ok []
  | num, f :: fs, v :: vs =>
    if !f.visible then encFields num fs vs
    else
      (encField Γ c rec f (num + 1) v).bind fun b =>
      (encFields (num + 1) fs vs).bind fun bs => .ok (b ++ bs)
  | _, _, _ => .panic .illTyped

/-- binary-encode.go:203-278 `encodeReflectBinaryInterface`. -/
def encIface (id : TId) (v : Val) (fo : FOpts) (bare : Bool) : Res Bytes :=
  match v with
  | .nil => .ok [0]
  | .iface t cv =>
    match derefVal t cv with
    | none => .panic .nilPtrInIface
    | some crv =>
      if t.isPtr && Γ.isIface t.deref then .panic .ifacePtr
      else
        (getInfo Γ c t.deref).bind fun _ =>
        match c.conc? t.deref with
        | none => .err .unregisteredConcrete
        | some ci =>
          match c.iface? id with
          | none => .err .unregisteredIface
          | some ii =>
            (rec t.deref crv fo true).bind fun b =>
            framed bare
              ((if ii.always || (ii.withPrefix ci.prefx).length > 1 then 0 :: ci.disamb else [])
                ++ ci.prefx ++ b)
  | _ => .panic .illTyped

/-- binary-encode.go:68-84, 95-110: `for { if elem is Slice or Array {elem = elem.Elem(); continue}; if
elem is Uint8 {break}; err = ...; break }`.  Terminates unless the type is like `type A []A`. -/
def innerIsByte : Nat → Ty → Option Bool
  | 0, _ => none
  | k + 1, t =>
    match t with
    | .ptr _ => some false
    | .base id =>
      match Γ.shape id with
      | .slice e | .array _ e => innerIsByte k e
      | .int .uint8 => some true
      | _ => some false

/-- binary-encode.go:116-168, the integer cases. -/
def encInt (k : IntKind) (fo : FOpts) (i : Int) : Res Bytes :=
  match k with
  | .int64 => if fo.fixed64 then encodeInt64 i else encodeUvarint (u64OfInt i)
  | .int32 => if fo.fixed32 then encodeInt32 i else encodeUvarint (u64OfInt i)
  | .int16 => encodeInt16 i
  | .int8 => encodeInt8 i
  | .int => encodeUvarint (u64OfInt i)
  | .uint64 => if fo.fixed64 then encodeUint64 (u64OfInt i) else encodeUvarint (u64OfInt i)
  | .uint32 => if fo.fixed32 then encodeUint32 (u64OfInt i) else encodeUvarint (u64OfInt i)
  | .uint16 => encodeUint16 (u64OfInt i)
  | .uint8 => encodeUint8 (u64OfInt i)
  | .uint => encodeUvarint (u64OfInt i)

/-- binary-encode.go:57-201: the switch on the kind.  A list whose element kind is itself slice or
array writes nothing if the innermost element is a byte, and is an error otherwise (lines 68-84,
95-110). -/
def encShape (fuel : Nat) (id : TId) (v : Val) (fo : FOpts) (bare : Bool) : Res Bytes :=
  match Γ.shape id with
  | .iface => encIface Γ c rec id v fo bare
  | .slice e =>
    if Γ.isByteKind e then
      match v with
      | .nil => encodeByteSlice []
      | .bytes b => encodeByteSlice b
      | _ => .panic .illTyped
    else if Γ.isListKind e then
      match innerIsByte Γ fuel e with
      | none => .oof
      | some true => .ok []
      | some false => .err .multiDim
    else encList Γ c rec e v fo bare
  | .array _ e =>
    if Γ.isByteKind e then
      match v with
      | .bytes b => encodeByteSlice b
      | _ => .panic .illTyped
    else if Γ.isListKind e then
      match innerIsByte Γ fuel e with
      | none => .oof
      | some true => .ok []
      | some false => .err .multiDim
    else encList Γ c rec e v fo bare
  | .struct fs =>
    match v with
    | .struct vs => (encFields Γ c rec 0 fs vs).bind fun buf => framed bare buf
    | _ => .panic .illTyped
  | .time =>
    match v with
    | .time s ns => (encodeTime s ns).bind fun buf => framed bare buf
    | _ => .panic .illTyped
  | .int k =>
    match v with
    | .int i => encInt k fo i
    | _ => .panic .illTyped
  | .bool =>
    match v with
    | .bool b => encodeBool b
    | _ => .panic .illTyped
  | .float64 =>
    if !fo.floatOk then .err .floatUnsafe
    else match v with
      | .f64 b => encodeUint64 b
      | _ => .panic .illTyped
  | .float32 =>
    if !fo.floatOk then .err .floatUnsafe
    else match v with
      | .f32 b => encodeUint32 b
      | _ => .panic .illTyped
  | .string =>
    match v with
    | .str b => encodeString b
    | _ => .panic .illTyped
  | .map _ => .panic .unsupported

/-- binary-encode.go:25-201 `encodeReflectBinary`; `getInfo` is done by the caller as in Go. -/
def encBody (fuel : Nat) (id : TId) (v : Val) (fo : FOpts) (bare : Bool) : Res Bytes :=
  match Γ.marsh id with
  | some (rid, m) =>
    (m v).bind fun r =>
    (getInfo Γ c rid).bind fun _ => rec rid r fo bare
  | none => encShape Γ c rec fuel id v fo bare

end

/-- `encodeReflectBinary` with recursion depth at most `fuel`. -/
def enc (Γ : Prog) (c : Codec) : Nat → TId → Val → FOpts → Bool → Res Bytes
  | 0, _, _, _, _ => .oof
  | f + 1, id, v, fo, bare => encBody Γ c (enc Γ c f) f id v fo bare

end Amino
