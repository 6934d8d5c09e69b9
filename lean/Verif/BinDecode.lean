import Verif.BinEncode

/-!
# binary-decode.go

`dec Γ c fuel t prior fo bare bz` is `cdc.decodeReflectBinary(bz, info, rv, fopts, bare)` where `rv` is
an addressable value of type `t` (possibly a pointer type) holding `prior`; on success the new content
of `rv` is returned.  On errors `rv` may have been partly overwritten; that content is not modelled.
-/

namespace Amino

/-- binary-decode.go:929-957 `DecodeDisambPrefixBytes`: disambiguation bytes if any, and prefix. -/
def decodeDisambPrefix (bz : Bytes) : DRes (Option Bytes × Bytes) :=
  if bz.length < 4 then .err 0 .noPrefix
  else if bz.head? = some 0 then
    if bz.length < 8 then .err 0 .noPrefix
    else .ok 8 (some ((bz.drop 1).take 3), (bz.drop 4).take 4)
  else .ok 4 (none, bz.take 4)

/-- `if err != nil {return}; slide(&bz, &n, _n)` (binary-decode.go:920-926): the count of the skipped
value is only reported on success. -/
def skipped {α : Type} (r : DRes α) (bz : Bytes) : DRes Unit :=
  match r with
  | .ok m _ => slideThen m bz 0 fun _ n => .ok n ()
  | .err _ e => .err 0 e
  | .panic p => .panic p
  | .oof => .oof

/-- binary-decode.go:904-925 `consumeAny`. -/
def consumeAny (typ : Nat) (bz : Bytes) : DRes Unit :=
  if typ = typ3Varint then skipped (decodeVarint bz) bz
  else if typ = typ38Byte then skipped (decodeInt64 bz) bz
  else if typ = typ3ByteLength then skipped (decodeByteSlice bz) bz
  else if typ = typ34Byte then skipped (decodeInt32 bz) bz
  else .err 0 .badTyp3

/-- binary-decode.go:871-894: consume any remaining fields.  The first argument bounds the number of
iterations (callers pass `bz.length`; every iteration consumes at least one byte). -/
def consumeRest : Nat → Nat → Bytes → Nat → DRes Unit
  | _, _, [], n => .ok n ()
  | 0, _, _ :: _, _ => .oof
  | k + 1, last, bz, n =>
    (decodeKey bz).andSlide bz n fun ft bz n =>
    if ft.1 ≤ last then .err n .fieldOrder
    else (consumeAny ft.2 bz).andSlide bz n fun _ bz n => consumeRest k ft.1 bz n

/-- The prologue `if !bare { buf, _n, err = DecodeByteSlice(bz); if slide(&bz, nil, _n) && err != nil
{return}; n += UvarintSize(uint64(len(buf))); bz = buf }` (binary-decode.go:334-347 and alike). -/
def unframe {α : Type} (bare : Bool) (bz : Bytes) (k : Bytes → Nat → DRes α) : DRes α :=
  if bare then k bz 0
  else
    match decodeByteSlice bz with
    | .ok m buf =>
      if m ≤ bz.length then k buf (uvarintSize (UInt64.ofNat buf.length)) else .panic .slide
    | .err m e => if m ≤ bz.length then .err 0 e else .panic .slide
    | .panic p => .panic p
    | .oof => .oof

/-- `getInfo` inside a decoder that has consumed `n` bytes. -/
def infoThen {α : Type} (Γ : Prog) (c : Codec) (id : TId) (n : Nat) (k : DRes α) : DRes α :=
  match getInfo Γ c id with
  | .ok _ => k
  | .err e => .err n e
  | .panic p => .panic p
  | .oof => .oof

/-- binary-decode.go:116-262, the integer cases; `reflect.Value.SetUint` on a `uint32` truncates. -/
def decInt (k : IntKind) (fo : FOpts) (bz : Bytes) : DRes Int :=
  match k with
  | .int64 =>
    if fo.fixed64 then (decodeInt64 bz).andSlide bz 0 fun i _ n => .ok n i
    else (decodeUvarint bz).andSlide bz 0 fun u _ n => .ok n (intOfU64 u)
  | .int32 =>
    if fo.fixed32 then (decodeInt32 bz).andSlide bz 0 fun i _ n => .ok n i
    else (decodeUvarint bz).andSlide bz 0 fun u _ n =>
      if intOfU64 u > 2147483647 ∨ intOfU64 u < -2147483648 then .err n .intRange
      else .ok n (intOfU64 u)
  | .int16 => (decodeInt16 bz).andSlide bz 0 fun i _ n => .ok n i
  | .int8 => (decodeInt8 bz).andSlide bz 0 fun i _ n => .ok n i
  | .int =>
    (decodeUvarint bz).andSlide bz 0 fun u _ n =>
      if intOfU64 u > 9223372036854775807 ∨ intOfU64 u < -9223372036854775808 then .err n .intRange
      else .ok n (intOfU64 u)
  | .uint64 =>
    if fo.fixed64 then (decodeUint64 bz).andSlide bz 0 fun u _ n => .ok n u.toNat
    else (decodeUvarint bz).andSlide bz 0 fun u _ n => .ok n u.toNat
  | .uint32 =>
    if fo.fixed32 then (decodeUint32 bz).andSlide bz 0 fun u _ n => .ok n u.toNat
    else (decodeUvarint bz).andSlide bz 0 fun u _ n => .ok n ((u.toNat % 2 ^ 32 : Nat) : Int)
  | .uint16 => (decodeUint16 bz).andSlide bz 0 fun u _ n => .ok n u.toNat
  | .uint8 => (decodeUint8 bz).andSlide bz 0 fun u _ n => .ok n u.toNat
  | .uint => (decodeUvarint bz).andSlide bz 0 fun u _ n => .ok n u.toNat

section
variable (Γ : Prog) (c : Codec) (rec : Ty → Val → FOpts → Bool → Bytes → DRes Val)

/-- "Special case when reading default value, prefer nil" (binary-decode.go:512-518, 682-688). -/
def preferNil (e : Ty) (v : Val) : Val := if e.isPtr && Γ.isDefault e v then .nil else v

/-- binary-decode.go:670-692: packed slice elements.  First argument: iteration bound. -/
def decPackedSlice (e : Ty) (fo : FOpts) : Nat → Bytes → Nat → DRes (List Val)
  | _, [], n => .ok n []
  | 0, _ :: _, _ => .oof
  | k + 1, bz, n =>
    (rec e (Γ.zeroTy e) fo false bz).andSlide bz n fun v bz n =>
    (decPackedSlice e fo k bz n).map fun vs => preferNil Γ e v :: vs

/-- binary-decode.go:698-756: unpacked slice elements.  A key that cannot be read leaves `fnum` 0,
which is below `BinFieldNum` (≥ 1 in every decoding call). -/
def decUnpackedSlice (e : Ty) (fo : FOpts) : Nat → Bytes → Nat → DRes (List Val)
  | _, [], n => .ok n []
  | 0, _ :: _, _ => .oof
  | k + 1, bz, n =>
    match decodeKey bz with
    | .panic p => .panic p
    | .oof => .oof
    | .err _ _ => .err n .fieldNum
    | .ok m (fnum, typ) =>
      if fnum < fo.fnum then .err n .fieldNum
      else if fnum > fo.fnum then .ok n []
      else if typ ≠ typ3ByteLength then .err n .fieldTyp
      else slideThen m bz n fun bz n =>
        if bz.head? = some 0 ∧ ¬ ((e.isPtr && Γ.isStruct e.deref) && fo.emptyElements) then
          slideThen 1 bz n fun bz n =>
          (decUnpackedSlice e fo k bz n).map fun vs => Γ.defaultValue e :: vs
        else
          (rec e (Γ.zeroTy e) { fo with fnum := 1 } false bz).andSlide bz n fun v bz n =>
          (decUnpackedSlice e fo k bz n).map fun vs => v :: vs

/-- binary-decode.go:633-760 `decodeReflectBinarySlice`; an empty result is the nil slice. -/
def decSlice (e : Ty) (fo : FOpts) (bare : Bool) (bz : Bytes) : DRes Val :=
  infoThen Γ c e.deref 0 <|
  unframe bare bz fun bz n =>
  (if Γ.typ3 e.deref fo ≠ typ3ByteLength then decPackedSlice Γ rec e fo bz.length bz n
   else decUnpackedSlice Γ rec e fo bz.length bz n).map fun vs =>
    if vs.isEmpty then .nil else .list vs

/-- binary-decode.go:499-526: packed array elements, over the old elements. -/
def decPackedArr (e : Ty) (fo : FOpts) : List Val → Bytes → Nat → DRes (List Val)
  | [], bz, n => if bz.length > 0 then .err n .leftover else .ok n []
  | p :: ps, bz, n =>
    (rec e p fo false bz).andSlide bz n fun v bz n =>
    (decPackedArr e fo ps bz n).map fun vs => preferNil Γ e v :: vs

/-- binary-decode.go:532-586: unpacked array elements, over the old elements. -/
def decUnpackedArr (e : Ty) (fo : FOpts) : List Val → Bytes → Nat → DRes (List Val)
  | [], bz, n =>
    if bz.length > 0 then
      match decodeKey bz with
      | .panic p => .panic p
      | .oof => .oof
      | .err _ e => .err n e
      | .ok _ (fnum, _) => if fnum ≤ fo.fnum then .err n .fieldNum else .ok n []
    else .ok n []
  | p :: ps, bz, n =>
    match decodeKey bz with
    | .panic p => .panic p
    | .oof => .oof
    | .err _ _ => .err n .fieldNum
    | .ok m (fnum, typ) =>
      if fnum ≠ fo.fnum then .err n .fieldNum
      else if typ ≠ typ3ByteLength then .err n .fieldTyp
      else slideThen m bz n fun bz n =>
        if bz.head? = some 0 ∧ ¬ ((e.isPtr && Γ.isStruct e.deref) && fo.emptyElements) then
          slideThen 1 bz n fun bz n =>
          (decUnpackedArr e fo ps bz n).map fun vs => Γ.defaultValue e :: vs
        else
          (rec e p { fo with fnum := 1 } false bz).andSlide bz n fun v bz n =>
          (decUnpackedArr e fo ps bz n).map fun vs => v :: vs

/-- binary-decode.go:459-588 `decodeReflectBinaryArray`. -/
def decArray (e : Ty) (prior : Val) (fo : FOpts) (bare : Bool) (bz : Bytes) : DRes Val :=
  infoThen Γ c e.deref 0 <|
  unframe bare bz fun bz n =>
  match prior with
  | .list ps =>
    (if Γ.typ3 e.deref fo ≠ typ3ByteLength then decPackedArr Γ rec e fo ps bz n
     else decUnpackedArr Γ rec e fo ps bz n).map .list
  | _ => .panic .illTyped

/-- binary-decode.go:795-894: the loop over the fields, then the unknown trailing fields.  `num` is
the number of the last visible field, `last` is `lastFieldNum`.  A key that cannot be read leaves
`fnum` 0 ≤ `lastFieldNum`, so the error is replaced by the ordering error (line 832). -/
def decFields : List Field → List Val → Nat → Nat → Bytes → Nat → DRes (List Val)
  | [], [], _, last, bz, n => (consumeRest bz.length last bz n).map fun _ => []
  | f :: fs, p :: ps, num, last, bz, n =>
    if !f.visible then (decFields fs ps num last bz n).map fun vs => p :: vs
    else
      infoThen Γ c f.ty.deref n <|
      if bz.length = 0 then
        (decFields fs ps (num + 1) last bz n).map fun vs => Γ.defaultValue f.ty :: vs
      else if Γ.unpackedList f then
        (rec f.ty p { f.opts with fnum := num + 1 } true bz).andSlide bz n fun v bz n =>
        (decFields fs ps (num + 1) last bz n).map fun vs => v :: vs
      else
        match decodeKey bz with
        | .panic p => .panic p
        | .oof => .oof
        | .err _ _ => .err n .fieldOrder
        | .ok m (fnum, typ) =>
          if num + 1 < fnum then
            (decFields fs ps (num + 1) last bz n).map fun vs => Γ.defaultValue f.ty :: vs
          else if fnum ≤ last then .err n .fieldOrder
          else slideThen m bz n fun bz n =>
            if num + 1 ≠ fnum then .err n .fieldNum
            else if typ ≠ Γ.typ3 f.ty.deref { f.opts with fnum := num + 1 } then .err n .fieldTyp
            else
              (rec f.ty p { f.opts with fnum := num + 1 } false bz).andSlide bz n fun v bz n =>
              (decFields fs ps (num + 1) fnum bz n).map fun vs => v :: vs
  | _, _, _, _, _, _ => .panic .illTyped

/-- The dynamic type an interface gets: reflect.go:178-190 `constructConcreteType`. -/
def ConcInfo.dynTy (ci : ConcInfo) : Ty := if ci.ptrPref then .ptr (.base ci.tid) else .base ci.tid

/-- The concrete type named by disambiguation/prefix bytes (binary-decode.go:356-367,
codec.go:394-430). -/
def lookupConc (ii : IfaceInfo) (dp : Option Bytes × Bytes) : Except Err ConcInfo :=
  match dp.1 with
  | some d =>
    match c.disfix? (d ++ dp.2) with
    | some ci => .ok ci
    | none => .error .unknownDisfix
  | none =>
    match ii.withPrefix dp.2 with
    | [] => .error .unknownPrefix
    | [ci] => .ok ci
    | _ => .error .conflictingPrefix

/-- binary-decode.go:371-396: a non-struct concrete is expected to carry a field key if the interface
is decoded with BinFieldNum 1.  Passes the remaining bytes and count on. -/
def concKey {α : Type} (cid : TId) (fo : FOpts) (bz : Bytes) (n : Nat) (k : Bytes → Nat → DRes α) :
    DRes α :=
  if !Γ.structOrRep cid && bz.length > 0 && !Γ.isIface cid
      && Γ.isKnown cid && fo.fnum == 1 then
    match decodeKey bz with
    | .panic p => .panic p
    | .oof => .oof
    | .err _ e => .err n e
    | .ok m (fnum, typ) =>
      if fnum ≠ 1 then .err n .fieldNum
      else if typ ≠ Γ.typ3 cid {} then .err n .fieldTyp
      else slideThen m bz n k
  else k bz n

/-- binary-decode.go:314-418 `decodeReflectBinaryInterface`.  `rv.Set(irvSet)` (also on the error
path, line 401) panics if the concrete type does not implement the interface. -/
def decIface (id : TId) (prior : Val) (fo : FOpts) (bare : Bool) (bz : Bytes) : DRes Val :=
  match prior with
  | .nil =>
    match c.iface? id with
    | none => .err 0 .unregisteredIface
    | some ii =>
      unframe bare bz fun bz n =>
      (decodeDisambPrefix bz).andSlide bz n fun dp bz n =>
      match lookupConc c ii dp with
      | .error e => .err n e
      | .ok ci =>
        concKey Γ ci.tid fo bz n fun bz n =>
        match rec (.base ci.tid) (Γ.zero ci.tid) fo true bz with
        | .ok m v =>
          if m ≤ bz.length then
            if (bz.drop m).length > 0 then .err (n + m) .leftover
            else if Γ.implements ci.dynTy id then .ok (n + m) (.iface ci.dynTy (wrapTy ci.dynTy v))
            else .panic .notAssignable
          else .panic .slide
        | .err m e =>
          if m ≤ bz.length then
            if Γ.implements ci.dynTy id then .err (n + m) e else .panic .notAssignable
          else .panic .slide
        | .panic p => .panic p
        | .oof => .oof
  | _ => .err 0 .nonNilIface

/-- binary-decode.go:421-455 `decodeReflectBinaryByteArray`; `reflect.Copy` needs element type
`byte` itself. -/
def decByteArray (len : Nat) (e : Ty) (bz : Bytes) : DRes Val :=
  if bz.length < len then .err 0 .insufficient
  else
    (decodeByteSlice bz).andSlide bz 0 fun b _ n =>
    if b.length ≠ len then .err n .arrayLen
    else if e = .base Γ.byteId then .ok n (.bytes b) else .panic .notAssignable

/-- binary-decode.go:591-629 `decodeReflectBinaryByteSlice`; setting a `[]byte` needs element type
`byte` itself. -/
def decByteSlice (e : Ty) (bz : Bytes) : DRes Val :=
  if bz.length = 0 then .ok 0 .nil
  else
    (decodeByteSlice bz).andSlide bz 0 fun b _ n =>
    if b.length = 0 then .ok n .nil
    else if e = .base Γ.byteId then .ok n (.bytes b) else .panic .notAssignable

/-- binary-decode.go:83-311: the switch on the kind. -/
def decShape (id : TId) (prior : Val) (fo : FOpts) (bare : Bool) (bz : Bytes) : DRes Val :=
  match Γ.shape id with
  | .iface => decIface Γ c rec id prior fo bare bz
  | .array len e =>
    if Γ.isByteKind e then decByteArray Γ len e bz else decArray Γ c rec e prior fo bare bz
  | .slice e =>
    if Γ.isByteKind e then decByteSlice Γ e bz else decSlice Γ c rec e fo bare bz
  | .struct fs =>
    unframe bare bz fun bz n =>
    match prior with
    | .struct ps => (decFields Γ c rec fs ps 0 0 bz n).map .struct
    | _ => .panic .illTyped
  | .time =>
    unframe bare bz fun bz n =>
    (decodeTime bz).andSlide bz n fun t _ n => .ok n (.time t.1 t.2)
  | .int k => (decInt k fo bz).map .int
  | .bool => (decodeBool bz).andSlide bz 0 fun b _ n => .ok n (.bool b)
  | .float64 =>
    if !fo.floatOk then .err 0 .floatUnsafe
    else (decodeUint64 bz).andSlide bz 0 fun b _ n => .ok n (.f64 b)
  | .float32 =>
    if !fo.floatOk then .err 0 .floatUnsafe
    else (decodeUint32 bz).andSlide bz 0 fun b _ n => .ok n (.f32 b)
  | .string => (decodeString bz).andSlide bz 0 fun s _ n => .ok n (.str s)
  | .map _ => .panic .unsupported

/-- binary-decode.go:31-311 `decodeReflectBinary`. -/
def decBody (t : Ty) (prior : Val) (fo : FOpts) (bare : Bool) (bz : Bytes) : DRes Val :=
  if t.isPtr && Γ.isIface t.deref then .panic .ifacePtr
  else
    let rv := Γ.derefPrior t prior
    (match Γ.unmarsh t.deref with
     | some (rid, um) =>
       infoThen Γ c rid 0 <|
       (rec (.base rid) (Γ.zero rid) fo bare bz).andSlide bz 0 fun r _ n =>
       match um rv r with
       | .ok v => .ok n v
       | .err e => .err n e
       | .panic p => .panic p
       | .oof => .oof
     | none => decShape Γ c rec t.deref rv fo bare bz).map (wrapTy t)

end

/-- `decodeReflectBinary` with recursion depth at most `fuel`. -/
def dec (Γ : Prog) (c : Codec) : Nat → Ty → Val → FOpts → Bool → Bytes → DRes Val
  | 0, _, _, _, _, _ => .oof
  | f + 1, t, prior, fo, bare, bz => decBody Γ c (dec Γ c f) t prior fo bare bz

end Amino
