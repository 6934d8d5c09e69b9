import Verif.BinDecode

/-!
# amino.go: the binary API

An argument `o interface{}` is a pair (dynamic type, value).  `ptr interface{}` of the Unmarshal
functions is a non-nil pointer to a variable of type `t` holding `prior`.
-/

namespace Amino

variable (Γ : Prog) (c : Codec) (fuel : Nat)

/-- amino.go:197-245 `MarshalBinaryBare`. -/
def marshalBare (t : Ty) (v : Val) : Res Bytes :=
  match derefVal t v with
  | none => .panic .nilTop
  | some rv =>
    let id := t.deref
    (getInfo Γ c id).bind fun _ =>
    (if !Γ.structOrRep id then
      writeField Γ (enc Γ c fuel) 1 id {} rv false (Γ.typ3 id {} != typ3ByteLength)
     else enc Γ c fuel id rv { fnum := 1 } true).bind fun bz =>
    match c.conc? id with
    | some ci => .ok (ci.prefx ++ bz)
    | none => .ok bz

/-- amino.go:143-167 `MarshalBinaryLengthPrefixed`. -/
def marshalLP (t : Ty) (v : Val) : Res Bytes :=
  (marshalBare Γ c fuel t v).bind fun bz =>
  (encodeUvarint (UInt64.ofNat bz.length)).bind fun p => .ok (p ++ bz)

/-- What an `io.Writer` does with one `Write` call: bytes taken and error. -/
abbrev Writer := Bytes → Nat × Option Err

/-- amino.go:171-183 `MarshalBinaryLengthPrefixedWriter`: `(calls made to w.Write, n, err)`. -/
def marshalLPWriter (w : Writer) (t : Ty) (v : Val) : Res (List Bytes × Nat × Option Err) :=
  match marshalLP Γ c fuel t v with
  | .ok bz => .ok ([bz], (w bz).1, (w bz).2)
  | .err e => .ok ([], 0, some e)
  | .panic p => .panic p
  | .oof => .oof

/-- amino.go:456-478 `isPointerToStructOrToRepeatedStruct`, when `isStructOrRepeatedStruct` is false:
never true, but `drv.Elem()` on a slice/array behind a non-nil pointer panics (lines 474-475). -/
def ptrToListPanics (t : Ty) (prior : Val) : Bool :=
  t.isPtr && (derefVal t prior).isSome && Γ.isListKind (.base t.deref)

/-- amino.go:373-390: consume and verify the prefix bytes of a registered concrete type. -/
def stripPrefix (id : TId) (bz : Bytes) : Res Bytes :=
  match c.conc? id with
  | some ci =>
    if bz.length < 4 then .err .prefixMismatch
    else if bz.take 4 ≠ ci.prefx then .err .prefixMismatch
    else .ok (bz.drop 4)
  | none => .ok bz

/-- amino.go:423-444: decode the contents and insist that everything was read. -/
def decodeAll (t : Ty) (prior : Val) (bare : Bool) (bz : Bytes) : Res Val :=
  match dec Γ c fuel t prior { fnum := 1 } bare bz with
  | .ok n v => if n ≠ bz.length then .err .leftover else .ok v
  | .err _ e => .err e
  | .panic p => .panic p
  | .oof => .oof

/-- amino.go:392-444: the part of UnmarshalBinaryBare after the prefix bytes. -/
def unmarshalContents (t : Ty) (prior : Val) (bz : Bytes) : Res Val :=
  if Γ.structOrRep t.deref then decodeAll Γ c fuel t prior true bz
  else if ptrToListPanics Γ t prior then .panic .illTyped
  else if bz.length > 0 && !(!t.isPtr && Γ.isIface t.deref) && Γ.isKnown t.deref then
    match decodeKey bz with
    | .err _ e => .err e
    | .panic p => .panic p
    | .oof => .oof
    | .ok m (fnum, typ) =>
      if fnum ≠ 1 then .err .fieldNum
      else if typ ≠ Γ.typ3 t.deref {} then .err .fieldTyp
      else if m ≤ bz.length then
        decodeAll Γ c fuel t prior (Γ.typ3 t.deref {} != typ3ByteLength) (bz.drop m)
      else .panic .slide
  else decodeAll Γ c fuel t prior true bz

/-- amino.go:361-445 `UnmarshalBinaryBare` into a variable of type `t` holding `prior`. -/
def unmarshalBare (t : Ty) (prior : Val) (bz : Bytes) : Res Val :=
  (getInfo Γ c t.deref).bind fun _ =>
  (stripPrefix c t.deref bz).bind fun bz => unmarshalContents Γ c fuel t prior bz

/-- amino.go:264-285 `UnmarshalBinaryLengthPrefixed`.  `uint64(len(bz)-n)` cannot wrap as `n` is at
most `len(bz)`. -/
def unmarshalLP (t : Ty) (prior : Val) (bz : Bytes) : Res Val :=
  if bz.length = 0 then .err .emptyInput
  else
    let r := uvarint bz
    if r.2 < 0 then .err .varintOverflow
    else if r.1.toNat > bz.length - r.2.toNat then .err .lenMismatch
    else if r.1.toNat < bz.length - r.2.toNat then .err .lenMismatch
    else unmarshalBare Γ c fuel t prior (bz.drop r.2.toNat)

/-- amino.go:188, 250, 353, 483 the `Must*` wrappers. -/
def must {α : Type} : Res α → Res α
  | .ok a => .ok a
  | .err _ => .panic .must
  | .panic p => .panic p
  | .oof => .oof

end Amino
