import Verif.JsonEncode
import Verif.BinDecode

/-!
# json-decode.go and UnmarshalJSON

`jdec Γ c J fuel t prior fo bz` is `cdc.decodeReflectJSON(bz, info, rv, fopts)` where `rv` is an
addressable value of type `t` (possibly a pointer type) holding `prior`; on success the new content of
`rv` is returned.  What `rv` holds after an error is modelled in `JLeftover.lean`.
Map keys are of type `string` itself (`SetMapIndex` panics for named string types, json-decode.go:470).
-/

namespace Amino

/-- json-decode.go:493-515 `decodeInterfaceJSON`. -/
def decodeInterfaceJSON (bz : Bytes) : Res (Bytes × Bytes) :=
  match unmWrapper bz with
  | none => .err .json
  | some (name, data) =>
    if name = [] then .err .json
    else if data = [] then .err .json
    else .ok (name, data)

section
variable (Γ : Prog) (c : Codec) (J : JLib) (rec : Ty → Val → FOpts → Bytes → Res Val)

/-- json-decode.go:173-234 `decodeReflectJSONInterface`.  `rv.Set(irvSet)` also happens on errors. -/
def jdecIface (id : TId) (fo : FOpts) (bz : Bytes) : Res Val :=
  (decodeInterfaceJSON bz).bind fun nd =>
  match c.name? nd.1 with
  | none => .err .unknownName
  | some ci =>
    match rec (.base ci.tid) (Γ.zero ci.tid) fo nd.2 with
    | .ok v => if Γ.implements ci.dynTy id then .ok (.iface ci.dynTy (wrapTy ci.dynTy v)) else .panic .notAssignable
    | .err e => if Γ.implements ci.dynTy id then .err e else .panic .notAssignable
    | .panic p => .panic p
    | .oof => .oof

/-- json-decode.go:283-290: the elements of an array, over the old ones. -/
def jdecArr (e : Ty) (fo : FOpts) : List Val → List Bytes → Res (List Val)
  | p :: ps, b :: bs => (rec e p fo b).bind fun v => (jdecArr e fo ps bs).bind fun vs => .ok (v :: vs)
  | _, _ => .ok []

/-- json-decode.go:347-354: the elements of a new slice. -/
def jdecElems (e : Ty) (fo : FOpts) : List Bytes → Res (List Val)
  | [] => .ok []
  | b :: bs => (rec e (Γ.zeroTy e) fo b).bind fun v => (jdecElems e fo bs).bind fun vs => .ok (v :: vs)

/-- json-decode.go:396-419: one field.  The options passed on are those of the struct itself, not those
of the field (json-decode.go:416). -/
def jdecField (fo : FOpts) (m : List (Bytes × Bytes)) (f : Field) (p : Val) : Res Val :=
  match m.lookup f.opts.jsonName with
  | none => .ok (if f.opts.omitEmpty then p else Γ.zeroTy f.ty)
  | some b => if b = [] then .ok (if f.opts.omitEmpty then p else Γ.zeroTy f.ty) else rec f.ty p fo b

/-- json-decode.go:386-422: the fields. -/
def jdecFields (fo : FOpts) (m : List (Bytes × Bytes)) : List Field → List Val → Res (List Val)
  | [], [] => .ok []
  | f :: fs, p :: ps =>
    if f.visible then
      (getInfo Γ c f.ty.deref).bind fun _ =>
      (jdecField Γ rec fo m f p).bind fun v =>
      (jdecFields fo m fs ps).bind fun vs => .ok (v :: vs)
    else (jdecFields fo m fs ps).bind fun vs => .ok (p :: vs)
  | _, _ => .panic .illTyped

/-- json-decode.go:458-474: the entries, in an order chosen by the Go runtime; the model takes that of
the text (this matters only for which of several errors is reported). -/
def jdecEntries (e : Ty) (fo : FOpts) : List (Bytes × Bytes) → Res (List (Bytes × Val))
  | [] => .ok []
  | (k, b) :: kvs =>
    (rec e (Γ.zeroTy e) fo b).bind fun v => (jdecEntries e fo kvs).bind fun l => .ok ((k, v) :: l)

/-- What a byte slice variable holds; `json.Unmarshal` writes to the variable itself (json-decode.go:311). -/
def oldBytes : Val → Bytes
  | .bytes b => b
  | _ => []

/-- json-decode.go:116-132: the integer cases.  `json.Unmarshal` writes to a new variable (json-decode.go:160-168
`invokeStdlibJSONUnmarshal`, also for bools, strings and floats), which `null` leaves zero. -/
def jdecInt (k : IntKind) (bz : Bytes) : Res Val :=
  if k.bits = 64 then
    if bz = [] then .panic .index
    else if bz.head? ≠ some 0x22 ∨ bz.getLast? ≠ some 0x22 then .err .json
    else if bz.length < 2 then .panic .index
    else (ofOpt .json (unmInt k 0 ((bz.drop 1).take (bz.length - 2)))).bind fun i => .ok (.int i)
  else (ofOpt .json (unmInt k 0 bz)).bind fun i => .ok (.int i)

/-- json-decode.go:250-263: a byte array, by way of a new byte slice.  `reflect.Copy` insists on elements of type `byte` proper, and
happens before the length error is returned. -/
def jdecByteArr (n : Nat) (e : Ty) (bz : Bytes) : Res Val :=
  (ofOpt .json (unmBytes [] bz)).bind fun b =>
  if e ≠ .base Γ.byteId then .panic .illTyped
  else if b.length ≠ n then .err .arrayLen
  else .ok (.bytes b)

/-- json-decode.go:83-149: the switch on the kind. -/
def jdecShape (id : TId) (prior : Val) (fo : FOpts) (bz : Bytes) : Res Val :=
  match Γ.shape id with
  | .iface => jdecIface Γ c rec id fo bz
  | .array n e =>
    if Γ.isByteKind e then jdecByteArr Γ n e bz
    else
      (getInfo Γ c e.deref).bind fun _ =>
      (ofOpt .json (unmRaws bz)).bind fun raws =>
      if raws.length ≠ n then .err .arrayLen
      else
        match prior with
        | .list ps => (jdecArr rec e fo ps raws).bind fun vs => .ok (.list vs)
        | _ => .panic .illTyped
  | .slice e =>
    if Γ.isByteKind e then
      (ofOpt .json (unmBytes (oldBytes prior) bz)).bind fun b => .ok (if b.isEmpty then Γ.zero id else .bytes b)
    else
      (getInfo Γ c e.deref).bind fun _ =>
      (ofOpt .json (unmRaws bz)).bind fun raws =>
      if raws.length = 0 then .ok (Γ.zero id)
      else (jdecElems Γ rec e fo raws).bind fun vs => .ok (.list vs)
  | .struct fs =>
    (ofOpt .json (unmRawMap bz)).bind fun m =>
    match prior with
    | .struct ps => (jdecFields Γ c rec fo m fs ps).bind fun vs => .ok (.struct vs)
    | _ => .panic .illTyped
  | .map e =>
    (ofOpt .json (unmRawMap bz)).bind fun m =>
    (getInfo Γ c e.deref).bind fun _ =>
    (jdecEntries Γ rec e fo m).bind fun l => .ok (.map l)
  | .int k => jdecInt k bz
  | .float32 => if !fo.floatOk then .err .floatUnsafe else (ofOpt .json (unmFloat J.f32Parse 0 bz)).bind fun b => .ok (.f32 b)
  | .float64 => if !fo.floatOk then .err .floatUnsafe else (ofOpt .json (unmFloat J.f64Parse 0 bz)).bind fun b => .ok (.f64 b)
  | .bool => (ofOpt .json (unmBool false bz)).bind fun b => .ok (.bool b)
  | .string => (ofOpt .json (unmStr [] bz)).bind fun s => .ok (.str s)
  | .time =>
    if 2 ≤ bz.length ∧ bz.head? = some 0x22 ∧ bz.getLast? = some 0x22 then
      if bz[bz.length - 2]? ≠ some 0x5a then .err .json
      else (ofOpt .json (J.timeParse bz)).bind fun p => .ok (.time p.1 p.2)
    else .err .json

/-- json-decode.go:40-81 after dereferencing and constructing pointers: UnmarshalJSON, UnmarshalAmino
through the representation, or the kind. -/
def jdecBase (id : TId) (prior : Val) (fo : FOpts) (bz : Bytes) : Res Val :=
  if Γ.shape id = .time then jdecShape Γ c J rec id prior fo bz
  else
    match J.unmarsh id with
    | some um => um prior bz
    | none =>
      match Γ.unmarsh id with
      | some (rid, um) =>
        (getInfo Γ c rid).bind fun _ => (rec (.base rid) (Γ.zero rid) fo bz).bind fun r => um prior r
      | none => jdecShape Γ c J rec id prior fo bz

end

/-- json-decode.go:18-153 `decodeReflectJSON`. -/
def jdec (Γ : Prog) (c : Codec) (J : JLib) : Nat → Ty → Val → FOpts → Bytes → Res Val
  | 0, _, _, _, _ => .oof
  | fuel + 1, t, prior, fo, bz =>
    if Γ.isIface t.deref && t.isPtr then .panic .ifacePtr
    else if bz = jNull then .ok (Γ.zeroTy t)
    else
      (jdecBase Γ c J (jdec Γ c J fuel) t.deref (Γ.derefPrior t prior) fo bz).bind fun v => .ok (wrapTy t v)

/-- amino.go:539-568 `UnmarshalJSON` into a variable of type `t` holding `prior`. -/
def unmarshalJSON (Γ : Prog) (c : Codec) (J : JLib) (fuel : Nat) (t : Ty) (prior : Val) (bz : Bytes) : Res Val :=
  if bz = [] then .err .emptyInput
  else
    (getInfo Γ c t.deref).bind fun _ =>
    match c.conc? t.deref with
    | some ci =>
      (decodeInterfaceJSON bz).bind fun nd =>
      if nd.1 ≠ ci.name then .err .prefixMismatch
      else jdec Γ c J fuel t prior {} nd.2
    | none => jdec Γ c J fuel t prior {} bz

end Amino
