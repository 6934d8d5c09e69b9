import Verif.JsonText
import Verif.BinEncode
import Verif.ValEq

/-!
# json-encode.go and MarshalJSON

`jenc Γ c J fuel addr t v fo` is `cdc.encodeReflectJSON(w, info, rv, fopts)` for a value `v` of type `t`
(possibly a pointer type) with the type info of `t`; `addr` is `rv.CanAddr()`.  The bytes written are
returned; what has been written before an error is not modelled.

A Go map is its list of entries in the order `MapKeys` happens to return (json-encode.go:371): the
order is part of the value here, so the claims about all maps are claims about all orders.
-/

namespace Amino

/-- `{"type":"` -/
def wrapOpen : Bytes := [0x7b, 0x22, 0x74, 0x79, 0x70, 0x65, 0x22, 0x3a, 0x22]
/-- `","value":` -/
def wrapMid : Bytes := [0x22, 0x2c, 0x22, 0x76, 0x61, 0x6c, 0x75, 0x65, 0x22, 0x3a]

/-- json-encode.go:175-186 and amino.go:508-527: the disfix wrapper; the name is written with `%s`. -/
def wrapText (name body : Bytes) : Bytes := wrapOpen ++ name ++ wrapMid ++ body ++ [0x7d]

/-- Texts separated by commas. -/
def joinComma : List Bytes → Bytes
  | [] => []
  | [b] => b
  | b :: bs => b ++ 0x2c :: joinComma bs

/-- json-encode.go:457-472 `isEmpty(rv, zrv)` for a field of type `t` holding `v`: `rv` is the
dereferenced value (json-encode.go:303), `zrv` the zero value of the *field* type, so for pointer fields
`reflect.DeepEqual` compares different types.  `DeepEqual` is equality of values here: zero floats of
either sign are equal for Go, and a zero `time.Time` carrying a location is not `DeepEqual` to the zero
value; neither is modelled. -/
def Prog.jsonEmpty (Γ : Prog) (t : Ty) (v : Val) : Bool :=
  match derefVal t v with
  | none => true
  | some dv =>
    (!t.isPtr && dv.eqb (Γ.zeroTy t)) ||
    match Γ.shape t.deref, dv with
    | .slice _, .nil => true
    | .slice _, .bytes b => b.isEmpty
    | .slice _, .list vs => vs.isEmpty
    | .array _ _, .bytes b => b.isEmpty
    | .array _ _, .list vs => vs.isEmpty
    | .string, .str s => s.isEmpty
    | _, _ => false

/-- An `Option` of a standard library function as a result. -/
def ofOpt {α : Type} (e : Err) : Option α → Res α
  | some a => .ok a
  | none => .err e

section
variable (Γ : Prog) (c : Codec) (J : JLib) (rec : Bool → Ty → Val → FOpts → Res Bytes)

/-- json-encode.go:134-193 `encodeReflectJSONInterface`, after the nil check. -/
def jencIface (t : Ty) (v : Val) (fo : FOpts) : Res Bytes :=
  if t.isPtr && Γ.isIface t.deref then .panic .ifacePtr
  else
    match derefVal t v with
    | none => .panic .nilPtrInIface
    | some dv =>
      (getInfo Γ c t.deref).bind fun _ =>
      match c.conc? t.deref with
      | none => .err .unregisteredConcrete
      | some ci => (rec t.isPtr (.base t.deref) dv fo).bind fun b => .ok (wrapText ci.name b)

/-- json-encode.go:246-264: the elements of a list. -/
def jencElems (addr : Bool) (e : Ty) (fo : FOpts) : List Val → Res (List Bytes)
  | [] => .ok []
  | v :: vs =>
    (rec addr e v fo).bind fun b => (jencElems addr e fo vs).bind fun bs => .ok (b :: bs)

/-- json-encode.go:195-273 `encodeReflectJSONList` on a non-nil list of non-bytes. -/
def jencList (addr : Bool) (e : Ty) (fo : FOpts) (vs : List Val) : Res Bytes :=
  (getInfo Γ c e.deref).bind fun _ =>
  (jencElems rec addr e fo vs).bind fun bs => .ok (0x5b :: (joinComma bs ++ [0x5d]))

/-- json-encode.go:212-230: bytes in base64.  When the list is not addressable `reflect.Copy` insists on
elements of type `byte` proper. -/
def jencBytes (addr : Bool) (e : Ty) (b : Bytes) : Res Bytes :=
  if !addr && e ≠ .base Γ.byteId then .panic .illTyped
  else .ok (0x22 :: (b64Enc b ++ [0x22]))

/-- json-encode.go:300-341: the members of a struct. -/
def jencFields (addr : Bool) : List Field → List Val → Res (List Bytes)
  | [], [] => .ok []
  | f :: fs, v :: vs =>
    if f.visible then
      (getInfo Γ c f.ty.deref).bind fun _ =>
      if f.opts.omitEmpty && Γ.jsonEmpty f.ty v then jencFields addr fs vs
      else
        (rec addr f.ty v f.opts).bind fun b =>
        (jencFields addr fs vs).bind fun bs => .ok ((quoteStr f.opts.jsonName ++ 0x3a :: b) :: bs)
    else jencFields addr fs vs
  | _, _ => .panic .illTyped

/-- json-encode.go:392-403: the value of a map entry.  The `null` written here for nil pointers is also
what `rec` writes for them. -/
def jencEntry (e : Ty) (fo : FOpts) (v : Val) : Res Bytes :=
  match derefVal e v with
  | none => rec false e v fo
  | some _ => (getInfo Γ c e.deref).bind fun _ => rec false e v fo

/-- json-encode.go:370-407: the members of a map. -/
def jencEntries (e : Ty) (fo : FOpts) : List (Bytes × Val) → Res (List Bytes)
  | [] => .ok []
  | (k, v) :: kvs =>
    (jencEntry Γ c rec e fo v).bind fun b =>
    (jencEntries e fo kvs).bind fun bs => .ok ((quoteStr k ++ 0x3a :: b) :: bs)

/-- json-encode.go:84-131: the switch on the kind. -/
def jencShape (addr : Bool) (id : TId) (v : Val) (fo : FOpts) : Res Bytes :=
  match Γ.shape id, v with
  | .iface, .nil => .ok jNull
  | .iface, .iface t v => jencIface Γ c rec t v fo
  | .slice _, .nil => .ok jNull
  | .slice e, .bytes b => jencBytes Γ addr e b
  | .array _ e, .bytes b => jencBytes Γ addr e b
  | .slice e, .list vs => jencList Γ c rec true e fo vs
  | .array _ e, .list vs => jencList Γ c rec addr e fo vs
  | .struct fs, .struct vs => (jencFields Γ c rec addr fs vs).bind fun bs => .ok (0x7b :: (joinComma bs ++ [0x7d]))
  | .map _, .nil => .ok [0x7b, 0x7d]
  | .map e, .map kvs => (jencEntries Γ c rec e fo kvs).bind fun bs => .ok (0x7b :: (joinComma bs ++ [0x7d]))
  | .int k, .int i => if k.bits = 64 then .ok (0x22 :: (intText i ++ [0x22])) else .ok (intText i)
  | .float32, .f32 b => if !fo.floatOk then .err .floatUnsafe else ofOpt .json (J.f32Text b)
  | .float64, .f64 b => if !fo.floatOk then .err .floatUnsafe else ofOpt .json (J.f64Text b)
  | .bool, .bool b => .ok (if b then jTrue else jFalse)
  | .string, .str s => .ok (quoteStr s)
  | .time, .time s ns => ofOpt .json (J.timeText s ns)
  | _, _ => .panic .illTyped

/-- json-encode.go:45-82 after dereferencing: `time.Time` is written by its own MarshalJSON, types with
MarshalJSON by that, types with MarshalAmino as their representation. -/
def jencBase (addr : Bool) (id : TId) (v : Val) (fo : FOpts) : Res Bytes :=
  if Γ.shape id = .time then jencShape Γ c J rec addr id v fo
  else
    match J.marsh id addr with
    | some m => m v
    | none =>
      match Γ.marsh id with
      | some (rid, m) =>
        (m v).bind fun r => (getInfo Γ c rid).bind fun _ => rec false (.base rid) r fo
      | none => jencShape Γ c J rec addr id v fo

end

/-- json-encode.go:23-132 `encodeReflectJSON`.  The callers that look for nil pointers themselves
(json-encode.go:248, 303, 373) write `null` for them, as this function does. -/
def jenc (Γ : Prog) (c : Codec) (J : JLib) : Nat → Bool → Ty → Val → FOpts → Res Bytes
  | 0, _, _, _, _ => .oof
  | fuel + 1, addr, t, v, fo =>
    match derefVal t v with
    | none => .ok jNull
    | some dv => jencBase Γ c J (jenc Γ c J fuel) (addr || t.isPtr) t.deref dv fo

/-- amino.go:495-528 `MarshalJSON`; `none` is the nil interface.  -/
def marshalJSON (Γ : Prog) (c : Codec) (J : JLib) (fuel : Nat) : Option (Ty × Val) → Res Bytes
  | none => .ok jNull
  | some (t, v) =>
    (getInfo Γ c t.deref).bind fun _ =>
    (jenc Γ c J fuel false t v {}).bind fun b =>
    match c.conc? t.deref with
    | some ci => .ok (wrapText ci.name b)
    | none => .ok b

end Amino
