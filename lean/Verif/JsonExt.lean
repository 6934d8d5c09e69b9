import Verif.JsonDecode

/-!
# json-encode.go and json-decode.go with text methods and keys of maps

The functions of `JsonEncode.lean` and `JsonDecode.lean`, for programs whose types may have methods MarshalText and
UnmarshalText, and whose maps may have keys of other types than `string`.  What `json.Marshal` and `json.Unmarshal` do
with such types is part of this model; amino itself does not look for these methods.
-/

namespace Amino

/-- The type of the keys of a map: `string`, another type of kind string (with what `json.Marshal` writes for its
values if it has MarshalJSON or MarshalText), or a type of another kind. -/
inductive KeyKind
  | plain
  | named (text : Option (Bytes → Res Bytes))
  | other

/-- What a program adds. -/
structure XLib where
  /-- MarshalText in the method set of the type -/
  text : TId → Option (Val → Res Bytes)
  /-- UnmarshalText of the pointer to it, called on a new variable (json-decode.go:157-171) -/
  untext : TId → Option (Bytes → Res Val)
  /-- the keys of a map type -/
  key : TId → KeyKind

/-- The kinds amino passes to `json.Marshal` (json-encode.go:113-125). -/
def stdKind : Shape → Bool
  | .bool | .string | .float32 | .float64 => true
  | .int k => k.bits ≠ 64
  | _ => false

/-- Floats need a tag (json-encode.go:119, json-decode.go:138). -/
def floatRefused (sh : Shape) (fo : FOpts) : Bool :=
  match sh with
  | .float32 | .float64 => !fo.floatOk
  | _ => false

section
variable (Γ : Prog) (c : Codec) (J : JLib) (X : XLib)

/-- json-encode.go:370-407 with the text of the key. -/
def jencEntriesX (rec : Bool → Ty → Val → FOpts → Res Bytes) (key : Bytes → Res Bytes) (e : Ty) (fo : FOpts) :
    List (Bytes × Val) → Res (List Bytes)
  | [] => .ok []
  | (k, v) :: kvs =>
    (key k).bind fun kb =>
    (jencEntry Γ c rec e fo v).bind fun b =>
    (jencEntriesX rec key e fo kvs).bind fun bs => .ok ((kb ++ 0x3a :: b) :: bs)

/-- json-encode.go:84-131: the switch on the kind.  json-encode.go:363 refuses other keys, also of nil maps. -/
def jencShapeX (rec : Bool → Ty → Val → FOpts → Res Bytes) (addr : Bool) (id : TId) (v : Val) (fo : FOpts) : Res Bytes :=
  match Γ.shape id, X.key id, v with
  | .map _, .other, _ => .err .json
  | .map e, .named (some key), .map kvs =>
    (jencEntriesX Γ c rec key e fo kvs).bind fun bs => .ok (0x7b :: (joinComma bs ++ [0x7d]))
  | .map _, _, v => jencShape Γ c J rec addr id v fo
  | sh, _, v =>
    match X.text id with
    | none => jencShape Γ c J rec addr id v fo
    | some m =>
      if !stdKind sh then jencShape Γ c J rec addr id v fo
      else if floatRefused sh fo then .err .floatUnsafe
      else (m v).bind fun s => .ok (quoteStr s)

/-- json-encode.go:45-82 (see `jencBase`). -/
def jencBaseX (rec : Bool → Ty → Val → FOpts → Res Bytes) (addr : Bool) (id : TId) (v : Val) (fo : FOpts) : Res Bytes :=
  if Γ.shape id = .time then jencShapeX Γ c J X rec addr id v fo
  else
    match J.marsh id addr with
    | some m => m v
    | none =>
      match Γ.marsh id with
      | some (rid, m) =>
        (m v).bind fun r => (getInfo Γ c rid).bind fun _ => rec false (.base rid) r fo
      | none => jencShapeX Γ c J X rec addr id v fo

/-- json-encode.go:23-132 `encodeReflectJSON`. -/
def jencX : Nat → Bool → Ty → Val → FOpts → Res Bytes
  | 0, _, _, _, _ => .oof
  | fuel + 1, addr, t, v, fo =>
    match derefVal t v with
    | none => .ok jNull
    | some dv => jencBaseX Γ c J X (jencX fuel) (addr || t.isPtr) t.deref dv fo

/-- amino.go:495-528 `MarshalJSON`. -/
def marshalJSONX (fuel : Nat) : Option (Ty × Val) → Res Bytes
  | none => .ok jNull
  | some (t, v) =>
    (getInfo Γ c t.deref).bind fun _ =>
    (jencX Γ c J X fuel false t v {}).bind fun b =>
    match c.conc? t.deref with
    | some ci => .ok (wrapText ci.name b)
    | none => .ok b

/-- `json.Unmarshal` into a new variable of a type with UnmarshalText: `null` leaves it zero, a string is given to the
method, and anything else is an error (encoding/json decode.go `literalStore`, `array`, `object`). -/
def unmText (z : Val) (um : Bytes → Res Val) (bz : Bytes) : Res Val :=
  (ofOpt .json (wholeVal bz)).bind fun raw =>
  if raw = jNull then .ok z
  else if raw.head? = some 0x22 then (ofOpt .json (unquote raw)).bind um
  else .err .json

/-- json-decode.go:116-132 for types with UnmarshalText: the quotes of 64-bit integers are taken off first. -/
def unmTextKind (sh : Shape) (z : Val) (um : Bytes → Res Val) (bz : Bytes) : Res Val :=
  match sh with
  | .int k =>
    if k.bits = 64 then
      if bz = [] then .panic .index
      else if bz.head? ≠ some 0x22 ∨ bz.getLast? ≠ some 0x22 then .err .json
      else if bz.length < 2 then .panic .index
      else unmText z um ((bz.drop 1).take (bz.length - 2))
    else unmText z um bz
  | _ => unmText z um bz

/-- The kinds amino passes to `json.Unmarshal` (json-decode.go:116-144). -/
def stdReadKind : Shape → Bool
  | .bool | .string | .float32 | .float64 | .int _ => true
  | _ => false

/-- json-decode.go:83-149: the switch on the kind.  Of a map with keys of another type of kind string, no entry can be
set (json-decode.go:470-472: the key is a `string`, which is not assignable).  Which entry comes first is up to the Go
runtime; here it is the first of the text. -/
def jdecShapeX (rec : Ty → Val → FOpts → Bytes → Res Val) (id : TId) (prior : Val) (fo : FOpts) (bz : Bytes) : Res Val :=
  match Γ.shape id, X.key id with
  | .map _, .other => (ofOpt .json (unmRawMap bz)).bind fun _ => .err .json
  | .map e, .named _ =>
    (ofOpt .json (unmRawMap bz)).bind fun m =>
    (getInfo Γ c e.deref).bind fun _ =>
    match m with
    | [] => .ok (.map [])
    | (_, b) :: _ => (rec e (Γ.zeroTy e) fo b).bind fun _ => .panic .notAssignable
  | .map _, .plain => jdecShape Γ c J rec id prior fo bz
  | sh, _ =>
    match X.untext id with
    | none => jdecShape Γ c J rec id prior fo bz
    | some um =>
      if !stdReadKind sh then jdecShape Γ c J rec id prior fo bz
      else if floatRefused sh fo then .err .floatUnsafe
      else unmTextKind sh (Γ.zero id) um bz

/-- json-decode.go:40-81 (see `jdecBase`). -/
def jdecBaseX (rec : Ty → Val → FOpts → Bytes → Res Val) (id : TId) (prior : Val) (fo : FOpts) (bz : Bytes) : Res Val :=
  if Γ.shape id = .time then jdecShapeX Γ c J X rec id prior fo bz
  else
    match J.unmarsh id with
    | some um => um prior bz
    | none =>
      match Γ.unmarsh id with
      | some (rid, um) =>
        (getInfo Γ c rid).bind fun _ => (rec (.base rid) (Γ.zero rid) fo bz).bind fun r => um prior r
      | none => jdecShapeX Γ c J X rec id prior fo bz

/-- json-decode.go:18-153 `decodeReflectJSON`. -/
def jdecX : Nat → Ty → Val → FOpts → Bytes → Res Val
  | 0, _, _, _, _ => .oof
  | fuel + 1, t, prior, fo, bz =>
    if Γ.isIface t.deref && t.isPtr then .panic .ifacePtr
    else if bz = jNull then .ok (Γ.zeroTy t)
    else
      (jdecBaseX Γ c J X (jdecX fuel) t.deref (Γ.derefPrior t prior) fo bz).bind fun v => .ok (wrapTy t v)

/-- amino.go:539-568 `UnmarshalJSON`. -/
def unmarshalJSONX (fuel : Nat) (t : Ty) (prior : Val) (bz : Bytes) : Res Val :=
  if bz = [] then .err .emptyInput
  else
    (getInfo Γ c t.deref).bind fun _ =>
    match c.conc? t.deref with
    | some ci =>
      (decodeInterfaceJSON bz).bind fun nd =>
      if nd.1 ≠ ci.name then .err .prefixMismatch
      else jdecX Γ c J X fuel t prior {} nd.2
    | none => jdecX Γ c J X fuel t prior {} bz

end

end Amino
