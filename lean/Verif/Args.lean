import Verif.Reader
import Verif.JsonDecode
import Verif.JsonEncode

/-!
# amino.go: the arguments `o` and `ptr` of type `interface{}`

The other modules treat the calls with a pointer to a variable; here are the checks made before.
-/

namespace Amino

/-- What may be passed as `ptr`. -/
inductive Arg
  /-- the nil interface -/
  | none
  /-- a value of the non-pointer type `id` -/
  | value (id : TId) (v : Val)
  /-- `(*T)(nil)` -/
  | nilPtr (t : Ty)
  /-- a pointer to a variable of type `t` holding `prior` -/
  | ptr (t : Ty) (prior : Val)

section
variable (Γ : Prog) (c : Codec) (J : JLib) (fuel : Nat)

/-- amino.go:361-445 `UnmarshalBinaryBare(bz, ptr)`: `rv.Kind() != reflect.Ptr` is an error (`reflect.ValueOf(nil)` has the kind
Invalid); `rv.Elem()` of a nil pointer is the zero Value, on which `Type()` panics. -/
def unmarshalBareArg (bz : Bytes) : Arg → Res Val
  | .none | .value _ _ => .err .notPointer
  | .nilPtr _ => .panic .invalidValue
  | .ptr t prior => unmarshalBare Γ c fuel t prior bz

/-- amino.go:264-285 `UnmarshalBinaryLengthPrefixed(bz, ptr)`: the length comes first. -/
def unmarshalLPArg (bz : Bytes) (a : Arg) : Res Val :=
  if bz.length = 0 then .err .emptyInput
  else
    let r := uvarint bz
    if r.2 < 0 then .err .varintOverflow
    else if r.1.toNat > bz.length - r.2.toNat then .err .lenMismatch
    else if r.1.toNat < bz.length - r.2.toNat then .err .lenMismatch
    else unmarshalBareArg Γ c fuel (bz.drop r.2.toNat) a

/-- amino.go:539-568 `UnmarshalJSON(bz, ptr)`. -/
def unmarshalJSONArg (bz : Bytes) (a : Arg) : Res Val :=
  if bz = [] then .err .emptyInput
  else
    match a with
    | .none | .value _ _ => .err .notPointer
    | .nilPtr _ => .panic .invalidValue
    | .ptr t prior => unmarshalJSON Γ c J fuel t prior bz

/-- amino.go:197-245 `MarshalBinaryBare(o)`; `none` is the nil interface: derefPointers leaves the zero Value alone, and
`rv.Type()` (line 210) panics. -/
def marshalBareArg : Option (Ty × Val) → Res Bytes
  | none => .panic .invalidValue
  | some (t, v) => marshalBare Γ c fuel t v

/-- amino.go:143-167 `MarshalBinaryLengthPrefixed(o)`. -/
def marshalLPArg (o : Option (Ty × Val)) : Res Bytes :=
  (marshalBareArg Γ c fuel o).bind fun bz =>
  (encodeUvarint (UInt64.ofNat bz.length)).bind fun p => .ok (p ++ bz)

variable {σ : Type} (R : Reader σ)

/-- amino.go:318-349, after the prefix loop. -/
def readBodyArg (rf : Nat) (maxSize : Int) (a : Arg) (p : σ × Bytes × Option Err) : ReadOut σ :=
  match p with
  | (s, bs, some e) => ⟨s, bs.length, .err e⟩
  | (s, bs, none) =>
    match bodyLength maxSize bs.length (prefixValue bs) with
    | .err e => ⟨s, bs.length, .err e⟩
    | .panic p => ⟨s, bs.length, .panic p⟩
    | .oof => ⟨s, bs.length, .oof⟩
    | .ok l =>
      match readFull R rf s l [] with
      | none => ⟨s, bs.length, .oof⟩
      | some (s, _, some e) => ⟨s, bs.length, .err e⟩
      | some (s, b, none) => ⟨s, bs.length + l, unmarshalBareArg Γ c fuel b a⟩

/-- amino.go:290-350 `UnmarshalBinaryLengthPrefixedReader(r, ptr, maxSize)`. -/
def unmarshalReaderArg (rf : Nat) (maxSize : Int) (a : Arg) (s : σ) : ReadOut σ :=
  if maxSize < 0 then ⟨s, 0, .panic .negSize⟩
  else readBodyArg Γ c fuel R rf maxSize a (prefixLoop R maxSize 10 s [] none)

end

end Amino
