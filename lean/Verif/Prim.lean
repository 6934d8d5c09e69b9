import Verif.Varint

/-!
# encoder.go and decoder.go: the primitive coders

Writers: every `Encode*` returns the bytes it hands to `w` (a `bytes.Buffer`, which never fails).
Signed Go integers are `Int`s; the two's complement conversions `uint64(i)` / `int64(u)` are
`u64OfInt` / `intOfU64`.
-/

namespace Amino

/-- Go's `uint64(i)` for a signed `i`. -/
def u64OfInt (i : Int) : UInt64 := UInt64.ofNat (i % 2 ^ 64).toNat

/-- Go's `int64(u)`. -/
def intOfU64 (u : UInt64) : Int :=
  if u.toNat < 2 ^ 63 then (u.toNat : Int) else (u.toNat : Int) - 2 ^ 64

/-- Go's `int32(u)` for a `uint32` held in a `UInt64`. -/
def intOfU32 (u : UInt64) : Int :=
  if u.toNat < 2 ^ 31 then (u.toNat : Int) else (u.toNat : Int) - 2 ^ 32

/-- `encodeFieldNumberAndTyp3`'s / `EncodeUvarint`'s `var buf [10]byte; binary.PutUvarint(buf[:], u)`
(encoder.go:80-85). -/
def encodeUvarint (u : UInt64) : Res Bytes :=
  match putUvarintAux 10 u with
  | some b => .ok b
  | none => .panic .index

/-- encoder.go:37-42 `EncodeVarint`. -/
def encodeVarint (i : Int) : Res Bytes := encodeUvarint (zigzag (u64OfInt i))

/-- encoder.go:15 `EncodeInt8`. -/
def encodeInt8 (i : Int) : Res Bytes := encodeVarint i
/-- encoder.go:19 `EncodeInt16`. -/
def encodeInt16 (i : Int) : Res Bytes := encodeVarint i

/-- encoder.go:87-92 `UvarintSize`. -/
def uvarintSize (u : UInt64) : Nat := if u = 0 then 1 else (len64 u + 6) / 7

/-- encoder.go:44-46 `VarintSize`: `UvarintSize((uint64(i) << 1) ^ uint64(i>>63))`; `i>>63` is the
arithmetic shift: all ones for negative `i`. -/
def varintSize (i : Int) : Nat :=
  uvarintSize ((u64OfInt i <<< 1) ^^^ (if i < 0 then 0xFFFFFFFFFFFFFFFF else 0))

/-- `binary.LittleEndian.PutUint32/64`: the `k` low bytes, least significant first. -/
def putLE : Nat → UInt64 → Bytes
  | 0, _ => []
  | k + 1, x => x.toUInt8 :: putLE k (x >>> 8)

/-- `binary.LittleEndian.Uint32/64` on exactly the bytes given. -/
def getLE : Bytes → UInt64
  | [] => 0
  | b :: bs => b.toUInt64 ||| shl64 (getLE bs) 8

/-- encoder.go:23 `EncodeInt32`. -/
def encodeInt32 (i : Int) : Res Bytes := .ok (putLE 4 (u64OfInt i))
/-- encoder.go:30 `EncodeInt64`. -/
def encodeInt64 (i : Int) : Res Bytes := .ok (putLE 8 (u64OfInt i))
/-- encoder.go:63 `EncodeUint32` (argument: the `uint32` zero-extended). -/
def encodeUint32 (u : UInt64) : Res Bytes := .ok (putLE 4 u)
/-- encoder.go:70 `EncodeUint64`. -/
def encodeUint64 (u : UInt64) : Res Bytes := .ok (putLE 8 u)
/-- encoder.go:51-61 `EncodeByte`, `EncodeUint8`, `EncodeUint16`. -/
def encodeUint8 (u : UInt64) : Res Bytes := encodeUvarint u
/-- encoder.go:59 `EncodeUint16`. -/
def encodeUint16 (u : UInt64) : Res Bytes := encodeUvarint u

/-- encoder.go:97-104 `EncodeBool`. -/
def encodeBool (b : Bool) : Res Bytes := if b then encodeUint8 1 else encodeUint8 0

/-- encoder.go:178-185 `EncodeByteSlice`. -/
def encodeByteSlice (bz : Bytes) : Res Bytes :=
  (encodeUvarint (UInt64.ofNat bz.length)).bind fun p => .ok (p ++ bz)

/-- encoder.go:187-189 `ByteSliceSize`. -/
def byteSliceSize (bz : Bytes) : Nat := uvarintSize (UInt64.ofNat bz.length) + bz.length

/-- encoder.go:191 `EncodeString` (a Go string is its bytes). -/
def encodeString (s : Bytes) : Res Bytes := encodeByteSlice s

/-! Typ3 codes, amino.go:95-107. -/
def typ3Varint : Nat := 0
def typ38Byte : Nat := 1
def typ3ByteLength : Nat := 2
def typ34Byte : Nat := 5

/-- binary-encode.go:481-497 `encodeFieldNumberAndTyp3`. -/
def encodeKey (num typ : Nat) : Res Bytes :=
  if typ &&& 0xF8 ≠ 0 then .panic .badTyp3
  else if num > 2 ^ 29 - 1 then .panic .badFieldNum
  else encodeUvarint ((UInt64.ofNat num <<< 3) ||| UInt64.ofNat typ)

/-- encoder.go:116-124. -/
def minSeconds : Int := -62135596800
def maxSeconds : Int := 253402300800
def maxNanos : Int := 999999999

/-- encoder.go:137-176 `EncodeTime`.  A `time.Time` is its pair (`Unix()`, `Nanosecond()`); location
and monotonic clock are not modelled. -/
def encodeTime (s ns : Int) : Res Bytes :=
  (if s ≠ 0 then
    if s < minSeconds ∨ s ≥ maxSeconds then .err .badTime
    else (encodeKey 1 typ3Varint).bind fun k =>
      (encodeUvarint (u64OfInt s)).bind fun v => .ok (k ++ v)
   else .ok []).bind fun a =>
  (if ns ≠ 0 then
    if ns < 0 ∨ ns > maxNanos then .err .badTime
    else (encodeKey 2 typ3Varint).bind fun k =>
      (encodeUvarint (u64OfInt ns)).bind fun v => .ok (k ++ v)
   else .ok []).bind fun b => .ok (a ++ b)

/-! ## decoder.go -/

/-- decoder.go:132-144 `DecodeUvarint`. -/
def decodeUvarint (bz : Bytes) : DRes UInt64 :=
  let r := uvarint bz
  if r.2 = 0 then .err 0 .bufTooSmall
  else if r.2 < 0 then .err (-r.2).toNat .varintOverflow
  else .ok r.2.toNat r.1

/-- decoder.go:64-77 `DecodeVarint` (with `binary.Varint`). -/
def decodeVarint (bz : Bytes) : DRes Int :=
  let r := uvarint bz
  if r.2 = 0 then .err 0 .bufTooSmall
  else if r.2 < 0 then .err (-r.2).toNat .varintOverflow
  else .ok r.2.toNat (intOfU64 (unzigzag r.1))

/-- decoder.go:14-26 `DecodeInt8`. -/
def decodeInt8 (bz : Bytes) : DRes Int :=
  match decodeVarint bz with
  | .ok n i => if i < -128 ∨ i > 127 then .err n .intRange else .ok n i
  | r => r

/-- decoder.go:28-40 `DecodeInt16`. -/
def decodeInt16 (bz : Bytes) : DRes Int :=
  match decodeVarint bz with
  | .ok n i => if i < -32768 ∨ i > 32767 then .err n .intRange else .ok n i
  | r => r

/-- decoder.go:81-95 `DecodeByte`, `DecodeUint8`. -/
def decodeUint8 (bz : Bytes) : DRes UInt64 :=
  match decodeUvarint bz with
  | .ok n u => if u > 255 then .err n .intRange else .ok n u
  | r => r

/-- decoder.go:97-108 `DecodeUint16`. -/
def decodeUint16 (bz : Bytes) : DRes UInt64 :=
  match decodeUvarint bz with
  | .ok n u => if u > 65535 then .err n .intRange else .ok n u
  | r => r

/-- decoder.go:110-119, 168-179 `DecodeUint32`, `DecodeFloat32` (bits). -/
def decodeUint32 (bz : Bytes) : DRes UInt64 :=
  if bz.length < 4 then .err 0 .eof else .ok 4 (getLE (bz.take 4))

/-- decoder.go:121-130, 181-192 `DecodeUint64`, `DecodeFloat64` (bits). -/
def decodeUint64 (bz : Bytes) : DRes UInt64 :=
  if bz.length < 8 then .err 0 .eof else .ok 8 (getLE (bz.take 8))

/-- decoder.go:42-51 `DecodeInt32`. -/
def decodeInt32 (bz : Bytes) : DRes Int :=
  if bz.length < 4 then .err 0 .eof else .ok 4 (intOfU32 (getLE (bz.take 4)))

/-- decoder.go:53-62 `DecodeInt64`. -/
def decodeInt64 (bz : Bytes) : DRes Int :=
  if bz.length < 8 then .err 0 .eof else .ok 8 (intOfU64 (getLE (bz.take 8)))

/-- decoder.go:149-165 `DecodeBool`: looks at one byte, not at a varint. -/
def decodeBool (bz : Bytes) : DRes Bool :=
  match bz with
  | [] => .err 0 .eof
  | b :: _ => if b = 0 then .ok 1 false else if b = 1 then .ok 1 true else .err 1 .badBool

/-- binary-decode.go:959-978 `decodeFieldNumberAndTyp3`; the value is `(num, typ)`. -/
def decodeKey (bz : Bytes) : DRes (Nat × Nat) :=
  match decodeUvarint bz with
  | .ok n v =>
    if (v >>> 3).toNat > 2 ^ 29 - 1 then .err n .badFieldNum
    else .ok n ((v >>> 3).toNat, (v &&& 7).toNat)
  | .err n e => .err n e
  | .panic p => .panic p
  | .oof => .oof

/-- decoder.go:225-255 `decodeSeconds`.  The count returned is exactly how far it slid `*bz`. -/
def decodeSeconds (bz : Bytes) : DRes Int :=
  match decodeKey bz with
  | .err _ e => .err 0 e
  | .panic p => .panic p
  | .oof => .oof
  | .ok m (fnum, typ) =>
    if fnum = 1 ∧ typ = typ3Varint then
      slideThen m bz 0 fun bz n =>
      (decodeUvarint bz).andSlide bz n fun sec _ n =>
        if intOfU64 sec < minSeconds ∨ intOfU64 sec ≥ maxSeconds then .err n .badTime
        else .ok n (intOfU64 sec)
    else if fnum = 2 ∧ typ = typ3Varint then .ok 0 0
    else .err 0 .timeField

/-- decoder.go:257-278 `decodeNanos`, starting from count `n`. -/
def decodeNanos (bz : Bytes) (n : Nat) : DRes Int :=
  match decodeKey bz with
  | .err _ e => .err n e
  | .panic p => .panic p
  | .oof => .oof
  | .ok m (fnum, typ) =>
    if fnum = 2 ∧ typ = typ3Varint then
      slideThen m bz n fun bz n =>
      (decodeUvarint bz).andSlide bz n fun nsec _ n =>
        if maxNanos < (nsec.toNat : Int) then .err n .badTime else .ok n (nsec.toNat : Int)
    else .ok n 0

/-- decoder.go:198-223 `DecodeTime`; the value is `(seconds, nanoseconds)`.  `andSlide` stands for the
slides `decodeSeconds` did through the pointer to `bz`. -/
def decodeTime (bz : Bytes) : DRes (Int × Int) :=
  (if bz.length > 0 then decodeSeconds bz else .ok 0 0).andSlide bz 0 fun sec bz n =>
  if bz.length > 0 then (decodeNanos bz n).map fun ns => (sec, ns)
  else .ok n (sec, 0)

/-- decoder.go:280-299 `DecodeByteSlice`. -/
def decodeByteSlice (bz : Bytes) : DRes Bytes :=
  (decodeUvarint bz).andSlide bz 0 fun count bz n =>
  if intOfU64 count < 0 then .err n .negLen
  else if (bz.length : Int) < intOfU64 count then .err n .insufficient
  else .ok (n + count.toNat) (bz.take count.toNat)

/-- decoder.go:301-306 `DecodeString`. -/
def decodeString (bz : Bytes) : DRes Bytes := decodeByteSlice bz

end Amino
