import Verif.Base

/-!
# The varint coders of Go's `encoding/binary` (Go 1.12/1.13) and `math/bits.Len64`

go-amino delegates to these standard library functions; they are modelled here bit by bit on
`UInt64`, as the library text has them.
-/

namespace Amino

/-- Go's `x << s` on `uint64` for any shift count (counts ≥ 64 give 0). -/
def shl64 (x : UInt64) (s : Nat) : UInt64 := UInt64.ofNat (x.toNat <<< s)

/-- `binary.PutUvarint(buf, x)`: `for x >= 0x80 { buf[i] = byte(x) | 0x80; x >>= 7; i++ }; buf[i] =
byte(x)`.  The first argument is the number of bytes left in `buf` (callers pass `[10]byte`:
encoder.go:37, 80, binary-encode.go:494); `none` is Go's index-out-of-range panic. -/
def putUvarintAux : Nat → UInt64 → Option Bytes
  | 0, _ => none
  | k + 1, x =>
    if x ≥ 0x80 then
      (putUvarintAux k (x >>> 7)).map (fun r => (x.toUInt8 ||| 0x80) :: r)
    else some [x.toUInt8]

/-- `binary.PutVarint`'s zig-zag: `ux := uint64(x) << 1; if x < 0 { ux = ^ux }`, on the bits of the
`int64`. -/
def zigzag (x : UInt64) : UInt64 :=
  let ux := x <<< 1
  if x ≥ 0x8000000000000000 then ~~~ux else ux

/-- `binary.Varint`'s inverse: `x := int64(ux >> 1); if ux&1 != 0 { x = ^x }` (bits of the `int64`). -/
def unzigzag (ux : UInt64) : UInt64 :=
  let x := ux >>> 1
  if ux &&& 1 ≠ 0 then ~~~x else x

/-- `binary.Uvarint(buf)` of Go 1.12/1.13: loop over the whole buffer.  Returns the value and the
signed byte count of the library (`0` = buffer too small, negative = overflow). -/
def uvarintLoop : Bytes → Nat → UInt64 → Nat → UInt64 × Int
  | [], _, _, _ => (0, 0)
  | b :: bs, i, x, s =>
    if b < 0x80 then
      if i > 9 ∨ (i = 9 ∧ b > 1) then (0, -((i : Int) + 1))
      else (x ||| shl64 b.toUInt64 s, (i : Int) + 1)
    else uvarintLoop bs (i + 1) (x ||| shl64 (b &&& 0x7f).toUInt64 s) (s + 7)

/-- `binary.Uvarint`. -/
def uvarint (bz : Bytes) : UInt64 × Int := uvarintLoop bz 0 0 0

/-- `bits.Len64`: the number of bits needed to represent `x`, 0 for 0. -/
def len64 (x : UInt64) : Nat := if x = 0 then 0 else x.toNat.log2 + 1

end Amino
