import Verif.Base

/-!
# Specification of the primitive wire formats, independent of the model

Plain arithmetic on natural numbers and integers: base-128 little-endian digits with continuation
bits, zig-zag numbering, base-256 little-endian digits.
-/

namespace Amino.Spec

/-- The canonical base-128 representation of a natural number, least significant digit first, all
digits but the last carrying the continuation bit. -/
def varint (n : Nat) : List UInt8 :=
  if n < 128 then [UInt8.ofNat n] else UInt8.ofNat (n % 128 + 128) :: varint (n / 128)

/-- Reading a base-128 number off the front of a byte string: value and number of bytes.  No size
limit; `none` if the string ends before a byte without continuation bit. -/
def readVarint : List UInt8 → Option (Nat × Nat)
  | [] => none
  | b :: bs =>
    if b.toNat < 128 then some (b.toNat, 1)
    else (readVarint bs).map fun p => (b.toNat - 128 + 128 * p.1, p.2 + 1)

/-- Zig-zag numbering of the integers: 0, -1, 1, -2, ... -/
def zig (i : Int) : Nat := if i < 0 then (-2 * i - 1).toNat else (2 * i).toNat

/-- Inverse of `zig`. -/
def zag (n : Nat) : Int := if n % 2 = 0 then ((n / 2 : Nat) : Int) else -((n / 2 : Nat) : Int) - 1

/-- `k` base-256 digits of `n`, least significant first. -/
def le : Nat → Nat → List UInt8
  | 0, _ => []
  | k + 1, n => UInt8.ofNat (n % 256) :: le k (n / 256)

/-- The number with the given base-256 digits. -/
def unle : List UInt8 → Nat
  | [] => 0
  | b :: bs => b.toNat + 256 * unle bs

/-- Two's complement of `i` in 64 bits as a natural number. -/
def twos64 (i : Int) : Nat := if i < 0 then (i + 2 ^ 64).toNat else i.toNat

end Amino.Spec
