import Verif.Registry

/-!
# SHA-256

The registry takes the hash of a name as an arbitrary function (`H` in `Registry.lean`).  Here is the actual one
(FIPS 180-4, as in Go's crypto/sha256), used only to check the model against the byte strings in the tests of
/repo (`Vectors.lean`); no theorem depends on it.  32-bit words are natural numbers below 2^32.
-/

namespace Amino.Sha256

/-- FIPS 180-4, 4.2.2 -/
def roundConsts : List Nat :=
  [0x428a2f98, 0x71374491, 0xb5c0fbcf, 0xe9b5dba5, 0x3956c25b, 0x59f111f1, 0x923f82a4, 0xab1c5ed5,
   0xd807aa98, 0x12835b01, 0x243185be, 0x550c7dc3, 0x72be5d74, 0x80deb1fe, 0x9bdc06a7, 0xc19bf174,
   0xe49b69c1, 0xefbe4786, 0x0fc19dc6, 0x240ca1cc, 0x2de92c6f, 0x4a7484aa, 0x5cb0a9dc, 0x76f988da,
   0x983e5152, 0xa831c66d, 0xb00327c8, 0xbf597fc7, 0xc6e00bf3, 0xd5a79147, 0x06ca6351, 0x14292967,
   0x27b70a85, 0x2e1b2138, 0x4d2c6dfc, 0x53380d13, 0x650a7354, 0x766a0abb, 0x81c2c92e, 0x92722c85,
   0xa2bfe8a1, 0xa81a664b, 0xc24b8b70, 0xc76c51a3, 0xd192e819, 0xd6990624, 0xf40e3585, 0x106aa070,
   0x19a4c116, 0x1e376c08, 0x2748774c, 0x34b0bcb5, 0x391c0cb3, 0x4ed8aa4a, 0x5b9cca4f, 0x682e6ff3,
   0x748f82ee, 0x78a5636f, 0x84c87814, 0x8cc70208, 0x90befffa, 0xa4506ceb, 0xbef9a3f7, 0xc67178f2]

/-- FIPS 180-4, 5.3.3 -/
def initial : List Nat :=
  [0x6a09e667, 0xbb67ae85, 0x3c6ef372, 0xa54ff53a, 0x510e527f, 0x9b05688c, 0x1f83d9ab, 0x5be0cd19]

def word (n : Nat) : Nat := n % 0x100000000
def rotr (x n : Nat) : Nat := Nat.lor (x >>> n) (word (x <<< (32 - n)))
def xor3 (a b c : Nat) : Nat := Nat.xor a (Nat.xor b c)
def ch (x y z : Nat) : Nat := Nat.xor (Nat.land x y) (Nat.land (0xffffffff - x) z)
def maj (x y z : Nat) : Nat := xor3 (Nat.land x y) (Nat.land x z) (Nat.land y z)
def bsig0 (x : Nat) : Nat := xor3 (rotr x 2) (rotr x 13) (rotr x 22)
def bsig1 (x : Nat) : Nat := xor3 (rotr x 6) (rotr x 11) (rotr x 25)
def ssig0 (x : Nat) : Nat := xor3 (rotr x 7) (rotr x 18) (x >>> 3)
def ssig1 (x : Nat) : Nat := xor3 (rotr x 17) (rotr x 19) (x >>> 10)

/-- The big endian words of a byte string whose length is a multiple of 4. -/
def words : Bytes → List Nat
  | a :: b :: c :: d :: r =>
    (a.toNat * 0x1000000 + b.toNat * 0x10000 + c.toNat * 0x100 + d.toNat) :: words r
  | _ => []

/-- The message schedule, latest word first (6.2.2, step 1). -/
def schedule : Nat → List Nat → List Nat
  | 0, ws => ws
  | n + 1, ws =>
    schedule n (word (ssig1 (ws.getD 1 0) + ws.getD 6 0 + ssig0 (ws.getD 14 0) + ws.getD 15 0) :: ws)

/-- One round (6.2.2, step 3). -/
def round (k w : Nat) : List Nat → List Nat
  | [a, b, c, d, e, f, g, h] =>
    let t1 := h + bsig1 e + ch e f g + k + w
    let t2 := bsig0 a + maj a b c
    [word (t1 + t2), a, b, c, word (d + t1), e, f, g]
  | s => s

def rounds : List Nat → List Nat → List Nat → List Nat
  | k :: ks, w :: ws, s => rounds ks ws (round k w s)
  | _, _, s => s

/-- One block (6.2.2). -/
def block (s : List Nat) (b : List Nat) : List Nat :=
  (List.zipWith (· + ·) s (rounds roundConsts (schedule 48 b.reverse).reverse s)).map word

def blocks : Nat → List Nat → List Nat → List Nat
  | 0, _, s => s
  | n + 1, ws, s => blocks n (ws.drop 16) (block s (ws.take 16))

/-- `n` as `k` big endian bytes. -/
def beBytes : Nat → Nat → Bytes
  | 0, _ => []
  | k + 1, n => beBytes k (n / 256) ++ [UInt8.ofNat (n % 256)]

/-- 5.1.1: a 1 bit, zeros, and the length in bits. -/
def pad (m : Bytes) : Bytes :=
  m ++ 0x80 :: List.replicate ((119 - m.length % 64) % 64) 0 ++ beBytes 8 (8 * m.length)

/-- `sha256.Sum256`. -/
def sha256 (m : Bytes) : Bytes :=
  let ws := words (pad m)
  (blocks (ws.length / 16) ws initial).flatMap (beBytes 4)

/-- FIPS 180-4 example: the hash of "abc". -/
example : sha256 [0x61, 0x62, 0x63] =
    [0xba, 0x78, 0x16, 0xbf, 0x8f, 0x01, 0xcf, 0xea, 0x41, 0x41, 0x40, 0xde, 0x5d, 0xae, 0x22, 0x23,
     0xb0, 0x03, 0x61, 0xa3, 0x96, 0x17, 0x7a, 0x9c, 0xb4, 0x10, 0xff, 0x61, 0xf2, 0x00, 0x15, 0xad] := by
  decide +kernel

end Amino.Sha256
