import Verif.Prim

/-!
# cmd/aminoscan

The control flow of the scanner: how many bytes are consumed, whether an error is returned, and panics.  The colored
text that is printed and concatenated is added in `ScanText.lean`.
-/

namespace Amino

/-- Outcome of a scan function: consumed bytes and whether `err != nil`; a panic; or the loop is still running when the
fuel is used up. -/
inductive Scan
  | ret (n : Nat) (err : Bool)
  | panic
  | running
  deriving DecidableEq, Repr

/-- aminoscan.go:85-119 `scanVarint`.  `binary.Varint` returns the count of `binary.Uvarint`. -/
def scanVarint (bz : Bytes) : Scan :=
  let eof := bz.isEmpty                       -- err is set, but there is no return
  let n := (uvarint bz).2                     -- binary.Varint
  let (n, okI64) := if n ≤ 0 then (0, false) else (n, true)
  let n' := (uvarint bz).2                    -- binary.Uvarint
  let (n, okU64) := if n ≠ n' then ((0 : Int), false) else (n, true)
  if !okI64 && !okU64 then .ret n.toNat true
  else .ret n.toNat eof

/-- aminoscan.go:121-130, 190-200 `scan8Byte`, `scan4Byte`. -/
def scanFixed (k : Nat) (bz : Bytes) : Scan := if bz.length < k then .ret 0 true else .ret k false

/-- `int(l64)` on a 64 bit platform. -/
def intOf (u : UInt64) : Int := if u.toNat < 2 ^ 63 then u.toNat else (u.toNat : Int) - 2 ^ 64

/-- aminoscan.go:132-152 `scanByteLength`.  The test `n < 0` is about the result parameter, which is 0; so a negative
count of Uvarint reaches `bz[:_n]` and panics.  `bz[:length]` or the slide after it panics if there are fewer than
`length` bytes left. -/
def scanByteLength (bz : Bytes) : Scan :=
  let (l64, n') := uvarint bz
  let length := intOf l64
  if length ≥ bz.length then .ret 0 true
  else if n' < 0 then .panic
  else
    let rest := bz.drop n'.toNat
    if length < 0 then .panic
    else if rest.length < length.toNat then .panic
    else .ret (n'.toNat + length.toNat) false

/-- aminoscan.go:69-83 `scanAny`. -/
def scanAny (typ : Nat) (bz : Bytes) : Scan :=
  if typ = typ3Varint then scanVarint bz
  else if typ = typ38Byte then scanFixed 8 bz
  else if typ = typ3ByteLength then scanByteLength bz
  else if typ = typ34Byte then scanFixed 4 bz
  else .panic

/-- aminoscan.go:175-188 `scanFieldKey`: consumed bytes, wire type, error. -/
def scanFieldKey (bz : Bytes) : Nat × Nat × Bool :=
  let (u, n) := uvarint bz
  if n < 0 then (0, 0, true) else (n.toNat, (u &&& 7).toNat, false)

/-- aminoscan.go:154-173 `scanStruct`: the loop, `n` bytes consumed so far.  The slides cannot panic (the counts are
within `bz`). -/
def scanLoop (isRoot : Bool) : Nat → Bytes → Nat → Scan
  | 0, _, _ => .running
  | fuel + 1, bz, n =>
    if isRoot && bz.isEmpty then .ret n false
    else
      let (m, typ, err) := scanFieldKey bz
      let bz := bz.drop m
      let n := n + m
      if err then .ret n true
      else
        match scanAny typ bz with
        | .panic => .panic
        | .running => .running
        | .ret m err => if err then .ret (n + m) true else scanLoop isRoot fuel (bz.drop m) (n + m)

/-- aminoscan.go:63: the scan of main. -/
def scanStruct (fuel : Nat) (bz : Bytes) : Scan := scanLoop true fuel bz 0

end Amino
