import Verif.Scan
import Verif.PrintTypes
import Verif.JsonText

/-!
# cmd/aminoscan: the text

The scanner of `Scan.lean` again, with the strings it builds and what it prints.  What flag parsing prints is not modelled.
-/

namespace Amino

/-- colors.go:11-20: `\x1b[3<k>m`. -/
def ansiFg (k : UInt8) : Bytes := [0x1b, 0x5b, 0x33, k, 0x6d]
/-- colors.go:12. -/
def ansiReset : Bytes := [0x1b, 0x5b, 0x30, 0x6d]

/-- colors.go:24-29 `treat`. -/
def treat (s color : Bytes) : Bytes :=
  if s.length > 2 ∧ s.take 2 = [0x1b, 0x5b] then s else color ++ s ++ ansiReset

/-- colors.go:31-37 `treatAll` with one string: `parts` is an empty string and the treated one. -/
def treatAll (color s : Bytes) : Bytes := [] ++ treat s color

/-- colors.go:39-57. -/
def red : Bytes → Bytes := treatAll (ansiFg 0x31)
def green : Bytes → Bytes := treatAll (ansiFg 0x32)
def yellow : Bytes → Bytes := treatAll (ansiFg 0x33)
def blue : Bytes → Bytes := treatAll (ansiFg 0x34)
def cyan : Bytes → Bytes := treatAll (ansiFg 0x36)

/-- colors.go:59-68 `ColoredBytes`; `string(b)` of an ASCII character is that byte. -/
def coloredBytes (textColor bytesColor : Bytes → Bytes) : Bytes → Bytes
  | [] => []
  | b :: bs =>
    (if 0x21 ≤ b ∧ b < 0x7f then textColor [b] else bytesColor (hexBytes [b])) ++ coloredBytes textColor bytesColor bs

/-- encoding/hex `fromHexChar`. -/
def fromHexChar (c : UInt8) : Option Nat :=
  if 0x30 ≤ c ∧ c ≤ 0x39 then some (c.toNat - 0x30)
  else if 0x61 ≤ c ∧ c ≤ 0x66 then some (c.toNat - 0x61 + 10)
  else if 0x41 ≤ c ∧ c ≤ 0x46 then some (c.toNat - 0x41 + 10)
  else none

/-- aminoscan.go:310-316 `hexDecode`, `none` for its panic; encoding/hex `DecodeString`. -/
def hexDecode : Bytes → Option Bytes
  | [] => some []
  | [_] => none
  | a :: b :: r =>
    match fromHexChar a, fromHexChar b, hexDecode r with
    | some x, some y, some bs => some (UInt8.ofNat (x * 16 + y) :: bs)
    | _, _, _ => none

/-- Outcome of a scan function: the string, what was printed, consumed bytes and error; a panic after something was
printed; or the loop is still running when the fuel is used up. -/
inductive ScanT
  | ret (s out : Bytes) (n : Nat) (err : Option Bytes)
  | panic (out : Bytes)
  | running
  deriving DecidableEq, Repr

/-- amino.go:110-131 `Typ3.String`. -/
def typ3Text (typ : Nat) : Bytes :=
  if typ = typ3Varint then ascii "(U)Varint"
  else if typ = typ38Byte then ascii "8Byte"
  else if typ = typ3ByteLength then ascii "ByteLength"
  else if typ = typ34Byte then ascii "4Byte"
  else ascii "<Invalid Typ3 " ++ hexNat 2 typ ++ ascii ">"

/-- aminoscan.go:85-119 `scanVarint`. -/
def scanVarintT (indent bz : Bytes) : ScanT :=
  let eof := if bz.isEmpty then some (ascii "EOF while reading (U)Varint") else none
  let n := (uvarint bz).2
  let (n, okI64) := if n ≤ 0 then (0, false) else (n, true)
  let n' := (uvarint bz).2
  let (n, okU64) := if n ≠ n' then ((0 : Int), false) else (n, true)
  if !okI64 && !okU64 then .ret [] [] n.toNat (some (ascii "invalid (u)varint"))
  else
    let s := cyan (hexBytes (bz.take n.toNat))
    .ret s (indent ++ s ++ ascii " (" ++ (if okI64 then ascii "i64:" ++ intText (intOfU64 (unzigzag (uvarint bz).1)) ++ ascii " " else []) ++
      (if okU64 then ascii "u64:" ++ natText (uvarint bz).1.toNat else []) ++ ascii ")\n") n.toNat eof

/-- The message of scan8Byte, scan4Byte and scanByteLength. -/
def eofText : Bytes := ascii "while reading 8byte field, EOF was encountered"

/-- aminoscan.go:121-130, 190-200 `scan8Byte`, `scan4Byte`. -/
def scanFixedT (k : Nat) (indent bz : Bytes) : ScanT :=
  if bz.length < k then .ret [] [] 0 (some eofText)
  else .ret (blue (hexBytes (bz.take k))) (indent ++ blue (hexBytes (bz.take k)) ++ ascii "\n") k none

/-- aminoscan.go:132-152 `scanByteLength`, see `scanByteLength`. -/
def scanByteLengthT (indent bz : Bytes) : ScanT :=
  let (l64, n') := uvarint bz
  let length := intOf l64
  if length ≥ bz.length then .ret [] [] 0 (some eofText)
  else if n' < 0 then .panic []
  else
    let rest := bz.drop n'.toNat
    if length < 0 then .panic []
    else if rest.length < length.toNat then .panic []
    else
      let s := cyan (hexBytes (bz.take n'.toNat)) ++ green (hexBytes (rest.take length.toNat))
      .ret s (indent ++ s ++ ascii " (" ++ intText length ++ ascii " bytes)\n") (n'.toNat + length.toNat) none

/-- aminoscan.go:69-83 `scanAny`. -/
def scanAnyT (typ : Nat) (indent bz : Bytes) : ScanT :=
  if typ = typ3Varint then scanVarintT indent bz
  else if typ = typ38Byte then scanFixedT 8 indent bz
  else if typ = typ3ByteLength then scanByteLengthT indent bz
  else if typ = typ34Byte then scanFixedT 4 indent bz
  else .panic []

/-- aminoscan.go:175-188 `scanFieldKey`: the string, what is printed, consumed bytes, wire type, error. -/
def scanFieldKeyT (indent bz : Bytes) : Bytes × Bytes × Nat × Nat × Option Bytes :=
  let (u, n) := uvarint bz
  if n < 0 then ([], [], 0, 0, some (ascii "error decoding uvarint"))
  else
    let typ := (u &&& 7).toNat
    let s := hexBytes (bz.take n.toNat)
    (s, indent ++ s ++ ascii " @" ++ natText ((u >>> 3).toNat % 2 ^ 32) ++ ascii " " ++ typ3Text typ ++ ascii "\n", n.toNat, typ, none)

/-- aminoscan.go:154-173 `scanStruct`: the loop, with the string, the output and the count so far. -/
def scanLoopT (isRoot : Bool) (indent : Bytes) : Nat → Bytes → Bytes → Bytes → Nat → ScanT
  | 0, _, _, _, _ => .running
  | fuel + 1, bz, s, out, n =>
    if isRoot && bz.isEmpty then .ret s out n none
    else
      let (s1, out1, m, typ, err) := scanFieldKeyT (indent ++ ascii "  ") bz
      let bz := bz.drop m
      let n := n + m
      let s := s ++ s1
      let out := out ++ out1
      match err with
      | some e => .ret s out n (some e)
      | none =>
        match scanAnyT typ (indent ++ ascii "  ") bz with
        | .panic out2 => .panic (out ++ out2)
        | .running => .running
        | .ret s2 out2 m (some e) => .ret (s ++ s2) (out ++ out2) (n + m) (some e)
        | .ret s2 out2 m none => scanLoopT isRoot indent fuel (bz.drop m) (s ++ s2) (out ++ out2) (n + m)

/-- aminoscan.go:60-66: what `main` prints for the bytes, if it returns; `fmt.Println` puts spaces between its arguments. -/
def scanMain (fuel : Nat) (bz : Bytes) : Option Bytes :=
  match scanLoopT true [] fuel bz [] [] 0 with
  | .ret s out n err =>
    some (yellow (ascii "## Root Struct (assumed)") ++ ascii "\n" ++ out ++ yellow (ascii "## Root Struct END") ++ ascii "\n" ++
      (s ++ red (hexBytes (bz.drop n))) ++ ascii " " ++ natText n ++ ascii " " ++
      (match err with | some e => e | none => ascii "<nil>") ++ ascii "\n")
  | _ => none

/-- aminoscan.go:44-51: what `aminoscan --color` prints. -/
def colorMain (bz : Bytes) : Bytes := coloredBytes green blue bz ++ ascii "\n"

end Amino
