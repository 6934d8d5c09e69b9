import Verif.Registry
import Verif.StructInfo

/-! # codec.go:253-325: `PrintTypes`

The writer is any state machine; the name and the size of a Go type (`reflect.Type.Name`, `reflect.Type.Size`) are given by
functions. -/

namespace Amino

/-- fmt's upper case hexadecimal digits. -/
def upperHex (n : Nat) : UInt8 := if n < 10 then UInt8.ofNat (0x30 + n) else UInt8.ofNat (0x41 + (n - 10))

/-- `fmt.Sprintf("%X", b)` of bytes. -/
def hexBytes : Bytes → Bytes
  | [] => []
  | b :: bs => upperHex (b.toNat / 16) :: upperHex (b.toNat % 16) :: hexBytes bs

/-- `fmt.Sprintf("%X", n)` of a number; the first argument bounds the number of digits. -/
def hexNat : Nat → Nat → Bytes
  | 0, _ => []
  | k + 1, n => if n < 16 then [upperHex n] else hexNat k (n / 16) ++ [upperHex (n % 16)]

/-- codec.go:312-325 `getLengthStr`; complex numbers have no shape in this model. -/
def lengthStr (sh : Shape) (size : Nat) : Bytes :=
  match sh with
  | .array _ _ | .float32 | .float64
  | .int .int8 | .int .int16 | .int .int32 | .int .int64 => ascii "0x" ++ hexNat (size + 1) size
  | _ => ascii "variable"

section
variable (Γ : Prog) (tname : TId → Bytes) (size : TId → Nat)

/-- codec.go:271-304: the strings written for one registered type. -/
def printRow (ci : ConcInfo) : List Bytes :=
  [ascii "| ", tname ci.tid, ascii " | ", ci.name, ascii " | ", ascii "0x" ++ hexBytes ci.prefx, ascii " | ",
    lengthStr (Γ.shape ci.tid) (size ci.tid), ascii " | ", ascii " |\n"]

/-- codec.go:263-305: the strings written if the writer reports no error. -/
def printChunks (c : Codec) : List Bytes :=
  [ascii "| Type | Name | Prefix | Length | Notes |\n", ascii "| ---- | ---- | ------ | ----- | ------ |\n"] ++
    c.concs.flatMap (printRow Γ tname size)

/-- `if _, err := io.WriteString(out, s); err != nil { return err }`, repeatedly. -/
def writeAll {σ : Type} (W : σ → Bytes → σ × Option Err) : σ → List Bytes → σ × Option Err
  | s, [] => (s, none)
  | s, b :: bs =>
    match W s b with
    | (s, none) => writeAll W s bs
    | (s, some e) => (s, some e)

/-- codec.go:259-308 `PrintTypes`: the writer afterwards and the error returned. -/
def printTypes {σ : Type} (W : σ → Bytes → σ × Option Err) (s : σ) (c : Codec) : σ × Option Err :=
  writeAll W s (printChunks Γ tname size c)

end

end Amino
