import Verif.StructInfo

/-!
# The text of struct tags

codec.go:500-502 calls `field.Tag.Get(key)`, which is `reflect.StructTag.Lookup` of the standard library.  Its text is
not in the repository; the model follows the documented behaviour and the published source (reflect/type.go): scan
`key:"value"` pairs from the left, skip spaces before each, give up at the first syntax error.

`strconv.Unquote` is modelled for contents of ASCII characters without backslash and newline, which it returns as
they are; for other contents it is the parameter `U` (`none` is an error).
-/

namespace Amino

/-- The characters of a key: `tag[i] > ' ' && tag[i] != ':' && tag[i] != '"' && tag[i] != 0x7f`. -/
def isKeyChar (b : UInt8) : Bool := b > 0x20 && b != 0x3a && b != 0x22 && b != 0x7f

/-- The characters of a value that `strconv.Unquote` copies without further ado. -/
def isPlainChar (b : UInt8) : Bool := b < 0x80 && b != 0x22 && b != 0x5c && b != 0x0a

/-- Scan a quoted string after the opening quote: the contents, and what follows the closing quote. -/
def scanQuoted : Bytes → Option (Bytes × Bytes)
  | [] => none
  | [b] => if b = 0x22 then some ([], []) else none
  | b :: b' :: bs =>
    if b = 0x22 then some ([], b' :: bs)
    else if b = 0x5c then (scanQuoted bs).map fun p => (b :: b' :: p.1, p.2)
    else (scanQuoted (b' :: bs)).map fun p => (b :: p.1, p.2)

/-- `strconv.Unquote` of a double-quoted string with the given contents. -/
def goUnquote (U : Bytes → Option Bytes) (raw : Bytes) : Option Bytes :=
  if raw.all isPlainChar then some raw else U raw

/-- `reflect.StructTag.Lookup`; every round of the loop shortens the text, so that its length is enough fuel. -/
def tagLookup (U : Bytes → Option Bytes) (key : Bytes) : Nat → Bytes → Option Bytes
  | 0, _ => none
  | fuel + 1, text =>
    let tag := text.dropWhile (· == 0x20)
    let name := tag.takeWhile isKeyChar
    if name = [] then none
    else
      match tag.dropWhile isKeyChar with
      | 0x3a :: 0x22 :: rest =>
        match scanQuoted rest with
        | none => none
        | some (raw, rest) => if key = name then goUnquote U raw else tagLookup U key fuel rest
      | _ => none

/-- `reflect.StructTag.Get`. -/
def tagGet (U : Bytes → Option Bytes) (text key : Bytes) : Bytes := (tagLookup U key (text.length + 1) text).getD []

/-- A declared field with the given tag text (codec.go:500-502). -/
def SDecl.tagged (U : Bytes → Option Bytes) (d : SDecl) (text : Bytes) : SDecl := { d with tag := tagGet U text }

end Amino
