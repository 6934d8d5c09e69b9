import Verif.StructInfo

/-!
# Specification: the command line of aminoscan
-/

namespace Amino.Spec

/-- What a flag does. -/
inductive Setting
  | color (b : Bool)
  | name (n : Bytes)
  deriving DecidableEq, Repr

/-- One or two dashes are the same. -/
inductive Dashes : Bytes → Prop
  | one : Dashes (ascii "-")
  | two : Dashes (ascii "--")

/-- The words for true and false. -/
def boolWords : Bool → List Bytes
  | true => [ascii "1", ascii "t", ascii "T", ascii "true", ascii "TRUE", ascii "True"]
  | false => [ascii "0", ascii "f", ascii "F", ascii "false", ascii "FALSE", ascii "False"]

/-- How a flag is written. -/
inductive FlagText : Setting → List Bytes → Prop
  | color {d} : Dashes d → FlagText (.color true) [d ++ ascii "color"]
  | colorEq {d w b} : Dashes d → w ∈ boolWords b → FlagText (.color b) [d ++ (ascii "color=" ++ w)]
  | name {d n} : Dashes d → FlagText (.name n) [d ++ ascii "concrete-name", n]
  | nameEq {d n} : Dashes d → FlagText (.name n) [d ++ (ascii "concrete-name=" ++ n)]

/-- A command line: flags, and what is left from the first argument that does not look like one, or behind `--`. -/
inductive Line : List Setting → List Bytes → List Bytes → Prop
  | done : Line [] [] []
  | word {s rest} : (s.length < 2 ∨ s.head? ≠ some 0x2d) → Line [] (s :: rest) (s :: rest)
  | stop {rest} : Line [] (ascii "--" :: rest) rest
  | flag {x a xs args rest} : FlagText x a → Line xs args rest → Line (x :: xs) (a ++ args) rest

/-- The last flag `color`, if there is one. -/
def colorSet : List Setting → Bool := List.foldl (fun b x => match x with | .color b' => b' | .name _ => b) false

/-- The last flag `concrete-name`, if there is one. -/
def nameSet : List Setting → Bytes := List.foldl (fun n x => match x with | .name n' => n' | .color _ => n) []

end Amino.Spec
