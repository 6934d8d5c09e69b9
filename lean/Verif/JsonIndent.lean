import Verif.JsonEncode

/-!
# Model: MarshalJSONIndent (amino.go:577-592) and json.Indent

`json.Indent` is a function of the standard library (encoding/json/indent.go of Go 1.12): it is modelled here from its
documentation and source, like the rest of encoding/json in JsonText.lean.
-/

namespace Amino

/-- Where the scanner is: between tokens or in a word or number, in a string, after a backslash in a string.  The four
digits after `\u` are read as characters of the string: neither a quote nor a backslash is accepted there. -/
inductive IndentSt
  | out
  | str
  | esc

/-- indent.go `newline`. -/
def indentLine (pre ind : Bytes) (d : Nat) : Bytes := 0x0a :: (pre ++ (List.replicate d ind).flatten)

/-- indent.go, the loop of `Indent`: `need` is needIndent, `d` is depth.  Simplified: the loop is run on texts that are
known to be JSON, so that depth is never negative. -/
def indentLoop (pre ind : Bytes) : IndentSt → Bool → Nat → Bytes → Bytes
  | _, _, _, [] => []
  | .str, need, d, c :: r =>
    c :: indentLoop pre ind (if c = 0x22 then .out else if c = 0x5c then .esc else .str) need d r
  | .esc, need, d, c :: r => c :: indentLoop pre ind .str need d r
  | .out, need, d, c :: r =>
    if isWs c then indentLoop pre ind .out need d r
    else if c = 0x7d ∨ c = 0x5d then
      if need then c :: indentLoop pre ind .out false d r
      else indentLine pre ind (d - 1) ++ c :: indentLoop pre ind .out false (d - 1) r
    else
      (if need then indentLine pre ind (d + 1) else []) ++
        if c = 0x7b ∨ c = 0x5b then c :: indentLoop pre ind .out true (if need then d + 1 else d) r
        else if c = 0x2c then
          c :: (indentLine pre ind (if need then d + 1 else d) ++ indentLoop pre ind .out false (if need then d + 1 else d) r)
        else if c = 0x3a then c :: 0x20 :: indentLoop pre ind .out false (if need then d + 1 else d) r
        else c :: indentLoop pre ind (if c = 0x22 then .str else .out) false (if need then d + 1 else d) r

/-- `json.Indent`: `none` if the text is not JSON. -/
def indentJSON (pre ind bz : Bytes) : Option Bytes :=
  if validJSON bz then some (indentLoop pre ind .out false 0 bz) else none

/-- amino.go:579-592 `MarshalJSONIndent`. -/
def marshalJSONIndent (Γ : Prog) (c : Codec) (J : JLib) (fuel : Nat) (pre ind : Bytes) (o : Option (Ty × Val)) : Res Bytes :=
  (marshalJSON Γ c J fuel o).bind fun bz => ofOpt .json (indentJSON pre ind bz)

end Amino
