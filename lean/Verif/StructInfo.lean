import Verif.BinEncode

/-!
# Struct metadata: parseStructInfo and parseFieldOptions

`Shape.struct` holds the outcome of this parsing (`SDecl.field`); `C45_encode` justifies that.
-/

namespace Amino

/-- What `reflect.StructField` tells about a declared field.  `upper` is `unicode.IsUpper` of the first rune of the
name; `tag` is `field.Tag.Get` (any function is allowed here; the syntax of tags is in `TagText.lean`). -/
structure SDecl where
  name : Bytes
  pkgPath : Bytes := []
  upper : Bool := true
  ty : Ty
  tag : Bytes → Bytes := fun _ => []

/-- `strings.Split(s, ",")`. -/
def splitComma : Bytes → List Bytes
  | [] => [[]]
  | b :: bs =>
    if b = 44 then [] :: splitComma bs
    else match splitComma bs with
      | [] => [[b]]
      | p :: ps => (b :: p) :: ps

/-- The bytes of an ASCII literal. -/
def ascii (s : String) : Bytes := s.toList.map fun c => UInt8.ofNat c.toNat

/-- codec.go:724-739 `isExported`. -/
def SDecl.exported (d : SDecl) : Bool := if d.pkgPath ≠ [] then false else d.upper

/-- codec.go:519-534: the loop over the amino tags. -/
def aminoTags : List Bytes → FOpts → FOpts
  | [], fo => fo
  | t :: ts, fo =>
    let fo := if t = ascii "unsafe" then { fo with floatOk := true } else fo
    let fo := if t = ascii "write_empty" then { fo with writeEmpty := true } else fo
    let fo := if t = ascii "empty_elements" then { fo with emptyElements := true } else fo
    aminoTags ts fo

/-- codec.go:499-548 `parseFieldOptions`: skip and options. -/
def parseFieldOptions (d : SDecl) : Bool × FOpts :=
  let binTag := d.tag (ascii "binary")
  let aminoTag := d.tag (ascii "amino")
  let jsonTag := d.tag (ascii "json")
  if jsonTag = ascii "-" then (true, {})
  else
    let parts := splitComma jsonTag
    let fo : FOpts := { jsonName := if parts.headD [] = [] then d.name else parts.headD [] }
    let fo := if parts.length > 1 then
        if parts.getD 1 [] = ascii "omitempty" then { fo with omitEmpty := true } else fo
      else fo
    let fo := if binTag = ascii "fixed64" then { fo with fixed64 := true }
      else if binTag = ascii "fixed32" then { fo with fixed32 := true } else fo
    (false, aminoTags (splitComma aminoTag) fo)

/-- codec.go:106-113 `FieldInfo` without `ZeroValue`. -/
structure FInfo where
  name : Bytes
  ty : Ty
  index : Nat
  unpacked : Bool
  opts : FOpts
  deriving DecidableEq, Repr

/-- codec.go:465-479: the UnpackedList flag. -/
def unpackedKind (Γ : Prog) (t : Ty) (fo : FOpts) : Bool :=
  match t with
  | .ptr _ => false
  | .base id =>
    match Γ.shape id with
    | .slice e | .array _ e => if Γ.isByteKind e then false else Γ.typ3 e.deref fo == typ3ByteLength
    | _ => false

/-- reflect.go:41-42: `Kind()` is Float32 or Float64. -/
def isFloatKind (Γ : Prog) (t : Ty) : Bool :=
  match t with
  | .ptr _ => false
  | .base id => match Γ.shape id with | .float32 | .float64 => true | _ => false

/-- codec.go:448-497 `parseStructInfo`, the loop: `i` is the index of the next field, `infos` what was appended so
far.  The panic of typeToTyp3 for unsupported element kinds is not modelled (there are no such kinds in the model). -/
def parseStructLoop (Γ : Prog) : Nat → List FInfo → List SDecl → Res (List FInfo)
  | _, infos, [] => .ok infos
  | i, infos, d :: ds =>
    if !d.exported then parseStructLoop Γ (i + 1) infos ds
    else
      let (skip, fo) := parseFieldOptions d
      if skip then parseStructLoop Γ (i + 1) infos ds
      else
        let unpacked := unpackedKind Γ d.ty fo
        let fo := { fo with fnum := infos.length + 1 }
        -- reflect.go:37-45 checkUnsafe
        if !fo.floatOk && isFloatKind Γ d.ty then .panic .unsafeFloat
        else parseStructLoop Γ (i + 1) (infos ++ [⟨d.name, d.ty, i, unpacked, fo⟩]) ds

/-- codec.go:448-497 `parseStructInfo`. -/
def parseStructInfo (Γ : Prog) (ds : List SDecl) : Res (List FInfo) := parseStructLoop Γ 0 [] ds

/-- The field of `Shape.struct` that stands for a declaration. -/
def SDecl.field (d : SDecl) : Field :=
  { ty := d.ty, visible := d.exported && !(parseFieldOptions d).1, opts := (parseFieldOptions d).2 }

/-- binary-encode.go:436-463: one iteration of the loop of encodeReflectBinaryStruct, from the stored `FieldInfo`. -/
def encInfo (Γ : Prog) (c : Codec) (rec : TId → Val → FOpts → Bool → Res Bytes) (fi : FInfo) (v : Val) : Res Bytes :=
  (getInfo Γ c fi.ty.deref).bind fun _ =>
  match derefVal fi.ty v with
  | none => if fi.opts.writeEmpty then .panic .invalidValue else .ok []
  | some dv =>
    if isDefaultBase (Γ.shape fi.ty.deref) dv && !fi.opts.writeEmpty then .ok []
    else if fi.unpacked then
      match (Γ.shape fi.ty.deref).elem? with
      | some e => encList Γ c rec e dv fi.opts true
      | none => .panic .illTyped
    else
      writeField Γ rec fi.opts.fnum fi.ty.deref fi.opts dv (fi.opts.writeEmpty || fi.ty.isPtr) false

/-- binary-encode.go:435-464: the loop of encodeReflectBinaryStruct over `info.Fields`; `frv = rv.Field(field.Index)`
panics if there is no such field. -/
def encInfos (Γ : Prog) (c : Codec) (rec : TId → Val → FOpts → Bool → Res Bytes) (vs : List Val) :
    List FInfo → Res Bytes
  | [] => .ok []
  | fi :: fis =>
    match vs[fi.index]? with
    | none => .panic .index
    | some v =>
      (encInfo Γ c rec fi v).bind fun b =>
      (encInfos Γ c rec vs fis).bind fun bs => .ok (b ++ bs)

end Amino
