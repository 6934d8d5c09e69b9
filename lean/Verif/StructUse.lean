import Verif.StructInfo
import Verif.JsonDecode

/-!
# The loops over the stored struct metadata

`encInfos` in `StructInfo.lean` is the loop of the binary encoder over `info.Fields`; here are those of the other coders.
-/

namespace Amino

section
variable (Γ : Prog) (c : Codec)

/-- binary-decode.go:795-894: the loop of decodeReflectBinaryStruct over `info.Fields`, then the unknown trailing fields.
`vs` are the contents of the struct so far, `last` is `lastFieldNum`; `rv.Field(field.Index)` panics if there is no such
field. -/
def decInfos (rec : Ty → Val → FOpts → Bool → Bytes → DRes Val) : List FInfo → List Val → Nat → Bytes → Nat → DRes (List Val)
  | [], vs, last, bz, n => (consumeRest bz.length last bz n).map fun _ => vs
  | fi :: fis, vs, last, bz, n =>
    match vs[fi.index]? with
    | none => .panic .index
    | some p =>
      infoThen Γ c fi.ty.deref n <|
      if bz.length = 0 then decInfos rec fis (vs.set fi.index (Γ.defaultValue fi.ty)) last bz n
      else if fi.unpacked then
        (rec fi.ty p fi.opts true bz).andSlide bz n fun v bz n => decInfos rec fis (vs.set fi.index v) last bz n
      else
        match decodeKey bz with
        | .panic p => .panic p
        | .oof => .oof
        | .err _ _ => .err n .fieldOrder
        | .ok m (fnum, typ) =>
          if fi.opts.fnum < fnum then decInfos rec fis (vs.set fi.index (Γ.defaultValue fi.ty)) last bz n
          else if fnum ≤ last then .err n .fieldOrder
          else slideThen m bz n fun bz n =>
            if fi.opts.fnum ≠ fnum then .err n .fieldNum
            else if typ ≠ Γ.typ3 fi.ty.deref fi.opts then .err n .fieldTyp
            else
              (rec fi.ty p fi.opts false bz).andSlide bz n fun v bz n => decInfos rec fis (vs.set fi.index v) fnum bz n

/-- json-encode.go:297-341: the loop of encodeReflectJSONStruct over `info.Fields`; the members written. -/
def jencInfos (rec : Bool → Ty → Val → FOpts → Res Bytes) (addr : Bool) (vs : List Val) : List FInfo → Res (List Bytes)
  | [] => .ok []
  | fi :: fis =>
    match vs[fi.index]? with
    | none => .panic .index
    | some v =>
      (getInfo Γ c fi.ty.deref).bind fun _ =>
      if fi.opts.omitEmpty && Γ.jsonEmpty fi.ty v then jencInfos rec addr vs fis
      else
        (rec addr fi.ty v fi.opts).bind fun b =>
        (jencInfos rec addr vs fis).bind fun bs => .ok ((quoteStr fi.opts.jsonName ++ 0x3a :: b) :: bs)

/-- json-decode.go:386-422: the loop of decodeReflectJSONStruct over `info.Fields`; `fo` are the options of the struct. -/
def jdecInfos (rec : Ty → Val → FOpts → Bytes → Res Val) (fo : FOpts) (m : List (Bytes × Bytes)) :
    List FInfo → List Val → Res (List Val)
  | [], vs => .ok vs
  | fi :: fis, vs =>
    match vs[fi.index]? with
    | none => .panic .index
    | some p =>
      (getInfo Γ c fi.ty.deref).bind fun _ =>
      let valueBytes := (m.lookup fi.opts.jsonName).getD []
      if valueBytes.length = 0 then jdecInfos rec fo m fis (if fi.opts.omitEmpty then vs else vs.set fi.index (Γ.zeroTy fi.ty))
      else (rec fi.ty p fo valueBytes).bind fun v => jdecInfos rec fo m fis (vs.set fi.index v)

end

end Amino
