import Verif.AminoApi

/-!
# The work of Unmarshal

`work Γ c fuel t prior fo bare bz` counts what `cdc.decodeReflectBinary(bz, info, rv, fopts, bare)` (modelled by
`dec`) does, with or without an error: one for every call of decodeReflectBinary, one for every iteration of its
loops, and one for every byte that `DecodeByteSlice` copies (decoder.go:295-296).  Not counted: the bounded work
between two such steps (reading one number or one key), the making of zero values (`reflect.Zero`, `reflect.New`)
and the moving of the elements of growing slices (`reflect.Append`), the methods of users, and what `getTypeInfo`
does the first time it sees a type.
-/

namespace Amino

/-- decoder.go:295-296: the bytes copied by one call of `DecodeByteSlice`; none if it fails. -/
def copied (bz : Bytes) : Nat :=
  match decodeByteSlice bz with
  | .ok _ b => b.length
  | _ => 0

/-- The prologue for `!bare` (binary-decode.go:334-347 and alike) copies the bytes of the value. -/
def workFrame (bare : Bool) (bz : Bytes) (k : Bytes → Nat) : Nat :=
  if bare then k bz
  else
    match decodeByteSlice bz with
    | .ok _ buf => buf.length + k buf
    | _ => 0

/-- binary-decode.go:871-894: the unknown trailing fields; those with a length are copied. -/
def workRest : Nat → Nat → Bytes → Nat
  | _, _, [] => 0
  | 0, _, _ :: _ => 0
  | k + 1, last, bz =>
    1 + match decodeKey bz with
    | .ok m ft =>
      if ft.1 ≤ last then 0
      else
        (if ft.2 = typ3ByteLength then copied (bz.drop m) else 0) +
        match consumeAny ft.2 (bz.drop m) with
        | .ok m' _ => workRest k ft.1 ((bz.drop m).drop m')
        | _ => 0
    | _ => 0

section
variable (Γ : Prog) (c : Codec)
  (rec : Ty → Val → FOpts → Bool → Bytes → DRes Val) (wrk : Ty → Val → FOpts → Bool → Bytes → Nat)

/-- binary-decode.go:670-692: packed slice elements. -/
def workPackedSlice (e : Ty) (fo : FOpts) : Nat → Bytes → Nat
  | _, [] => 0
  | 0, _ :: _ => 0
  | k + 1, bz =>
    1 + wrk e (Γ.zeroTy e) fo false bz +
    match rec e (Γ.zeroTy e) fo false bz with
    | .ok m _ => workPackedSlice e fo k (bz.drop m)
    | _ => 0

/-- binary-decode.go:698-756: unpacked slice elements. -/
def workUnpackedSlice (e : Ty) (fo : FOpts) : Nat → Bytes → Nat
  | _, [] => 0
  | 0, _ :: _ => 0
  | k + 1, bz =>
    1 + match decodeKey bz with
    | .ok m (fnum, typ) =>
      if fnum < fo.fnum then 0
      else if fnum > fo.fnum then 0
      else if typ ≠ typ3ByteLength then 0
      else if (bz.drop m).head? = some 0 ∧ ¬ ((e.isPtr && Γ.isStruct e.deref) && fo.emptyElements) then
        workUnpackedSlice e fo k ((bz.drop m).drop 1)
      else
        wrk e (Γ.zeroTy e) { fo with fnum := 1 } false (bz.drop m) +
        match rec e (Γ.zeroTy e) { fo with fnum := 1 } false (bz.drop m) with
        | .ok m' _ => workUnpackedSlice e fo k ((bz.drop m).drop m')
        | _ => 0
    | _ => 0

/-- binary-decode.go:633-760 `decodeReflectBinarySlice`. -/
def workSlice (e : Ty) (fo : FOpts) (bare : Bool) (bz : Bytes) : Nat :=
  match getInfo Γ c e.deref with
  | .ok _ =>
    workFrame bare bz fun bz =>
    if Γ.typ3 e.deref fo ≠ typ3ByteLength then workPackedSlice Γ rec wrk e fo bz.length bz
    else workUnpackedSlice Γ rec wrk e fo bz.length bz
  | _ => 0

/-- binary-decode.go:499-526: packed array elements. -/
def workPackedArr (e : Ty) (fo : FOpts) : List Val → Bytes → Nat
  | [], _ => 0
  | p :: ps, bz =>
    1 + wrk e p fo false bz +
    match rec e p fo false bz with
    | .ok m _ => workPackedArr e fo ps (bz.drop m)
    | _ => 0

/-- binary-decode.go:532-586: unpacked array elements. -/
def workUnpackedArr (e : Ty) (fo : FOpts) : List Val → Bytes → Nat
  | [], _ => 0
  | p :: ps, bz =>
    1 + match decodeKey bz with
    | .ok m (fnum, typ) =>
      if fnum ≠ fo.fnum then 0
      else if typ ≠ typ3ByteLength then 0
      else if (bz.drop m).head? = some 0 ∧ ¬ ((e.isPtr && Γ.isStruct e.deref) && fo.emptyElements) then
        workUnpackedArr e fo ps ((bz.drop m).drop 1)
      else
        wrk e p { fo with fnum := 1 } false (bz.drop m) +
        match rec e p { fo with fnum := 1 } false (bz.drop m) with
        | .ok m' _ => workUnpackedArr e fo ps ((bz.drop m).drop m')
        | _ => 0
    | _ => 0

/-- binary-decode.go:459-588 `decodeReflectBinaryArray`.  A variable of an array type holds `len` elements; others
do not occur and count nothing. -/
def workArray (len : Nat) (e : Ty) (prior : Val) (fo : FOpts) (bare : Bool) (bz : Bytes) : Nat :=
  match getInfo Γ c e.deref with
  | .ok _ =>
    workFrame bare bz fun bz =>
    match prior with
    | .list ps =>
      if ps.length = len then
        if Γ.typ3 e.deref fo ≠ typ3ByteLength then workPackedArr rec wrk e fo ps bz
        else workUnpackedArr Γ rec wrk e fo ps bz
      else 0
    | _ => 0
  | _ => 0

/-- binary-decode.go:795-894: the loop over the fields, then the unknown trailing fields. -/
def workFields : List Field → List Val → Nat → Nat → Bytes → Nat
  | [], [], _, last, bz => workRest bz.length last bz
  | f :: fs, p :: ps, num, last, bz =>
    1 +
    if !f.visible then workFields fs ps num last bz
    else
      match getInfo Γ c f.ty.deref with
      | .ok _ =>
        if bz.length = 0 then workFields fs ps (num + 1) last bz
        else if Γ.unpackedList f then
          wrk f.ty p { f.opts with fnum := num + 1 } true bz +
          match rec f.ty p { f.opts with fnum := num + 1 } true bz with
          | .ok m _ => workFields fs ps (num + 1) last (bz.drop m)
          | _ => 0
        else
          match decodeKey bz with
          | .ok m (fnum, typ) =>
            if num + 1 < fnum then workFields fs ps (num + 1) last bz
            else if fnum ≤ last then 0
            else if num + 1 ≠ fnum then 0
            else if typ ≠ Γ.typ3 f.ty.deref { f.opts with fnum := num + 1 } then 0
            else
              wrk f.ty p { f.opts with fnum := num + 1 } false (bz.drop m) +
              match rec f.ty p { f.opts with fnum := num + 1 } false (bz.drop m) with
              | .ok m' _ => workFields fs ps (num + 1) fnum ((bz.drop m).drop m')
              | _ => 0
          | _ => 0
      | _ => 0
  | _, _, _, _, _ => 0

/-- binary-decode.go:371-396, see `concKey`. -/
def workKey (cid : TId) (fo : FOpts) (bz : Bytes) (k : Bytes → Nat) : Nat :=
  if !Γ.structOrRep cid && bz.length > 0 && !Γ.isIface cid && Γ.isKnown cid && fo.fnum == 1 then
    match decodeKey bz with
    | .ok m (fnum, typ) =>
      if fnum ≠ 1 then 0
      else if typ ≠ Γ.typ3 cid {} then 0
      else k (bz.drop m)
    | _ => 0
  else k bz

/-- binary-decode.go:314-418 `decodeReflectBinaryInterface`. -/
def workIface (id : TId) (prior : Val) (fo : FOpts) (bare : Bool) (bz : Bytes) : Nat :=
  match prior with
  | .nil =>
    match c.iface? id with
    | none => 0
    | some ii =>
      workFrame bare bz fun bz =>
      match decodeDisambPrefix bz with
      | .ok m dp =>
        match lookupConc c ii dp with
        | .error _ => 0
        | .ok ci =>
          workKey Γ ci.tid fo (bz.drop m) fun bz => wrk (.base ci.tid) (Γ.zero ci.tid) fo true bz
      | _ => 0
  | _ => 0

/-- binary-decode.go:83-311: the switch on the kind. -/
def workShape (id : TId) (prior : Val) (fo : FOpts) (bare : Bool) (bz : Bytes) : Nat :=
  match Γ.shape id with
  | .iface => workIface Γ c wrk id prior fo bare bz
  | .array len e =>
    if Γ.isByteKind e then
      if bz.length < len then 0 else copied bz
    else workArray Γ c rec wrk len e prior fo bare bz
  | .slice e =>
    if Γ.isByteKind e then
      if bz.length = 0 then 0 else copied bz
    else workSlice Γ c rec wrk e fo bare bz
  | .struct fs =>
    workFrame bare bz fun bz =>
    match prior with
    | .struct ps => workFields Γ c rec wrk fs ps 0 0 bz
    | _ => 0
  | .time => workFrame bare bz fun _ => 0
  | .string => copied bz
  | _ => 0

/-- binary-decode.go:31-311 `decodeReflectBinary`. -/
def workBody (t : Ty) (prior : Val) (fo : FOpts) (bare : Bool) (bz : Bytes) : Nat :=
  1 +
  if t.isPtr && Γ.isIface t.deref then 0
  else
    match Γ.unmarsh t.deref with
    | some (rid, _) =>
      match getInfo Γ c rid with
      | .ok _ => wrk (.base rid) (Γ.zero rid) fo bare bz
      | _ => 0
    | none => workShape Γ c rec wrk t.deref (Γ.derefPrior t prior) fo bare bz

end

section
variable (Γ : Prog) (c : Codec)

/-- The work of `decodeReflectBinary` with recursion depth at most the given one. -/
def work : Nat → Ty → Val → FOpts → Bool → Bytes → Nat
  | 0, _, _, _, _, _ => 0
  | f + 1, t, prior, fo, bare, bz => workBody Γ c (dec Γ c f) (work f) t prior fo bare bz

/-- amino.go:392-444: the part of UnmarshalBinaryBare after the prefix bytes. -/
def workContents (fuel : Nat) (t : Ty) (prior : Val) (bz : Bytes) : Nat :=
  if Γ.structOrRep t.deref then work Γ c fuel t prior { fnum := 1 } true bz
  else if ptrToListPanics Γ t prior then 0
  else if bz.length > 0 && !(!t.isPtr && Γ.isIface t.deref) && Γ.isKnown t.deref then
    match decodeKey bz with
    | .ok m (fnum, typ) =>
      if fnum ≠ 1 then 0
      else if typ ≠ Γ.typ3 t.deref {} then 0
      else work Γ c fuel t prior { fnum := 1 } (Γ.typ3 t.deref {} != typ3ByteLength) (bz.drop m)
    | _ => 0
  else work Γ c fuel t prior { fnum := 1 } true bz

/-- amino.go:361-445 `UnmarshalBinaryBare` into a variable of type `t` holding `prior`. -/
def workBare (fuel : Nat) (t : Ty) (prior : Val) (bz : Bytes) : Nat :=
  match getInfo Γ c t.deref with
  | .ok _ =>
    match stripPrefix c t.deref bz with
    | .ok bz => workContents Γ c fuel t prior bz
    | _ => 0
  | _ => 0

/-- amino.go:264-285 `UnmarshalBinaryLengthPrefixed`. -/
def workLP (fuel : Nat) (t : Ty) (prior : Val) (bz : Bytes) : Nat :=
  if bz.length = 0 then 0
  else
    let r := uvarint bz
    if r.2 < 0 then 0
    else if r.1.toNat > bz.length - r.2.toNat then 0
    else if r.1.toNat < bz.length - r.2.toNat then 0
    else workBare Γ c fuel t prior (bz.drop r.2.toNat)

end

end Amino
