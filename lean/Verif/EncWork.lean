import Verif.AminoApi

/-!
# The work of Marshal

`encWork Γ c fuel id v fo bare` counts what `cdc.encodeReflectBinary(w, info, rv, fopts, bare)` (modelled by `enc`)
does, with or without an error: one for every call of encodeReflectBinary, one for every iteration of its loops over
elements and fields, and one for every byte written to a buffer.  Every composite value is first written to a buffer of
its own (binary-encode.go:242, 321, 422) and from there to `w`, so that its bytes count again.  Not counted: the bounded
work between two such steps, the growing of buffers, the copy made of an array of bytes that has no address
(binary-encode.go:293-294), the loops over element types (lines 75-84, 100-109), the methods of users, and what
`getTypeInfo` does the first time it sees a type.
-/

namespace Amino

/-- The bytes written by a call that writes its result at once; none if it fails before that. -/
def wrote : Res Bytes → Nat
  | .ok b => b.length
  | _ => 0

/-- What follows a call, if it did not fail. -/
def afterOk (r : Res Bytes) (n : Nat) : Nat :=
  match r with
  | .ok _ => n
  | _ => 0

section
variable (Γ : Prog) (c : Codec)
  (rec : TId → Val → FOpts → Bool → Res Bytes) (wrk : TId → Val → FOpts → Bool → Nat)

/-- binary-encode.go:325-336: elements in packed form. -/
def encWorkPacked (e : Ty) (fo : FOpts) : List Val → Nat
  | [] => 0
  | v :: vs =>
    1 + wrk e.deref (Γ.derefZero e v) fo false +
    afterOk (rec e.deref (Γ.derefZero e v) fo false) (encWorkPacked e fo vs)

/-- binary-encode.go:349-377: one element in unpacked form, without its key. -/
def encWorkElem (e : Ty) (fo : FOpts) (v : Val) : Nat :=
  match derefVal e v with
  | none => wrote (encElem Γ rec e fo v)
  | some dv =>
    if isDefaultBase (Γ.shape e.deref) dv then wrote (encElem Γ rec e fo v)
    else wrk e.deref dv { fo with fnum := 1 } false

/-- binary-encode.go:342-378: elements in unpacked form. -/
def encWorkUnpacked (e : Ty) (fo : FOpts) : List Val → Nat
  | [] => 0
  | v :: vs =>
    1 + wrote (encodeKey fo.fnum typ3ByteLength) +
    afterOk (encodeKey fo.fnum typ3ByteLength)
      (encWorkElem Γ rec wrk e fo v + afterOk (encElem Γ rec e fo v) (encWorkUnpacked e fo vs))

/-- binary-encode.go:302-389 `encodeReflectBinaryList`: the loop writes to `buf`, the end (lines 380-387) to `w`. -/
def encWorkList (e : Ty) (v : Val) (fo : FOpts) (bare : Bool) : Nat :=
  match getInfo Γ c e.deref with
  | .ok _ =>
    (match v with
     | .list vs =>
       if Γ.typ3 e.deref fo ≠ typ3ByteLength then encWorkPacked Γ rec wrk e fo vs
       else encWorkUnpacked Γ rec wrk e fo vs
     | _ => 0) + wrote (encList Γ c rec e v fo bare)
  | _ => 0

/-- binary-encode.go:499-530 `writeFieldIfNotEmpty`. -/
def encWorkWrite (num : Nat) (id : TId) (fo : FOpts) (dv : Val) (bare : Bool) : Nat :=
  wrote (encodeKey num (Γ.typ3 id fo)) + afterOk (encodeKey num (Γ.typ3 id fo)) (wrk id dv fo bare)

/-- binary-encode.go:436-463: one visible field. -/
def encWorkField (f : Field) (num : Nat) (v : Val) : Nat :=
  match getInfo Γ c f.ty.deref with
  | .ok _ =>
    match derefVal f.ty v with
    | none => 0
    | some dv =>
      if isDefaultBase (Γ.shape f.ty.deref) dv && !f.opts.writeEmpty then 0
      else if Γ.unpackedList f then
        match (Γ.shape f.ty.deref).elem? with
        | some e => encWorkList Γ c rec wrk e dv { f.opts with fnum := num } true
        | none => 0
      else encWorkWrite Γ wrk num f.ty.deref { f.opts with fnum := num } dv false
  | _ => 0

/-- binary-encode.go:435-464: the loop over the fields. -/
def encWorkFields : Nat → List Field → List Val → Nat
  | num, f :: fs, v :: vs =>
    if !f.visible then encWorkFields num fs vs
    else
      1 + encWorkField Γ c rec wrk f (num + 1) v +
      afterOk (encField Γ c rec f (num + 1) v) (encWorkFields (num + 1) fs vs)
  | _, _, _ => 0

/-- binary-encode.go:203-278 `encodeReflectBinaryInterface`: disambiguation and prefix bytes and the concrete value go
to `buf`, then all of it to `w`. -/
def encWorkIface (id : TId) (v : Val) (fo : FOpts) (bare : Bool) : Nat :=
  (match v with
   | .iface t cv =>
     match derefVal t cv with
     | none => 0
     | some crv =>
       if t.isPtr && Γ.isIface t.deref then 0
       else
         match getInfo Γ c t.deref with
         | .ok _ =>
           match c.conc? t.deref with
           | none => 0
           | some ci =>
             match c.iface? id with
             | none => 0
             | some ii =>
               (if ii.always || (ii.withPrefix ci.prefx).length > 1 then 1 + ci.disamb.length else 0)
                 + ci.prefx.length + wrk t.deref crv fo true
         | _ => 0
   | _ => 0) + wrote (encIface Γ c rec id v fo bare)

/-- binary-encode.go:57-201: the switch on the kind. -/
def encWorkShape (fuel : Nat) (id : TId) (v : Val) (fo : FOpts) (bare : Bool) : Nat :=
  match Γ.shape id with
  | .iface => encWorkIface Γ c rec wrk id v fo bare
  | .slice e | .array _ e =>
    if Γ.isByteKind e || Γ.isListKind e then wrote (encShape Γ c rec fuel id v fo bare)
    else encWorkList Γ c rec wrk e v fo bare
  | .struct fs =>
    (match v with
     | .struct vs => encWorkFields Γ c rec wrk 0 fs vs
     | _ => 0) + wrote (encShape Γ c rec fuel id v fo bare)
  | .time =>
    (match v with
     | .time s ns => wrote (encodeTime s ns)
     | _ => 0) + wrote (encShape Γ c rec fuel id v fo bare)
  | _ => wrote (encShape Γ c rec fuel id v fo bare)

/-- binary-encode.go:25-201 `encodeReflectBinary`. -/
def encWorkBody (fuel : Nat) (id : TId) (v : Val) (fo : FOpts) (bare : Bool) : Nat :=
  1 + match Γ.marsh id with
  | some (rid, m) =>
    match m v with
    | .ok r =>
      match getInfo Γ c rid with
      | .ok _ => wrk rid r fo bare
      | _ => 0
    | _ => 0
  | none => encWorkShape Γ c rec wrk fuel id v fo bare

end

/-- The work of `encodeReflectBinary` with recursion depth at most `fuel`. -/
def encWork (Γ : Prog) (c : Codec) : Nat → TId → Val → FOpts → Bool → Nat
  | 0, _, _, _, _ => 0
  | f + 1, id, v, fo, bare => encWorkBody Γ c (enc Γ c f) (encWork Γ c f) f id v fo bare

/-- amino.go:203-245 `MarshalBinaryBare`; the bytes of a registered type are copied behind the prefix (line 241). -/
def encWorkBare (Γ : Prog) (c : Codec) (fuel : Nat) (t : Ty) (v : Val) : Nat :=
  match derefVal t v with
  | none => 0
  | some rv =>
    match getInfo Γ c t.deref with
    | .ok _ =>
      (if !Γ.structOrRep t.deref then
        encWorkWrite Γ (encWork Γ c fuel) 1 t.deref {} rv (Γ.typ3 t.deref {} != typ3ByteLength)
       else encWork Γ c fuel t.deref rv { fnum := 1 } true) +
      match c.conc? t.deref with
      | some _ => wrote (marshalBare Γ c fuel t v)
      | none => 0
    | _ => 0

/-- amino.go:143-167 `MarshalBinaryLengthPrefixed` copies the result behind its length (lines 155-164). -/
def encWorkLP (Γ : Prog) (c : Codec) (fuel : Nat) (t : Ty) (v : Val) : Nat :=
  encWorkBare Γ c fuel t v + wrote (marshalLP Γ c fuel t v)

end Amino
