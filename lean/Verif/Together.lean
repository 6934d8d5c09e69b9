import Verif.Registry
import Verif.AminoApi
import Verif.JsonDecode

/-!
# Calls while other goroutines register types

The encoders and decoders hold the codec's lock only while they look something up (codec.go:366-446), so that other
goroutines may register types in between.  `encS`, `decS`, `jencS`, `jdecS` follow `enc`, `dec`, `jenc`, `jdec`
definition by definition, but every look-up happens at an instant of its own: before it, other goroutines complete some
calls.  What is not a look-up is the same as there and cited there.
-/

namespace Amino

/-- The codec at some instant, and what other goroutines will do: before the next look-up, before the one after it, and so
on. -/
structure Sim where
  c : Codec
  todo : List (List Op) := []

/-- A piece of a call: its outcome and the codec and other goroutines afterwards. -/
abbrev Run (ρ : Type) := Sim → ρ × Sim

section
variable {ρ ρ' α β : Type}

def Run.pure (r : ρ) : Run ρ := fun s => (r, s)
def Run.bind (m : Run ρ) (k : ρ → Run ρ') : Run ρ' := fun s => k (m s).1 (m s).2

/-- `Res.bind` -/
def Run.andThen (m : Run (Res α)) (k : α → Run (Res β)) : Run (Res β) :=
  m.bind fun
    | .ok a => k a
    | .err e => .pure (.err e)
    | .panic p => .pure (.panic p)
    | .oof => .pure .oof

/-- `DRes.andSlide` -/
def Run.andSlide (m : Run (DRes α)) (bz : Bytes) (n : Nat) (k : α → Bytes → Nat → Run (DRes β)) : Run (DRes β) :=
  m.bind fun
    | .ok m a => if m ≤ bz.length then k a (bz.drop m) (n + m) else .pure (.panic .slide)
    | .err m e => if m ≤ bz.length then .pure (.err (n + m) e) else .pure (.panic .slide)
    | .panic p => .pure (.panic p)
    | .oof => .pure .oof

/-- `DRes.map` -/
def Run.map (m : Run (DRes α)) (f : α → β) : Run (DRes β) := m.bind fun r => .pure (r.map f)

end

/-- The others complete the calls they make before this look-up.  Only schedules in which these calls do not panic are
meant; a list of calls one of which panics is skipped. -/
def Sim.next (Γ : Prog) (H : Bytes → Bytes) (s : Sim) : Sim :=
  match s.todo with
  | [] => s
  | ops :: todo => { c := (s.c.run Γ H ops).getD s.c, todo := todo }

section
variable (Γ : Prog) (H : Bytes → Bytes)

/-- codec.go:366-390 `getTypeInfoWlock`: the type info (registered with which name and prefix, or not), which is kept in the
codec from now on. -/
def lookInfo (id : TId) : Run (Res (Option ConcInfo)) := fun s =>
  let s := s.next Γ H
  match getInfo Γ s.c id with
  | .ok _ => (.ok (s.c.conc? id), { s with c := (useType Γ s.c id).1 })
  | .err e => (.err e, s)
  | .panic p => (.panic p, s)
  | .oof => (.oof, s)

/-- The info of an interface type, which the caller has looked up (codec.go:366-390). -/
def lookIface (id : TId) : Run (Res Unit) := fun s =>
  let s := s.next Γ H
  (if (s.c.iface? id).isSome then .ok () else .err .unregisteredIface, s)

/-- binary-encode.go:246-254: whether disambiguation bytes are needed; the implementers are read without the lock. -/
def lookMany (id : TId) (pre : Bytes) : Run (Res Bool) := fun s =>
  let s := s.next Γ H
  (match s.c.iface? id with
    | none => .err .unregisteredIface
    | some ii => .ok (ii.always || (ii.withPrefix pre).length > 1), s)

/-- codec.go:394-430 `getTypeInfoFromPrefixRlock`, `getTypeInfoFromDisfixRlock`. -/
def lookConc (id : TId) (dp : Option Bytes × Bytes) : Run (Res ConcInfo) := fun s =>
  let s := s.next Γ H
  (match s.c.iface? id with
    | none => .err .unregisteredIface
    | some ii => match lookupConc s.c ii dp with
      | .ok ci => .ok ci
      | .error e => .err e, s)

/-- codec.go:432-446 `getTypeInfoFromNameRlock`. -/
def lookName (n : Bytes) : Run (Res ConcInfo) := fun s =>
  let s := s.next Γ H
  (match s.c.name? n with
    | none => .err .unknownName
    | some ci => .ok ci, s)

/-! ## binary-encode.go -/

section
variable (rec : TId → Val → FOpts → Bool → Run (Res Bytes))

/-- `encPacked` -/
def encPackedS (e : Ty) (fo : FOpts) : List Val → Run (Res Bytes)
  | [] => .pure (.ok [])
  | v :: vs =>
    (rec e.deref (Γ.derefZero e v) fo false).andThen fun b =>
    (encPackedS e fo vs).andThen fun bs => .pure (.ok (b ++ bs))

/-- `encElem` -/
def encElemS (e : Ty) (fo : FOpts) (v : Val) : Run (Res Bytes) :=
  match derefVal e v with
  | none =>
    .pure (if (e.isPtr && Γ.isStruct e.deref) && fo.emptyElements then .err .nilElement else encodeUint8 0)
  | some dv =>
    if isDefaultBase (Γ.shape e.deref) dv then
      .pure (if (e.isPtr && Γ.isStruct e.deref) && fo.emptyElements then .err .nilElement else encodeUint8 0)
    else rec e.deref dv { fo with fnum := 1 } false

/-- `encUnpacked` -/
def encUnpackedS (e : Ty) (fo : FOpts) : List Val → Run (Res Bytes)
  | [] => .pure (.ok [])
  | v :: vs =>
    (Run.pure (encodeKey fo.fnum typ3ByteLength)).andThen fun k =>
    (encElemS Γ rec e fo v).andThen fun b =>
    (encUnpackedS e fo vs).andThen fun bs => .pure (.ok (k ++ b ++ bs))

/-- `encList` -/
def encListS (e : Ty) (v : Val) (fo : FOpts) (bare : Bool) : Run (Res Bytes) :=
  (lookInfo Γ H e.deref).andThen fun _ =>
  match v with
  | .nil => .pure (framed bare [])
  | .list vs =>
    (if Γ.typ3 e.deref fo ≠ typ3ByteLength then encPackedS Γ rec e fo vs
     else encUnpackedS Γ rec e fo vs).andThen fun buf => .pure (framed bare buf)
  | _ => .pure (.panic .illTyped)

/-- `writeField` -/
def writeFieldS (num : Nat) (id : TId) (fo : FOpts) (dv : Val) (writeEmpty bare : Bool) : Run (Res Bytes) :=
  (Run.pure (encodeKey num (Γ.typ3 id fo))).andThen fun k =>
  (rec id dv fo bare).andThen fun b =>
  .pure (if !writeEmpty && b == [0] then .ok [] else .ok (k ++ b))

/-- `encField` -/
def encFieldS (f : Field) (num : Nat) (v : Val) : Run (Res Bytes) :=
  (lookInfo Γ H f.ty.deref).andThen fun _ =>
  match derefVal f.ty v with
  | none => .pure (if f.opts.writeEmpty then .panic .invalidValue else .ok [])
  | some dv =>
    if isDefaultBase (Γ.shape f.ty.deref) dv && !f.opts.writeEmpty then .pure (.ok [])
    else if Γ.unpackedList f then
      match (Γ.shape f.ty.deref).elem? with
      | some e => encListS Γ H rec e dv { f.opts with fnum := num } true
      | none => .pure (.panic .illTyped)
    else
      writeFieldS Γ rec num f.ty.deref { f.opts with fnum := num } dv
        (f.opts.writeEmpty || f.ty.isPtr) false

/-- `encFields` -/
def encFieldsS : Nat → List Field → List Val → Run (Res Bytes)
  | _, [], [] => .pure (.ok [])
  | num, f :: fs, v :: vs =>
    if !f.visible then encFieldsS num fs vs
    else
      (encFieldS Γ H rec f (num + 1) v).andThen fun b =>
      (encFieldsS (num + 1) fs vs).andThen fun bs => .pure (.ok (b ++ bs))
  | _, _, _ => .pure (.panic .illTyped)

/-- `encIface` -/
def encIfaceS (id : TId) (v : Val) (fo : FOpts) (bare : Bool) : Run (Res Bytes) :=
  match v with
  | .nil => .pure (.ok [0])
  | .iface t cv =>
    match derefVal t cv with
    | none => .pure (.panic .nilPtrInIface)
    | some crv =>
      if t.isPtr && Γ.isIface t.deref then .pure (.panic .ifacePtr)
      else
        (lookInfo Γ H t.deref).andThen fun
        | none => .pure (.err .unregisteredConcrete)
        | some ci =>
          (lookMany Γ H id ci.prefx).andThen fun many =>
          (rec t.deref crv fo true).andThen fun b =>
          .pure (framed bare ((if many then 0 :: ci.disamb else []) ++ ci.prefx ++ b))
  | _ => .pure (.panic .illTyped)

/-- `encShape` -/
def encShapeS (fuel : Nat) (id : TId) (v : Val) (fo : FOpts) (bare : Bool) : Run (Res Bytes) :=
  match Γ.shape id with
  | .iface => encIfaceS Γ H rec id v fo bare
  | .slice e =>
    if Γ.isByteKind e then
      match v with
      | .nil => .pure (encodeByteSlice [])
      | .bytes b => .pure (encodeByteSlice b)
      | _ => .pure (.panic .illTyped)
    else if Γ.isListKind e then
      match innerIsByte Γ fuel e with
      | none => .pure .oof
      | some true => .pure (.ok [])
      | some false => .pure (.err .multiDim)
    else encListS Γ H rec e v fo bare
  | .array _ e =>
    if Γ.isByteKind e then
      match v with
      | .bytes b => .pure (encodeByteSlice b)
      | _ => .pure (.panic .illTyped)
    else if Γ.isListKind e then
      match innerIsByte Γ fuel e with
      | none => .pure .oof
      | some true => .pure (.ok [])
      | some false => .pure (.err .multiDim)
    else encListS Γ H rec e v fo bare
  | .struct fs =>
    match v with
    | .struct vs => (encFieldsS Γ H rec 0 fs vs).andThen fun buf => .pure (framed bare buf)
    | _ => .pure (.panic .illTyped)
  | .time =>
    match v with
    | .time s ns => .pure ((encodeTime s ns).bind fun buf => framed bare buf)
    | _ => .pure (.panic .illTyped)
  | .int k =>
    match v with
    | .int i => .pure (encInt k fo i)
    | _ => .pure (.panic .illTyped)
  | .bool =>
    match v with
    | .bool b => .pure (encodeBool b)
    | _ => .pure (.panic .illTyped)
  | .float64 =>
    if !fo.floatOk then .pure (.err .floatUnsafe)
    else match v with
      | .f64 b => .pure (encodeUint64 b)
      | _ => .pure (.panic .illTyped)
  | .float32 =>
    if !fo.floatOk then .pure (.err .floatUnsafe)
    else match v with
      | .f32 b => .pure (encodeUint32 b)
      | _ => .pure (.panic .illTyped)
  | .string =>
    match v with
    | .str b => .pure (encodeString b)
    | _ => .pure (.panic .illTyped)
  | .map _ => .pure (.panic .unsupported)

/-- `encBody` -/
def encBodyS (fuel : Nat) (id : TId) (v : Val) (fo : FOpts) (bare : Bool) : Run (Res Bytes) :=
  match Γ.marsh id with
  | some (rid, m) =>
    (Run.pure (m v)).andThen fun r =>
    (lookInfo Γ H rid).andThen fun _ => rec rid r fo bare
  | none => encShapeS Γ H rec fuel id v fo bare

end

/-- `enc` -/
def encS : Nat → TId → Val → FOpts → Bool → Run (Res Bytes)
  | 0, _, _, _, _ => .pure .oof
  | f + 1, id, v, fo, bare => encBodyS Γ H (encS f) f id v fo bare

/-- amino.go:197-245 `MarshalBinaryBare`: the info is looked up once, and its prefix written at the end. -/
def marshalBareS (fuel : Nat) (t : Ty) (v : Val) : Run (Res Bytes) :=
  match derefVal t v with
  | none => .pure (.panic .nilTop)
  | some rv =>
    (lookInfo Γ H t.deref).andThen fun oc =>
    (if !Γ.structOrRep t.deref then
      writeFieldS Γ (encS Γ H fuel) 1 t.deref {} rv false (Γ.typ3 t.deref {} != typ3ByteLength)
     else encS Γ H fuel t.deref rv { fnum := 1 } true).andThen fun bz =>
    match oc with
    | some ci => .pure (.ok (ci.prefx ++ bz))
    | none => .pure (.ok bz)

/-- `marshalLP` -/
def marshalLPS (fuel : Nat) (t : Ty) (v : Val) : Run (Res Bytes) :=
  (marshalBareS Γ H fuel t v).andThen fun bz =>
  .pure ((encodeUvarint (UInt64.ofNat bz.length)).bind fun p => .ok (p ++ bz))

/-! ## binary-decode.go -/

/-- `infoThen` -/
def infoThenS {α : Type} (id : TId) (n : Nat) (k : Run (DRes α)) : Run (DRes α) :=
  (lookInfo Γ H id).bind fun
    | .ok _ => k
    | .err e => .pure (.err n e)
    | .panic p => .pure (.panic p)
    | .oof => .pure .oof

/-- `slideThen` -/
def slideThenS {α : Type} (m : Nat) (bz : Bytes) (n : Nat) (k : Bytes → Nat → Run (DRes α)) : Run (DRes α) :=
  if m ≤ bz.length then k (bz.drop m) (n + m) else .pure (.panic .slide)

/-- `unframe` -/
def unframeS {α : Type} (bare : Bool) (bz : Bytes) (k : Bytes → Nat → Run (DRes α)) : Run (DRes α) :=
  if bare then k bz 0
  else
    match decodeByteSlice bz with
    | .ok m buf =>
      if m ≤ bz.length then k buf (uvarintSize (UInt64.ofNat buf.length)) else .pure (.panic .slide)
    | .err m e => if m ≤ bz.length then .pure (.err 0 e) else .pure (.panic .slide)
    | .panic p => .pure (.panic p)
    | .oof => .pure .oof

section
variable (rec : Ty → Val → FOpts → Bool → Bytes → Run (DRes Val))

/-- `decPackedSlice` -/
def decPackedSliceS (e : Ty) (fo : FOpts) : Nat → Bytes → Nat → Run (DRes (List Val))
  | _, [], n => .pure (.ok n [])
  | 0, _ :: _, _ => .pure .oof
  | k + 1, bz, n =>
    (rec e (Γ.zeroTy e) fo false bz).andSlide bz n fun v bz n =>
    (decPackedSliceS e fo k bz n).map fun vs => preferNil Γ e v :: vs

/-- `decUnpackedSlice` -/
def decUnpackedSliceS (e : Ty) (fo : FOpts) : Nat → Bytes → Nat → Run (DRes (List Val))
  | _, [], n => .pure (.ok n [])
  | 0, _ :: _, _ => .pure .oof
  | k + 1, bz, n =>
    match decodeKey bz with
    | .panic p => .pure (.panic p)
    | .oof => .pure .oof
    | .err _ _ => .pure (.err n .fieldNum)
    | .ok m (fnum, typ) =>
      if fnum < fo.fnum then .pure (.err n .fieldNum)
      else if fnum > fo.fnum then .pure (.ok n [])
      else if typ ≠ typ3ByteLength then .pure (.err n .fieldTyp)
      else slideThenS m bz n fun bz n =>
        if bz.head? = some 0 ∧ ¬ ((e.isPtr && Γ.isStruct e.deref) && fo.emptyElements) then
          slideThenS 1 bz n fun bz n =>
          (decUnpackedSliceS e fo k bz n).map fun vs => Γ.defaultValue e :: vs
        else
          (rec e (Γ.zeroTy e) { fo with fnum := 1 } false bz).andSlide bz n fun v bz n =>
          (decUnpackedSliceS e fo k bz n).map fun vs => v :: vs

/-- `decSlice` -/
def decSliceS (e : Ty) (fo : FOpts) (bare : Bool) (bz : Bytes) : Run (DRes Val) :=
  infoThenS Γ H e.deref 0 <|
  unframeS bare bz fun bz n =>
  (if Γ.typ3 e.deref fo ≠ typ3ByteLength then decPackedSliceS Γ rec e fo bz.length bz n
   else decUnpackedSliceS Γ rec e fo bz.length bz n).map fun vs =>
    if vs.isEmpty then .nil else .list vs

/-- `decPackedArr` -/
def decPackedArrS (e : Ty) (fo : FOpts) : List Val → Bytes → Nat → Run (DRes (List Val))
  | [], bz, n => .pure (if bz.length > 0 then .err n .leftover else .ok n [])
  | p :: ps, bz, n =>
    (rec e p fo false bz).andSlide bz n fun v bz n =>
    (decPackedArrS e fo ps bz n).map fun vs => preferNil Γ e v :: vs

/-- `decUnpackedArr` -/
def decUnpackedArrS (e : Ty) (fo : FOpts) : List Val → Bytes → Nat → Run (DRes (List Val))
  | [], bz, n =>
    .pure (if bz.length > 0 then
      match decodeKey bz with
      | .panic p => .panic p
      | .oof => .oof
      | .err _ e => .err n e
      | .ok _ (fnum, _) => if fnum ≤ fo.fnum then .err n .fieldNum else .ok n []
    else .ok n [])
  | p :: ps, bz, n =>
    match decodeKey bz with
    | .panic p => .pure (.panic p)
    | .oof => .pure .oof
    | .err _ _ => .pure (.err n .fieldNum)
    | .ok m (fnum, typ) =>
      if fnum ≠ fo.fnum then .pure (.err n .fieldNum)
      else if typ ≠ typ3ByteLength then .pure (.err n .fieldTyp)
      else slideThenS m bz n fun bz n =>
        if bz.head? = some 0 ∧ ¬ ((e.isPtr && Γ.isStruct e.deref) && fo.emptyElements) then
          slideThenS 1 bz n fun bz n =>
          (decUnpackedArrS e fo ps bz n).map fun vs => Γ.defaultValue e :: vs
        else
          (rec e p { fo with fnum := 1 } false bz).andSlide bz n fun v bz n =>
          (decUnpackedArrS e fo ps bz n).map fun vs => v :: vs

/-- `decArray` -/
def decArrayS (e : Ty) (prior : Val) (fo : FOpts) (bare : Bool) (bz : Bytes) : Run (DRes Val) :=
  infoThenS Γ H e.deref 0 <|
  unframeS bare bz fun bz n =>
  match prior with
  | .list ps =>
    (if Γ.typ3 e.deref fo ≠ typ3ByteLength then decPackedArrS Γ rec e fo ps bz n
     else decUnpackedArrS Γ rec e fo ps bz n).map .list
  | _ => .pure (.panic .illTyped)

/-- `decFields` -/
def decFieldsS : List Field → List Val → Nat → Nat → Bytes → Nat → Run (DRes (List Val))
  | [], [], _, last, bz, n => .pure ((consumeRest bz.length last bz n).map fun _ => [])
  | f :: fs, p :: ps, num, last, bz, n =>
    if !f.visible then (decFieldsS fs ps num last bz n).map fun vs => p :: vs
    else
      infoThenS Γ H f.ty.deref n <|
      if bz.length = 0 then
        (decFieldsS fs ps (num + 1) last bz n).map fun vs => Γ.defaultValue f.ty :: vs
      else if Γ.unpackedList f then
        (rec f.ty p { f.opts with fnum := num + 1 } true bz).andSlide bz n fun v bz n =>
        (decFieldsS fs ps (num + 1) last bz n).map fun vs => v :: vs
      else
        match decodeKey bz with
        | .panic p => .pure (.panic p)
        | .oof => .pure .oof
        | .err _ _ => .pure (.err n .fieldOrder)
        | .ok m (fnum, typ) =>
          if num + 1 < fnum then
            (decFieldsS fs ps (num + 1) last bz n).map fun vs => Γ.defaultValue f.ty :: vs
          else if fnum ≤ last then .pure (.err n .fieldOrder)
          else slideThenS m bz n fun bz n =>
            if num + 1 ≠ fnum then .pure (.err n .fieldNum)
            else if typ ≠ Γ.typ3 f.ty.deref { f.opts with fnum := num + 1 } then .pure (.err n .fieldTyp)
            else
              (rec f.ty p { f.opts with fnum := num + 1 } false bz).andSlide bz n fun v bz n =>
              (decFieldsS fs ps (num + 1) fnum bz n).map fun vs => v :: vs
  | _, _, _, _, _, _ => .pure (.panic .illTyped)

/-- `concKey` -/
def concKeyS {α : Type} (cid : TId) (fo : FOpts) (bz : Bytes) (n : Nat) (k : Bytes → Nat → Run (DRes α)) :
    Run (DRes α) :=
  if !Γ.structOrRep cid && bz.length > 0 && !Γ.isIface cid
      && Γ.isKnown cid && fo.fnum == 1 then
    match decodeKey bz with
    | .panic p => .pure (.panic p)
    | .oof => .pure .oof
    | .err _ e => .pure (.err n e)
    | .ok m (fnum, typ) =>
      if fnum ≠ 1 then .pure (.err n .fieldNum)
      else if typ ≠ Γ.typ3 cid {} then .pure (.err n .fieldTyp)
      else slideThenS m bz n k
  else k bz n

/-- What `decIface` does with the decoded concrete value. -/
def ifaceOut (id : TId) (ci : ConcInfo) (bz : Bytes) (n : Nat) : DRes Val → DRes Val
  | .ok m v =>
    if m ≤ bz.length then
      if (bz.drop m).length > 0 then .err (n + m) .leftover
      else if Γ.implements ci.dynTy id then .ok (n + m) (.iface ci.dynTy (wrapTy ci.dynTy v))
      else .panic .notAssignable
    else .panic .slide
  | .err m e =>
    if m ≤ bz.length then
      if Γ.implements ci.dynTy id then .err (n + m) e else .panic .notAssignable
    else .panic .slide
  | .panic p => .panic p
  | .oof => .oof

/-- `decIface` -/
def decIfaceS (id : TId) (prior : Val) (fo : FOpts) (bare : Bool) (bz : Bytes) : Run (DRes Val) :=
  match prior with
  | .nil =>
    (lookIface Γ H id).bind fun
    | .err e => .pure (.err 0 e)
    | .panic p => .pure (.panic p)
    | .oof => .pure .oof
    | .ok _ =>
      unframeS bare bz fun bz n =>
      (Run.pure (decodeDisambPrefix bz)).andSlide bz n fun dp bz n =>
      (lookConc Γ H id dp).bind fun
      | .err e => .pure (.err n e)
      | .panic p => .pure (.panic p)
      | .oof => .pure .oof
      | .ok ci =>
        concKeyS Γ ci.tid fo bz n fun bz n =>
        (rec (.base ci.tid) (Γ.zero ci.tid) fo true bz).bind fun r => .pure (ifaceOut Γ id ci bz n r)
  | _ => .pure (.err 0 .nonNilIface)

/-- `decShape` -/
def decShapeS (id : TId) (prior : Val) (fo : FOpts) (bare : Bool) (bz : Bytes) : Run (DRes Val) :=
  match Γ.shape id with
  | .iface => decIfaceS Γ H rec id prior fo bare bz
  | .array len e =>
    if Γ.isByteKind e then .pure (decByteArray Γ len e bz) else decArrayS Γ H rec e prior fo bare bz
  | .slice e =>
    if Γ.isByteKind e then .pure (decByteSlice Γ e bz) else decSliceS Γ H rec e fo bare bz
  | .struct fs =>
    unframeS bare bz fun bz n =>
    match prior with
    | .struct ps => (decFieldsS Γ H rec fs ps 0 0 bz n).map .struct
    | _ => .pure (.panic .illTyped)
  | .time =>
    .pure (unframe bare bz fun bz n => (decodeTime bz).andSlide bz n fun t _ n => .ok n (.time t.1 t.2))
  | .int k => .pure ((decInt k fo bz).map .int)
  | .bool => .pure ((decodeBool bz).andSlide bz 0 fun b _ n => .ok n (.bool b))
  | .float64 =>
    .pure (if !fo.floatOk then .err 0 .floatUnsafe
      else (decodeUint64 bz).andSlide bz 0 fun b _ n => .ok n (.f64 b))
  | .float32 =>
    .pure (if !fo.floatOk then .err 0 .floatUnsafe
      else (decodeUint32 bz).andSlide bz 0 fun b _ n => .ok n (.f32 b))
  | .string => .pure ((decodeString bz).andSlide bz 0 fun s _ n => .ok n (.str s))
  | .map _ => .pure (.panic .unsupported)

/-- `decBody` -/
def decBodyS (t : Ty) (prior : Val) (fo : FOpts) (bare : Bool) (bz : Bytes) : Run (DRes Val) :=
  if t.isPtr && Γ.isIface t.deref then .pure (.panic .ifacePtr)
  else
    (match Γ.unmarsh t.deref with
     | some (rid, um) =>
       infoThenS Γ H rid 0 <|
       (rec (.base rid) (Γ.zero rid) fo bare bz).andSlide bz 0 fun r _ n =>
       .pure (match um (Γ.derefPrior t prior) r with
         | .ok v => .ok n v
         | .err e => .err n e
         | .panic p => .panic p
         | .oof => .oof)
     | none => decShapeS Γ H rec t.deref (Γ.derefPrior t prior) fo bare bz).map (wrapTy t)

end

/-- `dec` -/
def decS : Nat → Ty → Val → FOpts → Bool → Bytes → Run (DRes Val)
  | 0, _, _, _, _, _ => .pure .oof
  | f + 1, t, prior, fo, bare, bz => decBodyS Γ H (decS f) t prior fo bare bz

/-- `decodeAll` -/
def decodeAllS (fuel : Nat) (t : Ty) (prior : Val) (bare : Bool) (bz : Bytes) : Run (Res Val) :=
  (decS Γ H fuel t prior { fnum := 1 } bare bz).bind fun r =>
  .pure (match r with
    | .ok n v => if n ≠ bz.length then .err .leftover else .ok v
    | .err _ e => .err e
    | .panic p => .panic p
    | .oof => .oof)

/-- `unmarshalContents` -/
def unmarshalContentsS (fuel : Nat) (t : Ty) (prior : Val) (bz : Bytes) : Run (Res Val) :=
  if Γ.structOrRep t.deref then decodeAllS Γ H fuel t prior true bz
  else if ptrToListPanics Γ t prior then .pure (.panic .illTyped)
  else if bz.length > 0 && !(!t.isPtr && Γ.isIface t.deref) && Γ.isKnown t.deref then
    match decodeKey bz with
    | .err _ e => .pure (.err e)
    | .panic p => .pure (.panic p)
    | .oof => .pure .oof
    | .ok m (fnum, typ) =>
      if fnum ≠ 1 then .pure (.err .fieldNum)
      else if typ ≠ Γ.typ3 t.deref {} then .pure (.err .fieldTyp)
      else if m ≤ bz.length then
        decodeAllS Γ H fuel t prior (Γ.typ3 t.deref {} != typ3ByteLength) (bz.drop m)
      else .pure (.panic .slide)
  else decodeAllS Γ H fuel t prior true bz

/-- amino.go:373-390: the prefix bytes of the info looked up before. -/
def stripWith (oc : Option ConcInfo) (bz : Bytes) : Res Bytes :=
  match oc with
  | some ci =>
    if bz.length < 4 then .err .prefixMismatch
    else if bz.take 4 ≠ ci.prefx then .err .prefixMismatch
    else .ok (bz.drop 4)
  | none => .ok bz

/-- amino.go:361-445 `UnmarshalBinaryBare` -/
def unmarshalBareS (fuel : Nat) (t : Ty) (prior : Val) (bz : Bytes) : Run (Res Val) :=
  (lookInfo Γ H t.deref).andThen fun oc =>
  (Run.pure (stripWith oc bz)).andThen fun bz => unmarshalContentsS Γ H fuel t prior bz

/-- `unmarshalLP` -/
def unmarshalLPS (fuel : Nat) (t : Ty) (prior : Val) (bz : Bytes) : Run (Res Val) :=
  if bz.length = 0 then .pure (.err .emptyInput)
  else
    let r := uvarint bz
    if r.2 < 0 then .pure (.err .varintOverflow)
    else if r.1.toNat > bz.length - r.2.toNat then .pure (.err .lenMismatch)
    else if r.1.toNat < bz.length - r.2.toNat then .pure (.err .lenMismatch)
    else unmarshalBareS Γ H fuel t prior (bz.drop r.2.toNat)

/-! ## json-encode.go -/

section
variable (J : JLib) (rec : Bool → Ty → Val → FOpts → Run (Res Bytes))

/-- `jencIface` -/
def jencIfaceS (t : Ty) (v : Val) (fo : FOpts) : Run (Res Bytes) :=
  if t.isPtr && Γ.isIface t.deref then .pure (.panic .ifacePtr)
  else
    match derefVal t v with
    | none => .pure (.panic .nilPtrInIface)
    | some dv =>
      (lookInfo Γ H t.deref).andThen fun
      | none => .pure (.err .unregisteredConcrete)
      | some ci => (rec t.isPtr (.base t.deref) dv fo).andThen fun b => .pure (.ok (wrapText ci.name b))

/-- `jencElems` -/
def jencElemsS (addr : Bool) (e : Ty) (fo : FOpts) : List Val → Run (Res (List Bytes))
  | [] => .pure (.ok [])
  | v :: vs =>
    (rec addr e v fo).andThen fun b => (jencElemsS addr e fo vs).andThen fun bs => .pure (.ok (b :: bs))

/-- `jencList` -/
def jencListS (addr : Bool) (e : Ty) (fo : FOpts) (vs : List Val) : Run (Res Bytes) :=
  (lookInfo Γ H e.deref).andThen fun _ =>
  (jencElemsS rec addr e fo vs).andThen fun bs => .pure (.ok (0x5b :: (joinComma bs ++ [0x5d])))

/-- `jencFields` -/
def jencFieldsS (addr : Bool) : List Field → List Val → Run (Res (List Bytes))
  | [], [] => .pure (.ok [])
  | f :: fs, v :: vs =>
    if f.visible then
      (lookInfo Γ H f.ty.deref).andThen fun _ =>
      if f.opts.omitEmpty && Γ.jsonEmpty f.ty v then jencFieldsS addr fs vs
      else
        (rec addr f.ty v f.opts).andThen fun b =>
        (jencFieldsS addr fs vs).andThen fun bs => .pure (.ok ((quoteStr f.opts.jsonName ++ 0x3a :: b) :: bs))
    else jencFieldsS addr fs vs
  | _, _ => .pure (.panic .illTyped)

/-- `jencEntry` -/
def jencEntryS (e : Ty) (fo : FOpts) (v : Val) : Run (Res Bytes) :=
  match derefVal e v with
  | none => rec false e v fo
  | some _ => (lookInfo Γ H e.deref).andThen fun _ => rec false e v fo

/-- `jencEntries` -/
def jencEntriesS (e : Ty) (fo : FOpts) : List (Bytes × Val) → Run (Res (List Bytes))
  | [] => .pure (.ok [])
  | (k, v) :: kvs =>
    (jencEntryS Γ H rec e fo v).andThen fun b =>
    (jencEntriesS e fo kvs).andThen fun bs => .pure (.ok ((quoteStr k ++ 0x3a :: b) :: bs))

/-- `jencShape` -/
def jencShapeS (addr : Bool) (id : TId) (v : Val) (fo : FOpts) : Run (Res Bytes) :=
  match Γ.shape id, v with
  | .iface, .nil => .pure (.ok jNull)
  | .iface, .iface t v => jencIfaceS Γ H rec t v fo
  | .slice _, .nil => .pure (.ok jNull)
  | .slice e, .bytes b => .pure (jencBytes Γ addr e b)
  | .array _ e, .bytes b => .pure (jencBytes Γ addr e b)
  | .slice e, .list vs => jencListS Γ H rec true e fo vs
  | .array _ e, .list vs => jencListS Γ H rec addr e fo vs
  | .struct fs, .struct vs =>
    (jencFieldsS Γ H rec addr fs vs).andThen fun bs => .pure (.ok (0x7b :: (joinComma bs ++ [0x7d])))
  | .map _, .nil => .pure (.ok [0x7b, 0x7d])
  | .map e, .map kvs =>
    (jencEntriesS Γ H rec e fo kvs).andThen fun bs => .pure (.ok (0x7b :: (joinComma bs ++ [0x7d])))
  | .int k, .int i => .pure (if k.bits = 64 then .ok (0x22 :: (intText i ++ [0x22])) else .ok (intText i))
  | .float32, .f32 b => .pure (if !fo.floatOk then .err .floatUnsafe else ofOpt .json (J.f32Text b))
  | .float64, .f64 b => .pure (if !fo.floatOk then .err .floatUnsafe else ofOpt .json (J.f64Text b))
  | .bool, .bool b => .pure (.ok (if b then jTrue else jFalse))
  | .string, .str s => .pure (.ok (quoteStr s))
  | .time, .time s ns => .pure (ofOpt .json (J.timeText s ns))
  | _, _ => .pure (.panic .illTyped)

/-- `jencBase` -/
def jencBaseS (addr : Bool) (id : TId) (v : Val) (fo : FOpts) : Run (Res Bytes) :=
  if Γ.shape id = .time then jencShapeS Γ H J rec addr id v fo
  else
    match J.marsh id addr with
    | some m => .pure (m v)
    | none =>
      match Γ.marsh id with
      | some (rid, m) =>
        (Run.pure (m v)).andThen fun r => (lookInfo Γ H rid).andThen fun _ => rec false (.base rid) r fo
      | none => jencShapeS Γ H J rec addr id v fo

end

/-- `jenc` -/
def jencS (J : JLib) : Nat → Bool → Ty → Val → FOpts → Run (Res Bytes)
  | 0, _, _, _, _ => .pure .oof
  | fuel + 1, addr, t, v, fo =>
    match derefVal t v with
    | none => .pure (.ok jNull)
    | some dv => jencBaseS Γ H J (jencS J fuel) (addr || t.isPtr) t.deref dv fo

/-- amino.go:495-528 `MarshalJSON`: the info is looked up once. -/
def marshalJSONS (J : JLib) (fuel : Nat) : Option (Ty × Val) → Run (Res Bytes)
  | none => .pure (.ok jNull)
  | some (t, v) =>
    (lookInfo Γ H t.deref).andThen fun oc =>
    (jencS Γ H J fuel false t v {}).andThen fun b =>
    match oc with
    | some ci => .pure (.ok (wrapText ci.name b))
    | none => .pure (.ok b)

/-! ## json-decode.go -/

section
variable (J : JLib) (rec : Ty → Val → FOpts → Bytes → Run (Res Val))

/-- What `jdecIface` does with the decoded concrete value. -/
def jifaceOut (id : TId) (ci : ConcInfo) : Res Val → Res Val
  | .ok v => if Γ.implements ci.dynTy id then .ok (.iface ci.dynTy (wrapTy ci.dynTy v)) else .panic .notAssignable
  | .err e => if Γ.implements ci.dynTy id then .err e else .panic .notAssignable
  | .panic p => .panic p
  | .oof => .oof

/-- `jdecIface` -/
def jdecIfaceS (id : TId) (fo : FOpts) (bz : Bytes) : Run (Res Val) :=
  (Run.pure (decodeInterfaceJSON bz)).andThen fun nd =>
  (lookName Γ H nd.1).andThen fun ci =>
  (rec (.base ci.tid) (Γ.zero ci.tid) fo nd.2).bind fun r => .pure (jifaceOut Γ id ci r)

/-- `jdecArr` -/
def jdecArrS (e : Ty) (fo : FOpts) : List Val → List Bytes → Run (Res (List Val))
  | p :: ps, b :: bs =>
    (rec e p fo b).andThen fun v => (jdecArrS e fo ps bs).andThen fun vs => .pure (.ok (v :: vs))
  | _, _ => .pure (.ok [])

/-- `jdecElems` -/
def jdecElemsS (e : Ty) (fo : FOpts) : List Bytes → Run (Res (List Val))
  | [] => .pure (.ok [])
  | b :: bs =>
    (rec e (Γ.zeroTy e) fo b).andThen fun v => (jdecElemsS e fo bs).andThen fun vs => .pure (.ok (v :: vs))

/-- `jdecField` -/
def jdecFieldS (fo : FOpts) (m : List (Bytes × Bytes)) (f : Field) (p : Val) : Run (Res Val) :=
  match m.lookup f.opts.jsonName with
  | none => .pure (.ok (if f.opts.omitEmpty then p else Γ.zeroTy f.ty))
  | some b => if b = [] then .pure (.ok (if f.opts.omitEmpty then p else Γ.zeroTy f.ty)) else rec f.ty p fo b

/-- `jdecFields` -/
def jdecFieldsS (fo : FOpts) (m : List (Bytes × Bytes)) : List Field → List Val → Run (Res (List Val))
  | [], [] => .pure (.ok [])
  | f :: fs, p :: ps =>
    if f.visible then
      (lookInfo Γ H f.ty.deref).andThen fun _ =>
      (jdecFieldS Γ rec fo m f p).andThen fun v =>
      (jdecFieldsS fo m fs ps).andThen fun vs => .pure (.ok (v :: vs))
    else (jdecFieldsS fo m fs ps).andThen fun vs => .pure (.ok (p :: vs))
  | _, _ => .pure (.panic .illTyped)

/-- `jdecEntries` -/
def jdecEntriesS (e : Ty) (fo : FOpts) : List (Bytes × Bytes) → Run (Res (List (Bytes × Val)))
  | [] => .pure (.ok [])
  | (k, b) :: kvs =>
    (rec e (Γ.zeroTy e) fo b).andThen fun v => (jdecEntriesS e fo kvs).andThen fun l => .pure (.ok ((k, v) :: l))

/-- `jdecShape` -/
def jdecShapeS (id : TId) (prior : Val) (fo : FOpts) (bz : Bytes) : Run (Res Val) :=
  match Γ.shape id with
  | .iface => jdecIfaceS Γ H rec id fo bz
  | .array n e =>
    if Γ.isByteKind e then .pure (jdecByteArr Γ n e bz)
    else
      (lookInfo Γ H e.deref).andThen fun _ =>
      (Run.pure (ofOpt .json (unmRaws bz))).andThen fun raws =>
      if raws.length ≠ n then .pure (.err .arrayLen)
      else
        match prior with
        | .list ps => (jdecArrS rec e fo ps raws).andThen fun vs => .pure (.ok (.list vs))
        | _ => .pure (.panic .illTyped)
  | .slice e =>
    if Γ.isByteKind e then
      .pure ((ofOpt .json (unmBytes (oldBytes prior) bz)).bind fun b => .ok (if b.isEmpty then Γ.zero id else .bytes b))
    else
      (lookInfo Γ H e.deref).andThen fun _ =>
      (Run.pure (ofOpt .json (unmRaws bz))).andThen fun raws =>
      if raws.length = 0 then .pure (.ok (Γ.zero id))
      else (jdecElemsS Γ rec e fo raws).andThen fun vs => .pure (.ok (.list vs))
  | .struct fs =>
    (Run.pure (ofOpt .json (unmRawMap bz))).andThen fun m =>
    match prior with
    | .struct ps => (jdecFieldsS Γ H rec fo m fs ps).andThen fun vs => .pure (.ok (.struct vs))
    | _ => .pure (.panic .illTyped)
  | .map e =>
    (Run.pure (ofOpt .json (unmRawMap bz))).andThen fun m =>
    (lookInfo Γ H e.deref).andThen fun _ =>
    (jdecEntriesS Γ rec e fo m).andThen fun l => .pure (.ok (.map l))
  | .int k => .pure (jdecInt k bz)
  | .float32 =>
    .pure (if !fo.floatOk then .err .floatUnsafe else (ofOpt .json (unmFloat J.f32Parse 0 bz)).bind fun b => .ok (.f32 b))
  | .float64 =>
    .pure (if !fo.floatOk then .err .floatUnsafe else (ofOpt .json (unmFloat J.f64Parse 0 bz)).bind fun b => .ok (.f64 b))
  | .bool => .pure ((ofOpt .json (unmBool false bz)).bind fun b => .ok (.bool b))
  | .string => .pure ((ofOpt .json (unmStr [] bz)).bind fun s => .ok (.str s))
  | .time =>
    .pure (if 2 ≤ bz.length ∧ bz.head? = some 0x22 ∧ bz.getLast? = some 0x22 then
      if bz[bz.length - 2]? ≠ some 0x5a then .err .json
      else (ofOpt .json (J.timeParse bz)).bind fun p => .ok (.time p.1 p.2)
    else .err .json)

/-- `jdecBase` -/
def jdecBaseS (id : TId) (prior : Val) (fo : FOpts) (bz : Bytes) : Run (Res Val) :=
  if Γ.shape id = .time then jdecShapeS Γ H J rec id prior fo bz
  else
    match J.unmarsh id with
    | some um => .pure (um prior bz)
    | none =>
      match Γ.unmarsh id with
      | some (rid, um) =>
        (lookInfo Γ H rid).andThen fun _ =>
        (rec (.base rid) (Γ.zero rid) fo bz).andThen fun r => .pure (um prior r)
      | none => jdecShapeS Γ H J rec id prior fo bz

end

/-- `jdec` -/
def jdecS (J : JLib) : Nat → Ty → Val → FOpts → Bytes → Run (Res Val)
  | 0, _, _, _, _ => .pure .oof
  | fuel + 1, t, prior, fo, bz =>
    if Γ.isIface t.deref && t.isPtr then .pure (.panic .ifacePtr)
    else if bz = jNull then .pure (.ok (Γ.zeroTy t))
    else
      (jdecBaseS Γ H J (jdecS J fuel) t.deref (Γ.derefPrior t prior) fo bz).andThen fun v => .pure (.ok (wrapTy t v))

/-- amino.go:539-568 `UnmarshalJSON`: the info is looked up once. -/
def unmarshalJSONS (J : JLib) (fuel : Nat) (t : Ty) (prior : Val) (bz : Bytes) : Run (Res Val) :=
  if bz = [] then .pure (.err .emptyInput)
  else
    (lookInfo Γ H t.deref).andThen fun
    | some ci =>
      (Run.pure (decodeInterfaceJSON bz)).andThen fun nd =>
      if nd.1 ≠ ci.name then .pure (.err .prefixMismatch)
      else jdecS Γ H J fuel t prior {} nd.2
    | none => jdecS Γ H J fuel t prior {} bz

end

end Amino
