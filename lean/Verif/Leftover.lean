import Verif.AminoApi

/-!
# What the variable holds after a call of Unmarshal

`left Γ c spoil fuel t prior fo bare bz` is the contents of `rv` when
`cdc.decodeReflectBinary(bz, info, rv, fopts, bare)` (modelled by `dec`) returns, with or without an error.
Values are trees: that a pointed-to variable may be shared with other variables is not modelled.  The contents
after a panic are not meant to be used.  `spoil id p r` is what a failing `UnmarshalAmino` of type `id`, called
on a receiver holding `p` with the representation `r`, leaves in the receiver.
-/

namespace Amino

/-- The prologue for `!bare` (binary-decode.go:334-347 and alike): if the length or the bytes cannot be read, the
variable still holds `p`. -/
def leftFrame {α : Type} (bare : Bool) (bz : Bytes) (p : α) (k : Bytes → α) : α :=
  if bare then k bz
  else
    match decodeByteSlice bz with
    | .ok _ buf => k buf
    | _ => p

section
variable (Γ : Prog) (c : Codec) (spoil : TId → Val → Val → Val)
  (rec : Ty → Val → FOpts → Bool → Bytes → DRes Val) (lft : Ty → Val → FOpts → Bool → Bytes → Val)

/-- binary-decode.go:499-526: packed elements are decoded in place, up to the failing one. -/
def leftPackedArr (e : Ty) (fo : FOpts) : List Val → Bytes → List Val
  | [], _ => []
  | p :: ps, bz =>
    match rec e p fo false bz with
    | .ok m v => preferNil Γ e v :: leftPackedArr e fo ps (bz.drop m)
    | _ => lft e p fo false bz :: ps

/-- binary-decode.go:532-586: unpacked elements are decoded in place, up to the failing one. -/
def leftUnpackedArr (e : Ty) (fo : FOpts) : List Val → Bytes → List Val
  | [], _ => []
  | p :: ps, bz =>
    match decodeKey bz with
    | .ok m (fnum, typ) =>
      if fnum ≠ fo.fnum then p :: ps
      else if typ ≠ typ3ByteLength then p :: ps
      else if (bz.drop m).head? = some 0 ∧ ¬ ((e.isPtr && Γ.isStruct e.deref) && fo.emptyElements) then
        Γ.defaultValue e :: leftUnpackedArr e fo ps ((bz.drop m).drop 1)
      else
        match rec e p { fo with fnum := 1 } false (bz.drop m) with
        | .ok m' v => v :: leftUnpackedArr e fo ps ((bz.drop m).drop m')
        | _ => lft e p { fo with fnum := 1 } false (bz.drop m) :: ps
    | _ => p :: ps

/-- binary-decode.go:459-588 `decodeReflectBinaryArray`. -/
def leftArray (e : Ty) (prior : Val) (fo : FOpts) (bare : Bool) (bz : Bytes) : Val :=
  match getInfo Γ c e.deref with
  | .ok _ =>
    leftFrame bare bz prior fun bz =>
    match prior with
    | .list ps =>
      .list (if Γ.typ3 e.deref fo ≠ typ3ByteLength then leftPackedArr Γ rec lft e fo ps bz
        else leftUnpackedArr Γ rec lft e fo ps bz)
    | v => v
  | _ => prior

/-- binary-decode.go:795-867: the fields are decoded in place, up to the failing one.  The loop over the unknown
trailing fields (lines 871-894) changes nothing. -/
def leftFields : List Field → List Val → Nat → Nat → Bytes → List Val
  | f :: fs, p :: ps, num, last, bz =>
    if !f.visible then p :: leftFields fs ps num last bz
    else
      match getInfo Γ c f.ty.deref with
      | .ok _ =>
        if bz.length = 0 then Γ.defaultValue f.ty :: leftFields fs ps (num + 1) last bz
        else if Γ.unpackedList f then
          match rec f.ty p { f.opts with fnum := num + 1 } true bz with
          | .ok m v => v :: leftFields fs ps (num + 1) last (bz.drop m)
          | _ => lft f.ty p { f.opts with fnum := num + 1 } true bz :: ps
        else
          match decodeKey bz with
          | .ok m (fnum, typ) =>
            if num + 1 < fnum then Γ.defaultValue f.ty :: leftFields fs ps (num + 1) last bz
            else if fnum ≤ last then p :: ps
            else if num + 1 ≠ fnum then p :: ps
            else if typ ≠ Γ.typ3 f.ty.deref { f.opts with fnum := num + 1 } then p :: ps
            else
              match rec f.ty p { f.opts with fnum := num + 1 } false (bz.drop m) with
              | .ok m' v => v :: leftFields fs ps (num + 1) fnum ((bz.drop m).drop m')
              | _ => lft f.ty p { f.opts with fnum := num + 1 } false (bz.drop m) :: ps
          | _ => p :: ps
      | _ => p :: ps
  | _, ps, _, _, _ => ps

/-- binary-decode.go:371-396, see `concKey`. -/
def leftKey (cid : TId) (fo : FOpts) (bz : Bytes) (p : Val) (k : Bytes → Val) : Val :=
  if !Γ.structOrRep cid && bz.length > 0 && !Γ.isIface cid && Γ.isKnown cid && fo.fnum == 1 then
    match decodeKey bz with
    | .ok m (fnum, typ) =>
      if fnum ≠ 1 then p
      else if typ ≠ Γ.typ3 cid {} then p
      else k (bz.drop m)
    | _ => p
  else k bz

/-- binary-decode.go:314-418 `decodeReflectBinaryInterface`.  If the concrete value cannot be decoded, the
interface is set to what has been read of it ("Helps with debugging", line 401); with bytes left over it stays
nil. -/
def leftIface (id : TId) (prior : Val) (fo : FOpts) (bare : Bool) (bz : Bytes) : Val :=
  match prior with
  | .nil =>
    match c.iface? id with
    | none => .nil
    | some ii =>
      leftFrame bare bz .nil fun bz =>
      match decodeDisambPrefix bz with
      | .ok m dp =>
        match lookupConc c ii dp with
        | .error _ => .nil
        | .ok ci =>
          leftKey Γ ci.tid fo (bz.drop m) .nil fun bz =>
          match rec (.base ci.tid) (Γ.zero ci.tid) fo true bz with
          | .ok m v =>
            if (bz.drop m).length > 0 then .nil
            else if Γ.implements ci.dynTy id then .iface ci.dynTy (wrapTy ci.dynTy v) else .nil
          | .err _ _ =>
            if Γ.implements ci.dynTy id then
              .iface ci.dynTy (wrapTy ci.dynTy (lft (.base ci.tid) (Γ.zero ci.tid) fo true bz))
            else .nil
          | _ => .nil
      | _ => .nil
  | v => v

/-- binary-decode.go:83-311: the switch on the kind.  Numbers, strings, times, slices and byte arrays are set in
one step, after everything has been read. -/
def leftShape (id : TId) (prior : Val) (fo : FOpts) (bare : Bool) (bz : Bytes) : Val :=
  match Γ.shape id with
  | .iface => leftIface Γ c rec lft id prior fo bare bz
  | .array _ e =>
    if Γ.isByteKind e then
      match decShape Γ c rec id prior fo bare bz with
      | .ok _ v => v
      | _ => prior
    else leftArray Γ c rec lft e prior fo bare bz
  | .struct fs =>
    leftFrame bare bz prior fun bz =>
    match prior with
    | .struct ps => .struct (leftFields Γ c rec lft fs ps 0 0 bz)
    | v => v
  | _ =>
    match decShape Γ c rec id prior fo bare bz with
    | .ok _ v => v
    | _ => prior

/-- binary-decode.go:31-311 `decodeReflectBinary`.  Nil pointers are replaced by pointers to new variables before
anything is read (lines 52-58). -/
def leftBody (t : Ty) (prior : Val) (fo : FOpts) (bare : Bool) (bz : Bytes) : Val :=
  if t.isPtr && Γ.isIface t.deref then prior
  else
    wrapTy t <|
    match Γ.unmarsh t.deref with
    | some (rid, um) =>
      match getInfo Γ c rid with
      | .ok _ =>
        match rec (.base rid) (Γ.zero rid) fo bare bz with
        | .ok _ r =>
          match um (Γ.derefPrior t prior) r with
          | .ok v => v
          | _ => spoil t.deref (Γ.derefPrior t prior) r
        | _ => Γ.derefPrior t prior
      | _ => Γ.derefPrior t prior
    | none => leftShape Γ c rec lft t.deref (Γ.derefPrior t prior) fo bare bz

end

section
variable (Γ : Prog) (c : Codec) (spoil : TId → Val → Val → Val)

/-- The variable after `decodeReflectBinary` with recursion depth at most the given one. -/
def left : Nat → Ty → Val → FOpts → Bool → Bytes → Val
  | 0, _, prior, _, _, _ => prior
  | f + 1, t, prior, fo, bare, bz => leftBody Γ c spoil (dec Γ c f) (left f) t prior fo bare bz

/-- amino.go:392-444: the part of UnmarshalBinaryBare after the prefix bytes.  That bytes are left over is only
noticed after the variable has been set. -/
def leftContents (fuel : Nat) (t : Ty) (prior : Val) (bz : Bytes) : Val :=
  if Γ.structOrRep t.deref then left Γ c spoil fuel t prior { fnum := 1 } true bz
  else if ptrToListPanics Γ t prior then prior
  else if bz.length > 0 && !(!t.isPtr && Γ.isIface t.deref) && Γ.isKnown t.deref then
    match decodeKey bz with
    | .ok m (fnum, typ) =>
      if fnum ≠ 1 then prior
      else if typ ≠ Γ.typ3 t.deref {} then prior
      else left Γ c spoil fuel t prior { fnum := 1 } (Γ.typ3 t.deref {} != typ3ByteLength) (bz.drop m)
    | _ => prior
  else left Γ c spoil fuel t prior { fnum := 1 } true bz

/-- amino.go:361-445 `UnmarshalBinaryBare` into a variable of type `t` holding `prior`: what the variable holds
afterwards. -/
def leftBare (fuel : Nat) (t : Ty) (prior : Val) (bz : Bytes) : Val :=
  match getInfo Γ c t.deref with
  | .ok _ =>
    match stripPrefix c t.deref bz with
    | .ok bz => leftContents Γ c spoil fuel t prior bz
    | _ => prior
  | _ => prior

end

end Amino
