import Verif.AminoApi

/-!
# The binary decoder on memory

`dec` in `BinDecode.lean` works on trees: the target variable is its old content, and the result the new one.  Here the
decoder works in place, as the Go code does: memory is a list of variables, a location is a variable and a path of field and
element indices, and values contain references.  So targets with shared or even cyclic pointers are covered, and what is left
in memory after errors and panics too.

Simplifications: there are no locations for the bytes of a byte array, inside of maps, or inside of interface values (these
cannot be addressed in Go).
-/

namespace Amino

/-- A variable, field or array element: the number of the variable, and the indices that lead to its part. -/
structure Loc where
  addr : Nat
  path : List Nat := []
  deriving DecidableEq, Repr

/-- Part `i` of a struct or array. -/
def Loc.sub (l : Loc) (i : Nat) : Loc := ⟨l.addr, l.path ++ [i]⟩

/-- A Go value with references.  `prim` is a bool, number, string, `time.Time` or byte array.  `nil` is the nil pointer,
slice, map or interface.  `slice a off len` is a window of the backing array, which is variable `a` (a byte array for byte
slices).  `map a` is a map with its values in variable `a`. -/
inductive MVal
  | prim (v : Val)
  | nil
  | ptr (l : Loc)
  | slice (a off len : Nat)
  | map (a : Nat)
  | arr (vs : List MVal)
  | struct (vs : List MVal)
  | iface (t : Ty) (v : MVal)
  deriving Repr

/-- The parts of a struct or array. -/
def MVal.parts : MVal → List MVal
  | .arr vs => vs
  | .struct vs => vs
  | _ => []

/-- The same struct or array with other parts. -/
def MVal.withParts : MVal → List MVal → MVal
  | .arr _, ws => .arr ws
  | .struct _, ws => .struct ws
  | v, _ => v

/-- `v.Field(i)`, `v.Index(i)` along a path. -/
def MVal.part : List Nat → MVal → Option MVal
  | [], v => some v
  | i :: p, v => v.parts[i]?.bind (MVal.part p)

/-- Setting a part; without effect if there is no such part. -/
def MVal.setPart (w : MVal) : List Nat → MVal → MVal
  | [], _ => w
  | i :: p, v =>
    match v.parts[i]? with
    | some u => v.withParts (v.parts.set i (MVal.setPart w p u))
    | none => v

/-- All variables. -/
abbrev Mem := List MVal

def Mem.get (h : Mem) (l : Loc) : Option MVal := h[l.addr]?.bind (MVal.part l.path)

/-- `rv.Set`. -/
def Mem.put (h : Mem) (l : Loc) (w : MVal) : Mem :=
  match h[l.addr]? with
  | some v => h.set l.addr (MVal.setPart w l.path v)
  | none => h

/-- The outcome of a call, and the memory afterwards. -/
abbrev MRes (α : Type) := DRes α × Mem

/-- `DRes.andSlide` with memory. -/
def MRes.andSlide {α β : Type} (r : MRes α) (bz : Bytes) (n : Nat) (k : α → Bytes → Nat → Mem → MRes β) : MRes β :=
  match r with
  | (.ok m a, h) => if m ≤ bz.length then k a (bz.drop m) (n + m) h else (.panic .slide, h)
  | (.err m e, h) => if m ≤ bz.length then (.err (n + m) e, h) else (.panic .slide, h)
  | (.panic p, h) => (.panic p, h)
  | (.oof, h) => (.oof, h)

def MRes.map {α β : Type} (f : α → β) (r : MRes α) : MRes β := (r.1.map f, r.2)

/-- A computation that does not touch the memory, and what is done with its result. -/
def onMem {α β : Type} (r : DRes α) (h : Mem) (k : Nat → α → MRes β) : MRes β :=
  match r with
  | .ok n a => k n a
  | .err n e => (.err n e, h)
  | .panic p => (.panic p, h)
  | .oof => (.oof, h)

mutual
/-- A zero value in memory: it has no references. -/
def ofZero : Val → MVal
  | .list vs => .arr (ofZeros vs)
  | .struct vs => .struct (ofZeros vs)
  | .nil => .nil
  | .ptr _ => .nil
  | .iface _ _ => .nil
  | .map _ => .nil
  | v => .prim v
def ofZeros : List Val → List MVal
  | [] => []
  | v :: vs => ofZero v :: ofZeros vs
end

/-- The program, with the effect of the methods `UnmarshalAmino` on memory: given the representation and the location of the
receiver. -/
structure MProg extends Prog where
  unmarshM : TId → MVal → Loc → Mem → Res Unit × Mem

section
variable (Γ : MProg)

/-- `reflect.Zero`, `reflect.New(t).Elem()`. -/
def zeroM (t : Ty) : MVal := ofZero (Γ.zeroTy t)

/-- reflect.go:140-149: pointers to a new variable with 1970. -/
def newTime : Ty → Mem → MVal × Mem
  | .base _, h => (.prim (.time 0 0), h)
  | .ptr t, h =>
    let r := newTime t h
    (.ptr ⟨r.2.length, []⟩, r.2 ++ [r.1])

/-- reflect.go:130-164 `defaultValue`. -/
def defaultM (t : Ty) (h : Mem) : MVal × Mem :=
  match Γ.shape t.deref with
  | .time => newTime t h
  | _ => (zeroM Γ t, h)

/-- `rv.Set(defaultValue(rv.Type()))`. -/
def putDefault (t : Ty) (l : Loc) (h : Mem) : Mem :=
  let r := defaultM Γ t h
  r.2.put l r.1

/-- reflect.go:64-75 `derefPointers`. -/
def derefM (h : Mem) : Ty → MVal → Option MVal
  | .base _, v => some v
  | .ptr t, .ptr l => (h.get l).bind (derefM h t)
  | .ptr _, _ => none

/-- reflect.go:105-126 `isDefaultValue`, the boolean. -/
def isDefaultM (h : Mem) (t : Ty) (v : MVal) : Bool :=
  match derefM h t v with
  | none => true
  | some dv =>
    match Γ.shape t.deref, dv with
    | .int _, .prim (.int i) => i == 0
    | .string, .prim (.str b) => b.isEmpty
    | .slice _, .nil => true
    | .slice _, .slice _ _ len => len == 0
    | .map _, .nil => true
    | .map _, .map a => match h[a]? with | some w => w.parts.isEmpty | none => false
    | .iface, .nil => true
    | _, _ => false

/-- binary-decode.go:52-60: "Dereference-and-construct pointers all the way". -/
def chase : Ty → Loc → Mem → (Loc → Mem → MRes Unit) → MRes Unit
  | .base _, l, h, k => k l h
  | .ptr t, l, h, k =>
    match h.get l with
    | some (.ptr l') => chase t l' h k
    | some .nil => chase t ⟨h.length, []⟩ (Mem.put (h ++ [zeroM Γ t]) l (.ptr ⟨h.length, []⟩)) k
    | _ => (.panic .illTyped, h)

variable (c : Codec) (rec : Ty → Loc → FOpts → Bool → Bytes → Mem → MRes Unit)

/-- The prologue for `!bare` (binary-decode.go:334-347 and alike). -/
def unframeM {α : Type} (bare : Bool) (bz : Bytes) (h : Mem) (k : Bytes → Nat → MRes α) : MRes α :=
  if bare then k bz 0
  else
    match decodeByteSlice bz with
    | .ok m buf => if m ≤ bz.length then k buf (uvarintSize (UInt64.ofNat buf.length)) else (.panic .slide, h)
    | .err m e => if m ≤ bz.length then (.err 0 e, h) else (.panic .slide, h)
    | .panic p => (.panic p, h)
    | .oof => (.oof, h)

def infoThenM {α : Type} (id : TId) (n : Nat) (h : Mem) (k : MRes α) : MRes α :=
  match getInfo Γ.toProg c id with
  | .ok _ => k
  | .err e => (.err n e, h)
  | .panic p => (.panic p, h)
  | .oof => (.oof, h)

def slideThenM {α : Type} (m : Nat) (bz : Bytes) (n : Nat) (h : Mem) (k : Bytes → Nat → MRes α) : MRes α :=
  if m ≤ bz.length then k (bz.drop m) (n + m) else (.panic .slide, h)

/-- The value of a variable; `none` does not occur for variables that exist. -/
def valueAt (h : Mem) (l : Loc) : MVal := (h.get l).getD .nil

/-- binary-decode.go:671-697: packed slice elements, each decoded into a new variable and appended. -/
def mPackedSlice (e : Ty) (fo : FOpts) : Nat → Bytes → Nat → Mem → MRes (List MVal)
  | _, [], n, h => (.ok n [], h)
  | 0, _ :: _, _, h => (.oof, h)
  | k + 1, bz, n, h =>
    let l : Loc := ⟨h.length, []⟩
    (rec e l fo false bz (h ++ [zeroM Γ e])).andSlide bz n fun _ bz n h =>
    let v := valueAt h l
    let v := if e.isPtr && isDefaultM Γ h e v then .nil else v
    (mPackedSlice e fo k bz n h).map fun vs => v :: vs

/-- binary-decode.go:698-756: unpacked slice elements. -/
def mUnpackedSlice (e : Ty) (fo : FOpts) : Nat → Bytes → Nat → Mem → MRes (List MVal)
  | _, [], n, h => (.ok n [], h)
  | 0, _ :: _, _, h => (.oof, h)
  | k + 1, bz, n, h =>
    match decodeKey bz with
    | .panic p => (.panic p, h)
    | .oof => (.oof, h)
    | .err _ _ => (.err n .fieldNum, h)
    | .ok m (fnum, typ) =>
      if fnum < fo.fnum then (.err n .fieldNum, h)
      else if fnum > fo.fnum then (.ok n [], h)
      else if typ ≠ typ3ByteLength then (.err n .fieldTyp, h)
      else slideThenM m bz n h fun bz n =>
        let l : Loc := ⟨h.length, []⟩
        let h := h ++ [zeroM Γ e]
        if bz.head? = some 0 ∧ ¬ ((e.isPtr && Γ.isStruct e.deref) && fo.emptyElements) then
          slideThenM 1 bz n h fun bz n =>
          let h := putDefault Γ e l h
          let v := valueAt h l
          (mUnpackedSlice e fo k bz n h).map fun vs => v :: vs
        else
          (rec e l { fo with fnum := 1 } false bz h).andSlide bz n fun _ bz n h =>
          let v := valueAt h l
          (mUnpackedSlice e fo k bz n h).map fun vs => v :: vs

/-- binary-decode.go:632-761 `decodeReflectBinarySlice`: `rv` is set to a new slice. -/
def mSlice (e : Ty) (l : Loc) (fo : FOpts) (bare : Bool) (bz : Bytes) (h : Mem) : MRes Unit :=
  infoThenM Γ c e.deref 0 h <|
  unframeM bare bz h fun bz n =>
  let r := if Γ.typ3 e.deref fo ≠ typ3ByteLength then mPackedSlice Γ rec e fo bz.length bz n h
    else mUnpackedSlice Γ rec e fo bz.length bz n h
  match r with
  | (.ok n vs, h) =>
    if vs.isEmpty then (.ok n (), h.put l .nil)
    else (.ok n (), Mem.put (h ++ [.arr vs]) l (.slice h.length 0 vs.length))
  | (.err n e, h) => (.err n e, h)
  | (.panic p, h) => (.panic p, h)
  | (.oof, h) => (.oof, h)

/-- binary-decode.go:500-526: packed array elements in place; `i` is the index, the first argument the number of elements
left. -/
def mPackedArr (e : Ty) (l : Loc) (fo : FOpts) : Nat → Nat → Bytes → Nat → Mem → MRes Unit
  | 0, _, bz, n, h => if bz.length > 0 then (.err n .leftover, h) else (.ok n (), h)
  | k + 1, i, bz, n, h =>
    (rec e (l.sub i) fo false bz h).andSlide bz n fun _ bz n h =>
    let h := if e.isPtr && isDefaultM Γ h e (valueAt h (l.sub i)) then h.put (l.sub i) .nil else h
    mPackedArr e l fo k (i + 1) bz n h

/-- binary-decode.go:527-586: unpacked array elements in place. -/
def mUnpackedArr (e : Ty) (l : Loc) (fo : FOpts) : Nat → Nat → Bytes → Nat → Mem → MRes Unit
  | 0, _, bz, n, h =>
    if bz.length > 0 then
      match decodeKey bz with
      | .panic p => (.panic p, h)
      | .oof => (.oof, h)
      | .err _ e => (.err n e, h)
      | .ok _ (fnum, _) => if fnum ≤ fo.fnum then (.err n .fieldNum, h) else (.ok n (), h)
    else (.ok n (), h)
  | k + 1, i, bz, n, h =>
    match decodeKey bz with
    | .panic p => (.panic p, h)
    | .oof => (.oof, h)
    | .err _ _ => (.err n .fieldNum, h)
    | .ok m (fnum, typ) =>
      if fnum ≠ fo.fnum then (.err n .fieldNum, h)
      else if typ ≠ typ3ByteLength then (.err n .fieldTyp, h)
      else slideThenM m bz n h fun bz n =>
        if bz.head? = some 0 ∧ ¬ ((e.isPtr && Γ.isStruct e.deref) && fo.emptyElements) then
          slideThenM 1 bz n h fun bz n => mUnpackedArr e l fo k (i + 1) bz n (putDefault Γ e (l.sub i) h)
        else
          (rec e (l.sub i) { fo with fnum := 1 } false bz h).andSlide bz n fun _ bz n h =>
          mUnpackedArr e l fo k (i + 1) bz n h

/-- binary-decode.go:459-588 `decodeReflectBinaryArray`. -/
def mArray (len : Nat) (e : Ty) (l : Loc) (fo : FOpts) (bare : Bool) (bz : Bytes) (h : Mem) : MRes Unit :=
  infoThenM Γ c e.deref 0 h <|
  unframeM bare bz h fun bz n =>
  if Γ.typ3 e.deref fo ≠ typ3ByteLength then mPackedArr Γ rec e l fo len 0 bz n h
  else mUnpackedArr Γ rec e l fo len 0 bz n h

/-- binary-decode.go:795-894: the fields in place (`i` is the index of the field, `num` the number of the last visible one),
then the unknown trailing fields. -/
def mFields (l : Loc) : List Field → Nat → Nat → Nat → Bytes → Nat → Mem → MRes Unit
  | [], _, _, last, bz, n, h => (consumeRest bz.length last bz n, h)
  | f :: fs, i, num, last, bz, n, h =>
    if !f.visible then mFields l fs (i + 1) num last bz n h
    else
      infoThenM Γ c f.ty.deref n h <|
      if bz.length = 0 then mFields l fs (i + 1) (num + 1) last bz n (putDefault Γ f.ty (l.sub i) h)
      else if Γ.unpackedList f then
        (rec f.ty (l.sub i) { f.opts with fnum := num + 1 } true bz h).andSlide bz n fun _ bz n h =>
        mFields l fs (i + 1) (num + 1) last bz n h
      else
        match decodeKey bz with
        | .panic p => (.panic p, h)
        | .oof => (.oof, h)
        | .err _ _ => (.err n .fieldOrder, h)
        | .ok m (fnum, typ) =>
          if num + 1 < fnum then mFields l fs (i + 1) (num + 1) last bz n (putDefault Γ f.ty (l.sub i) h)
          else if fnum ≤ last then (.err n .fieldOrder, h)
          else slideThenM m bz n h fun bz n =>
            if num + 1 ≠ fnum then (.err n .fieldNum, h)
            else if typ ≠ Γ.typ3 f.ty.deref { f.opts with fnum := num + 1 } then (.err n .fieldTyp, h)
            else
              (rec f.ty (l.sub i) { f.opts with fnum := num + 1 } false bz h).andSlide bz n fun _ bz n h =>
              mFields l fs (i + 1) (num + 1) fnum bz n h

/-- binary-decode.go:371-396, see `concKey`. -/
def concKeyM (cid : TId) (fo : FOpts) (bz : Bytes) (n : Nat) (h : Mem) (k : Bytes → Nat → MRes Unit) : MRes Unit :=
  if !Γ.structOrRep cid && bz.length > 0 && !Γ.isIface cid
      && Γ.isKnown cid && fo.fnum == 1 then
    match decodeKey bz with
    | .panic p => (.panic p, h)
    | .oof => (.oof, h)
    | .err _ e => (.err n e, h)
    | .ok m (fnum, typ) =>
      if fnum ≠ 1 then (.err n .fieldNum, h)
      else if typ ≠ Γ.typ3 cid {} then (.err n .fieldTyp, h)
      else slideThenM m bz n h k
  else k bz n

/-- The interface value made from the new variable `l`: reflect.go:178-190 `constructConcreteType`. -/
def ifaceOf (ci : ConcInfo) (l : Loc) (h : Mem) : MVal :=
  .iface ci.dynTy (if ci.ptrPref then .ptr l else valueAt h l)

/-- binary-decode.go:314-418 `decodeReflectBinaryInterface`: the contents are decoded into a new variable, and `rv` is set also
when that fails (line 401). -/
def mIface (id : TId) (l : Loc) (fo : FOpts) (bare : Bool) (bz : Bytes) (h : Mem) : MRes Unit :=
  match h.get l with
  | some .nil =>
    match c.iface? id with
    | none => (.err 0 .unregisteredIface, h)
    | some ii =>
      unframeM bare bz h fun bz n =>
      MRes.andSlide (decodeDisambPrefix bz, h) bz n fun dp bz n h =>
      match lookupConc c ii dp with
      | .error e => (.err n e, h)
      | .ok ci =>
        let v : Loc := ⟨h.length, []⟩
        let h := h ++ [zeroM Γ (.base ci.tid)]
        concKeyM Γ ci.tid fo bz n h fun bz n =>
        match rec (.base ci.tid) v fo true bz h with
        | (.ok m _, h) =>
          if m ≤ bz.length then
            if (bz.drop m).length > 0 then (.err (n + m) .leftover, h)
            else if Γ.implements ci.dynTy id then (.ok (n + m) (), h.put l (ifaceOf ci v h))
            else (.panic .notAssignable, h)
          else (.panic .slide, h)
        | (.err m e, h) =>
          if m ≤ bz.length then
            if Γ.implements ci.dynTy id then (.err (n + m) e, h.put l (ifaceOf ci v h)) else (.panic .notAssignable, h)
          else (.panic .slide, h)
        | (.panic p, h) => (.panic p, h)
        | (.oof, h) => (.oof, h)
  | _ => (.err 0 .nonNilIface, h)

/-- decoder.go:295-296, binary-decode.go:611-627: the bytes are copied to a new array. -/
def mByteSlice (e : Ty) (l : Loc) (bz : Bytes) (h : Mem) : MRes Unit :=
  if bz.length = 0 then (.ok 0 (), h.put l .nil)
  else
    MRes.andSlide (decodeByteSlice bz, h) bz 0 fun b _ n h =>
    if b.length = 0 then (.ok n (), h.put l .nil)
    else if e = .base Γ.byteId then (.ok n (), Mem.put (h ++ [.prim (.bytes b)]) l (.slice h.length 0 b.length))
    else (.panic .notAssignable, h)

/-- binary-decode.go:83-311: the switch on the kind. -/
def mShape (id : TId) (l : Loc) (fo : FOpts) (bare : Bool) (bz : Bytes) (h : Mem) : MRes Unit :=
  match Γ.shape id with
  | .iface => mIface Γ c rec id l fo bare bz h
  | .array len e =>
    if Γ.isByteKind e then onMem (decByteArray Γ.toProg len e bz) h fun n v => (.ok n (), h.put l (.prim v))
    else mArray Γ c rec len e l fo bare bz h
  | .slice e =>
    if Γ.isByteKind e then mByteSlice Γ e l bz h else mSlice Γ c rec e l fo bare bz h
  | .struct fs => unframeM bare bz h fun bz n => mFields Γ c rec l fs 0 0 0 bz n h
  | .time =>
    unframeM bare bz h fun bz n =>
    MRes.andSlide (decodeTime bz, h) bz n fun t _ n h => (.ok n (), h.put l (.prim (.time t.1 t.2)))
  | .int k => onMem (decInt k fo bz) h fun n i => (.ok n (), h.put l (.prim (.int i)))
  | .bool => MRes.andSlide (decodeBool bz, h) bz 0 fun b _ n h => (.ok n (), h.put l (.prim (.bool b)))
  | .float64 =>
    if !fo.floatOk then (.err 0 .floatUnsafe, h)
    else MRes.andSlide (decodeUint64 bz, h) bz 0 fun b _ n h => (.ok n (), h.put l (.prim (.f64 b)))
  | .float32 =>
    if !fo.floatOk then (.err 0 .floatUnsafe, h)
    else MRes.andSlide (decodeUint32 bz, h) bz 0 fun b _ n h => (.ok n (), h.put l (.prim (.f32 b)))
  | .string => MRes.andSlide (decodeString bz, h) bz 0 fun s _ n h => (.ok n (), h.put l (.prim (.str s)))
  | .map _ => (.panic .unsupported, h)

/-- binary-decode.go:62-82: the override by UnmarshalAmino. -/
def mBase (id : TId) (fo : FOpts) (bare : Bool) (bz : Bytes) (l : Loc) (h : Mem) : MRes Unit :=
  match Γ.unmarsh id with
  | some (rid, _) =>
    infoThenM Γ c rid 0 h <|
    let rl : Loc := ⟨h.length, []⟩
    (rec (.base rid) rl fo bare bz (h ++ [zeroM Γ (.base rid)])).andSlide bz 0 fun _ _ n h =>
    match Γ.unmarshM id (valueAt h rl) l h with
    | (.ok _, h) => (.ok n (), h)
    | (.err e, h) => (.err n e, h)
    | (.panic p, h) => (.panic p, h)
    | (.oof, h) => (.oof, h)
  | none => mShape Γ c rec id l fo bare bz h

/-- binary-decode.go:31-311 `decodeReflectBinary`. -/
def mBody (t : Ty) (l : Loc) (fo : FOpts) (bare : Bool) (bz : Bytes) (h : Mem) : MRes Unit :=
  if t.isPtr && Γ.isIface t.deref then (.panic .ifacePtr, h)
  else chase Γ t l h (mBase Γ c rec t.deref fo bare bz)

end

/-- `cdc.decodeReflectBinary(bz, info, rv, fopts, bare)` with `rv` at location `l`. -/
def mdec (Γ : MProg) (c : Codec) : Nat → Ty → Loc → FOpts → Bool → Bytes → Mem → MRes Unit
  | 0, _, _, _, _, _, h => (.oof, h)
  | f + 1, t, l, fo, bare, bz, h => mBody Γ c (mdec Γ c f) t l fo bare bz h

section
variable (Γ : MProg) (c : Codec) (fuel : Nat)

/-- amino.go:423-444: decode the contents and insist that everything was read. -/
def mDecodeAll (t : Ty) (l : Loc) (bare : Bool) (bz : Bytes) (h : Mem) : Res Unit × Mem :=
  match mdec Γ c fuel t l { fnum := 1 } bare bz h with
  | (.ok n _, h) => (if n ≠ bz.length then .err .leftover else .ok (), h)
  | (.err _ e, h) => (.err e, h)
  | (.panic p, h) => (.panic p, h)
  | (.oof, h) => (.oof, h)

/-- amino.go:392-444: the part of UnmarshalBinaryBare after the prefix bytes. -/
def mContents (t : Ty) (l : Loc) (bz : Bytes) (h : Mem) : Res Unit × Mem :=
  if Γ.structOrRep t.deref then mDecodeAll Γ c fuel t l true bz h
  else if t.isPtr && (derefM h t (valueAt h l)).isSome && Γ.isListKind (.base t.deref) then (.panic .illTyped, h)
  else if bz.length > 0 && !(!t.isPtr && Γ.isIface t.deref) && Γ.isKnown t.deref then
    match decodeKey bz with
    | .err _ e => (.err e, h)
    | .panic p => (.panic p, h)
    | .oof => (.oof, h)
    | .ok m (fnum, typ) =>
      if fnum ≠ 1 then (.err .fieldNum, h)
      else if typ ≠ Γ.typ3 t.deref {} then (.err .fieldTyp, h)
      else if m ≤ bz.length then
        mDecodeAll Γ c fuel t l (Γ.typ3 t.deref {} != typ3ByteLength) (bz.drop m) h
      else (.panic .slide, h)
  else mDecodeAll Γ c fuel t l true bz h

/-- amino.go:361-445 `UnmarshalBinaryBare(bz, ptr)` where `ptr` is the address of location `l` of type `t`. -/
def mUnmarshalBare (t : Ty) (l : Loc) (bz : Bytes) (h : Mem) : Res Unit × Mem :=
  match (getInfo Γ.toProg c t.deref).bind fun _ => stripPrefix c t.deref bz with
  | .ok bz => mContents Γ c fuel t l bz h
  | .err e => (.err e, h)
  | .panic p => (.panic p, h)
  | .oof => (.oof, h)

end

end Amino
