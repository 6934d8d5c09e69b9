import Verif.MemDecode
import Verif.JsonDecode

/-!
# The JSON decoder on memory

As `jdec` in `JsonDecode.lean`, in place on memory (see `MemDecode.lean`).  The variable of a map holds its keys and values in
turn.

Simplifications: the capacity of a byte slice reaches to the end of its array, and the array made for a base64 text has no more
than the bytes read.  The elements of byte slices have no methods of their own.
-/

namespace Amino

/-- The library functions, with the methods `UnmarshalJSON` on memory: given the location of the receiver and the text. -/
structure MJLib extends JLib where
  unmarshJM : TId → Loc → Bytes → Mem → Res Unit × Mem

/-- The outcome of a call, and the memory afterwards. -/
abbrev JMRes (α : Type) := Res α × Mem

def JMRes.andThen {α β : Type} (r : JMRes α) (k : α → Mem → JMRes β) : JMRes β :=
  match r with
  | (.ok a, h) => k a h
  | (.err e, h) => (.err e, h)
  | (.panic p, h) => (.panic p, h)
  | (.oof, h) => (.oof, h)

/-- What variable `a` holds, if that is a byte array. -/
def bytesAt (h : Mem) (a : Nat) : Bytes :=
  match h[a]? with
  | some (.prim (.bytes b)) => b
  | _ => []

/-- One element of a JSON array read into a `uint8`: `some none` for `null`, which leaves the old contents, `none` for what is
not accepted. -/
def byteElem (e : Bytes) : Option (Option UInt8) :=
  if e = jNull then some none else (parseIntKind .uint8 e).map fun i => some (UInt8.ofNat i.toNat)

/-- encoding/json decode.go `array`, for a byte slice that begins at `off` in array `a`, from index `i` on: the elements are
written into the array of the slice, also behind the length of the slice.  Behind its capacity a new array is made (the length
is the capacity then, so everything is copied).  An element that is not accepted is left out and reported at the end.
Returns where the slice begins at last, and whether all elements were accepted. -/
def jByteElems : List Bytes → Nat → Nat → Nat → Mem → (Nat × Nat) × Bool × Mem
  | [], _, a, off, h => ((a, off), true, h)
  | e :: es, i, a, off, h =>
    let b := bytesAt h a
    let cap := b.length - off
    let grow := if i < cap then (a, off, h)
      else (h.length, 0, h ++ [.prim (.bytes (b.drop off ++ List.replicate (max 4 (cap + cap / 2) - cap) 0))])
    let h := match byteElem e with
      | some (some x) => grow.2.2.put ⟨grow.1, []⟩ (.prim (.bytes ((bytesAt grow.2.2 grow.1).set (grow.2.1 + i) x)))
      | _ => grow.2.2
    let r := jByteElems es (i + 1) grow.1 grow.2.1 h
    (r.1, (byteElem e).isSome && r.2.1, r.2.2)

/-- json-decode.go:310-324 with encoding/json decode.go (`array`, `literalStore`): a byte slice is read into the variable
itself.  The base64 text gives a new array, a JSON array is written over the old one.  (A nil slice has no array: it begins at a
variable that does not exist yet.) -/
def jByteSlice (l : Loc) (bz : Bytes) (h : Mem) : JMRes Unit :=
  let old : Option (Nat × Nat) := match h.get l with
    | some .nil => some (h.length, 0)
    | some (.slice a off _) => some (a, off)
    | _ => none
  match old, wholeVal bz with
  | none, _ => (.panic .illTyped, h)
  | _, none => (.err .json, h)
  | some (a, off), some raw =>
    if raw = jNull then (.ok (), h.put l .nil)
    else if raw.head? = some 0x22 then
      match (unquote raw).bind b64Dec with
      | none => (.err .json, h)
      | some b =>
        if b.isEmpty then (.ok (), h.put l .nil)
        else (.ok (), Mem.put (h ++ [.prim (.bytes b)]) l (.slice h.length 0 b.length))
    else if raw.head? = some 0x5b then
      match arrRest (skipVal raw.length) raw.tail with
      | none => (.err .json, h)
      | some (es, _) =>
        if es.isEmpty then (.ok (), h.put l .nil)
        else
          let r := jByteElems es 0 a off h
          (if r.2.1 then .ok () else .err .json, r.2.2.put l (.slice r.1.1 r.1.2 es.length))
    else (.err .json, h)

section
variable (Γ : MProg) (c : Codec) (J : MJLib) (rec : Ty → Loc → FOpts → Bytes → Mem → JMRes Unit)

/-- json-decode.go:41-50: "Dereference-and-construct pointers all the way". -/
def jChase : Ty → Loc → Mem → (Loc → Mem → JMRes Unit) → JMRes Unit
  | .base _, l, h, k => k l h
  | .ptr t, l, h, k =>
    match h.get l with
    | some (.ptr l') => jChase t l' h k
    | some .nil => jChase t ⟨h.length, []⟩ (Mem.put (h ++ [zeroM Γ t]) l (.ptr ⟨h.length, []⟩)) k
    | _ => (.panic .illTyped, h)

def jInfoThen {α : Type} (id : TId) (h : Mem) (k : JMRes α) : JMRes α :=
  match getInfo Γ.toProg c id with
  | .ok _ => k
  | .err e => (.err e, h)
  | .panic p => (.panic p, h)
  | .oof => (.oof, h)

/-- json-decode.go:173-234 `decodeReflectJSONInterface`: the interface is set to nil, the value decoded into a new variable, and
the interface set to it, also when that fails (line 224). -/
def jmIface (id : TId) (l : Loc) (fo : FOpts) (bz : Bytes) (h : Mem) : JMRes Unit :=
  JMRes.andThen (decodeInterfaceJSON bz, h.put l .nil) fun nd h =>
  match c.name? nd.1 with
  | none => (.err .unknownName, h)
  | some ci =>
    let v : Loc := ⟨h.length, []⟩
    match rec (.base ci.tid) v fo nd.2 (h ++ [zeroM Γ (.base ci.tid)]) with
    | (.ok _, h) => if Γ.implements ci.dynTy id then (.ok (), h.put l (ifaceOf ci v h)) else (.panic .notAssignable, h)
    | (.err e, h) => if Γ.implements ci.dynTy id then (.err e, h.put l (ifaceOf ci v h)) else (.panic .notAssignable, h)
    | (.panic p, h) => (.panic p, h)
    | (.oof, h) => (.oof, h)

/-- json-decode.go:283-290, 347-354: elements in place, from index `i` on. -/
def jmArr (e : Ty) (l : Loc) (fo : FOpts) : Nat → List Bytes → Mem → JMRes Unit
  | _, [], h => (.ok (), h)
  | i, b :: bs, h => (rec e (l.sub i) fo b h).andThen fun _ h => jmArr e l fo (i + 1) bs h

/-- json-decode.go:396-419: one field. -/
def jmField (fo : FOpts) (m : List (Bytes × Bytes)) (f : Field) (l : Loc) (h : Mem) : JMRes Unit :=
  let absent := (.ok (), if f.opts.omitEmpty then h else h.put l (zeroM Γ f.ty))
  match m.lookup f.opts.jsonName with
  | none => absent
  | some b => if b = [] then absent else rec f.ty l fo b h

/-- json-decode.go:386-422: the fields in place. -/
def jmFields (l : Loc) (fo : FOpts) (m : List (Bytes × Bytes)) : List Field → Nat → Mem → JMRes Unit
  | [], _, h => (.ok (), h)
  | f :: fs, i, h =>
    if f.visible then
      jInfoThen Γ c f.ty.deref h <|
      (jmField Γ rec fo m f (l.sub i) h).andThen fun _ h => jmFields l fo m fs (i + 1) h
    else jmFields l fo m fs (i + 1) h

/-- json-decode.go:458-474: the entries, each value in a new variable; see `jdecEntries` for the order. -/
def jmEntries (e : Ty) (fo : FOpts) : List (Bytes × Bytes) → Mem → JMRes (List MVal)
  | [], h => (.ok [], h)
  | (k, b) :: kvs, h =>
    let l : Loc := ⟨h.length, []⟩
    (rec e l fo b (h ++ [zeroM Γ e])).andThen fun _ h =>
    let v := valueAt h l
    (jmEntries e fo kvs h).andThen fun vs h => (.ok (.prim (.str k) :: v :: vs), h)

/-- json-decode.go:250-263: a byte array; the copy happens before the length error is returned. -/
def jmByteArr (n : Nat) (e : Ty) (l : Loc) (bz : Bytes) (h : Mem) : JMRes Unit :=
  match unmBytes [] bz with
  | none => (.err .json, h)
  | some b =>
    if e ≠ .base Γ.byteId then (.panic .illTyped, h)
    else
      match h.get l with
      | some (.prim (.bytes old)) =>
        (if b.length ≠ n then .err .arrayLen else .ok (), h.put l (.prim (.bytes ((b ++ old.drop b.length).take n))))
      | _ => (.panic .illTyped, h)

/-- json-decode.go:83-149: the switch on the kind.  For values without references and parts `jdecShape` is used: they are read
into a new variable and then set.  A time that is not accepted is set to the zero time (time.go `UnmarshalJSON`). -/
def jmShape (id : TId) (l : Loc) (fo : FOpts) (bz : Bytes) (h : Mem) : JMRes Unit :=
  match Γ.shape id with
  | .iface => jmIface Γ c rec id l fo bz h
  | .array n e =>
    if Γ.isByteKind e then jmByteArr Γ n e l bz h
    else
      jInfoThen Γ c e.deref h <|
      match unmRaws bz with
      | none => (.err .json, h)
      | some raws => if raws.length ≠ n then (.err .arrayLen, h) else jmArr rec e l fo 0 raws h
  | .slice e =>
    if Γ.isByteKind e then jByteSlice l bz h
    else
      jInfoThen Γ c e.deref h <|
      match unmRaws bz with
      | none => (.err .json, h)
      | some raws =>
        if raws.length = 0 then (.ok (), h.put l .nil)
        else
          let a := h.length
          (jmArr rec e ⟨a, []⟩ fo 0 raws (h ++ [.arr (List.replicate raws.length (zeroM Γ e))])).andThen fun _ h =>
          (.ok (), h.put l (.slice a 0 raws.length))
  | .struct fs =>
    match unmRawMap bz with
    | none => (.err .json, h)
    | some m => jmFields Γ c rec l fo m fs 0 h
  | .map e =>
    match unmRawMap bz with
    | none => (.err .json, h)
    | some m =>
      jInfoThen Γ c e.deref h <|
      (jmEntries Γ rec e fo m h).andThen fun kvs h => (.ok (), Mem.put (h ++ [.arr kvs]) l (.map h.length))
  | s =>
    match jdecShape Γ.toProg c J.toJLib (fun _ _ _ _ => .oof) id .nil fo bz with
    | .ok v => (.ok (), h.put l (.prim v))
    | .err e =>
      (.err e, if s = .time ∧ 2 ≤ bz.length ∧ bz.head? = some 0x22 ∧ bz.getLast? = some 0x22 ∧ bz[bz.length - 2]? = some 0x5a then
        h.put l (zeroM Γ (.base id)) else h)
    | .panic p => (.panic p, h)
    | .oof => (.oof, h)

/-- json-decode.go:52-81: times, UnmarshalJSON, UnmarshalAmino through the representation, or the kind. -/
def jmBase (id : TId) (fo : FOpts) (bz : Bytes) (l : Loc) (h : Mem) : JMRes Unit :=
  if Γ.shape id = .time then jmShape Γ c J rec id l fo bz h
  else
    match J.unmarsh id with
    | some _ => J.unmarshJM id l bz h
    | none =>
      match Γ.unmarsh id with
      | some (rid, _) =>
        jInfoThen Γ c rid h <|
        let rl : Loc := ⟨h.length, []⟩
        (rec (.base rid) rl fo bz (h ++ [zeroM Γ (.base rid)])).andThen fun _ h => Γ.unmarshM id (valueAt h rl) l h
      | none => jmShape Γ c J rec id l fo bz h

/-- json-decode.go:18-153 `decodeReflectJSON`. -/
def jmBody (t : Ty) (l : Loc) (fo : FOpts) (bz : Bytes) (h : Mem) : JMRes Unit :=
  if Γ.isIface t.deref && t.isPtr then (.panic .ifacePtr, h)
  else if bz = jNull then (.ok (), h.put l (zeroM Γ t))
  else jChase Γ t l h (jmBase Γ c J rec t.deref fo bz)

end

/-- `cdc.decodeReflectJSON(bz, info, rv, fopts)` with `rv` at location `l`. -/
def jmdec (Γ : MProg) (c : Codec) (J : MJLib) : Nat → Ty → Loc → FOpts → Bytes → Mem → JMRes Unit
  | 0, _, _, _, _, h => (.oof, h)
  | f + 1, t, l, fo, bz, h => jmBody Γ c J (jmdec Γ c J f) t l fo bz h

/-- amino.go:539-568 `UnmarshalJSON(bz, ptr)` where `ptr` is the address of location `l` of type `t`. -/
def mUnmarshalJSON (Γ : MProg) (c : Codec) (J : MJLib) (fuel : Nat) (t : Ty) (l : Loc) (bz : Bytes) (h : Mem) : JMRes Unit :=
  if bz = [] then (.err .emptyInput, h)
  else
    jInfoThen Γ c t.deref h <|
    match c.conc? t.deref with
    | some ci =>
      JMRes.andThen (decodeInterfaceJSON bz, h) fun nd h =>
      if nd.1 ≠ ci.name then (.err .prefixMismatch, h) else jmdec Γ c J fuel t l {} nd.2 h
    | none => jmdec Γ c J fuel t l {} bz h

end Amino
