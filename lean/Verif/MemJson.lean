import Verif.MemEncode
import Verif.JsonEncode

/-!
# The JSON encoder on memory

As `jenc` in `JsonEncode.lean`, on values with references.  The variable of a map holds its keys and values in turn, in the order
`MapKeys` happens to return.
-/

namespace Amino

/-- The library functions, with the methods `MarshalJSON` on memory. -/
structure EJLib extends JLib where
  marshJM : TId → Bool → Mem → MVal → Res Bytes

mutual
/-- `reflect.DeepEqual` of a value and a zero value (json-encode.go:461); a zero value has no references. -/
def MVal.eqZero : MVal → Val → Bool
  | .prim a, z => a.eqb z
  | .nil, .nil => true
  | .arr ws, .list zs => MVal.eqZeros ws zs
  | .struct ws, .struct zs => MVal.eqZeros ws zs
  | _, _ => false
def MVal.eqZeros : List MVal → List Val → Bool
  | [], [] => true
  | w :: ws, z :: zs => w.eqZero z && MVal.eqZeros ws zs
  | _, _ => false
end

/-- json-encode.go:457-472 `isEmpty(rv, zrv)`, see `Prog.jsonEmpty`. -/
def jsonEmptyM (Γ : Prog) (h : Mem) (t : Ty) (v : MVal) : Bool :=
  match derefM h t v with
  | none => true
  | some dv =>
    (!t.isPtr && dv.eqZero (Γ.zeroTy t)) ||
    match Γ.shape t.deref, dv with
    | .slice _, .nil => true
    | .slice _, .slice _ _ len => len == 0
    | .array _ _, .prim (.bytes b) => b.isEmpty
    | .array _ _, .arr vs => vs.isEmpty
    | .string, .prim (.str s) => s.isEmpty
    | _, _ => false

section
variable (Γ : EProg) (c : Codec) (J : EJLib) (rec : Mem → Bool → Ty → MVal → FOpts → Res Bytes) (h : Mem)

/-- json-encode.go:134-193 `encodeReflectJSONInterface`, after the nil check. -/
def jencIfaceM (t : Ty) (v : MVal) (fo : FOpts) : Res Bytes :=
  if t.isPtr && Γ.isIface t.deref then .panic .ifacePtr
  else
    match derefM h t v with
    | none => .panic .nilPtrInIface
    | some dv =>
      (getInfo Γ.toProg c t.deref).bind fun _ =>
      match c.conc? t.deref with
      | none => .err .unregisteredConcrete
      | some ci => (rec h t.isPtr (.base t.deref) dv fo).bind fun b => .ok (wrapText ci.name b)

/-- json-encode.go:246-264: the elements of a list. -/
def jencElemsM (addr : Bool) (e : Ty) (fo : FOpts) : List MVal → Res (List Bytes)
  | [] => .ok []
  | v :: vs =>
    (rec h addr e v fo).bind fun b => (jencElemsM addr e fo vs).bind fun bs => .ok (b :: bs)

/-- json-encode.go:195-273 `encodeReflectJSONList` on a non-nil list of non-bytes. -/
def jencListM (addr : Bool) (e : Ty) (fo : FOpts) (vs : List MVal) : Res Bytes :=
  (getInfo Γ.toProg c e.deref).bind fun _ =>
  (jencElemsM rec h addr e fo vs).bind fun bs => .ok (0x5b :: (joinComma bs ++ [0x5d]))

/-- json-encode.go:300-341: the members of a struct. -/
def jencFieldsM (addr : Bool) : List Field → List MVal → Res (List Bytes)
  | [], [] => .ok []
  | f :: fs, v :: vs =>
    if f.visible then
      (getInfo Γ.toProg c f.ty.deref).bind fun _ =>
      if f.opts.omitEmpty && jsonEmptyM Γ.toProg h f.ty v then jencFieldsM addr fs vs
      else
        (rec h addr f.ty v f.opts).bind fun b =>
        (jencFieldsM addr fs vs).bind fun bs => .ok ((quoteStr f.opts.jsonName ++ 0x3a :: b) :: bs)
    else jencFieldsM addr fs vs
  | _, _ => .panic .illTyped

/-- json-encode.go:392-403: the value of a map entry. -/
def jencEntryM (e : Ty) (fo : FOpts) (v : MVal) : Res Bytes :=
  match derefM h e v with
  | none => rec h false e v fo
  | some _ => (getInfo Γ.toProg c e.deref).bind fun _ => rec h false e v fo

/-- json-encode.go:370-407: the members of a map. -/
def jencEntriesM (e : Ty) (fo : FOpts) : List MVal → Res (List Bytes)
  | [] => .ok []
  | .prim (.str k) :: v :: kvs =>
    (jencEntryM Γ c rec h e fo v).bind fun b =>
    (jencEntriesM e fo kvs).bind fun bs => .ok ((quoteStr k ++ 0x3a :: b) :: bs)
  | _ => .panic .illTyped

/-- json-encode.go:84-131: the switch on the kind.  For values without references and parts `jencShape` is used. -/
def jencShapeM (addr : Bool) (id : TId) (v : MVal) (fo : FOpts) : Res Bytes :=
  match Γ.shape id, v with
  | .iface, .nil => .ok jNull
  | .iface, .iface t v => jencIfaceM Γ c rec h t v fo
  | .slice _, .nil => .ok jNull
  | .slice e, .slice a off len =>
    match h[a]? with
    | some (.prim (.bytes b)) => jencBytes Γ.toProg addr e ((b.drop off).take len)
    | some (.arr ws) => jencListM Γ c rec h true e fo ((ws.drop off).take len)
    | _ => .panic .illTyped
  | .array _ e, .arr ws => jencListM Γ c rec h addr e fo ws
  | .struct fs, .struct vs => (jencFieldsM Γ c rec h addr fs vs).bind fun bs => .ok (0x7b :: (joinComma bs ++ [0x7d]))
  | .map _, .nil => .ok [0x7b, 0x7d]
  | .map e, .map a =>
    match h[a]? with
    | some (.arr ws) => (jencEntriesM Γ c rec h e fo ws).bind fun bs => .ok (0x7b :: (joinComma bs ++ [0x7d]))
    | _ => .panic .illTyped
  | _, .prim v => jencShape Γ.toProg c J.toJLib (fun _ _ _ _ => .oof) addr id v fo
  | _, _ => .panic .illTyped

/-- json-encode.go:45-82 after dereferencing. -/
def jencBaseM (addr : Bool) (id : TId) (v : MVal) (fo : FOpts) : Res Bytes :=
  if Γ.shape id = .time then jencShapeM Γ c J rec h addr id v fo
  else
    match J.marsh id addr with
    | some _ => J.marshJM id addr h v
    | none =>
      match Γ.marsh id with
      | some (rid, _) =>
        (Γ.marshM id h v).bind fun r => (getInfo Γ.toProg c rid).bind fun _ => rec r.2 false (.base rid) r.1 fo
      | none => jencShapeM Γ c J rec h addr id v fo

end

/-- json-encode.go:23-132 `encodeReflectJSON`. -/
def jencM (Γ : EProg) (c : Codec) (J : EJLib) : Nat → Mem → Bool → Ty → MVal → FOpts → Res Bytes
  | 0, _, _, _, _, _ => .oof
  | fuel + 1, h, addr, t, v, fo =>
    match derefM h t v with
    | none => .ok jNull
    | some dv => jencBaseM Γ c J (jencM Γ c J fuel) h (addr || t.isPtr) t.deref dv fo

/-- amino.go:495-528 `MarshalJSON`; `none` is the nil interface.  -/
def mMarshalJSON (Γ : EProg) (c : Codec) (J : EJLib) (fuel : Nat) (h : Mem) : Option (Ty × MVal) → Res Bytes
  | none => .ok jNull
  | some (t, v) =>
    (getInfo Γ.toProg c t.deref).bind fun _ =>
    (jencM Γ c J fuel h false t v {}).bind fun b =>
    match c.conc? t.deref with
    | some ci => .ok (wrapText ci.name b)
    | none => .ok b

end Amino
