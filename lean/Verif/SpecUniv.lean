import Verif.SpecNorm

/-!
# Specification: the types for which the binary round trip is claimed

`S id fo`: the type `id` is used with field options `fo` (for the top level: field number 1).  A universe
is a set of such uses closed under components.
-/

namespace Amino.Spec

variable (Γ : Prog) (c : Codec)

/-- Numbers written in a fixed number of bytes. -/
def fixedKind (id : TId) (fo : FOpts) : Bool :=
  match Γ.shape id with
  | .float32 | .float64 => true
  | .int .int64 | .int .uint64 => fo.fixed64
  | .int .int32 | .int .uint32 => fo.fixed32
  | _ => false

/-- `t` is not a pointer to an interface. -/
def noIfacePtr (t : Ty) : Prop := t.isPtr = true → Γ.isIface t.deref = false

variable (S : TId → FOpts → Prop)

/-- An element type: length delimited elements are coded with field number 1, others with that of the
list. -/
def ElemOk (e : Ty) (fo : FOpts) : Prop :=
  noIfacePtr Γ e ∧ S e.deref (if lenKind Γ e.deref then { fo with fnum := 1 } else fo)

/-- An encoded field with number `num`. -/
structure FieldOk (f : Field) (num : Nat) : Prop where
  noPtr : noIfacePtr Γ f.ty
  /-- a repeated list: no MarshalAmino on the list type itself -/
  rep : repeated Γ f = true → Γ.marsh f.ty.deref = none ∧ Γ.unmarsh f.ty.deref = none ∧
    ∀ e, (Γ.shape f.ty.deref).elem? = some e → ElemOk Γ S e { f.opts with fnum := num }
  /-- any other field: an interface is not tagged `write_empty` -/
  single : repeated Γ f = false → S f.ty.deref { f.opts with fnum := num } ∧
    (Γ.isIface f.ty.deref = true → f.opts.writeEmpty = false)

def FieldsOk : Nat → List Field → Prop
  | _, [] => True
  | num, f :: fs =>
    if f.visible = true then FieldOk Γ S f (num + 1) ∧ FieldsOk (num + 1) fs else FieldsOk num fs

/-- A list type: of bytes proper, or of supported elements that are not themselves lists. -/
def ListOk (e : Ty) (fo : FOpts) : Prop :=
  if Γ.isByteKind e then e = .base Γ.byteId else Γ.isListKind e = false ∧ ElemOk Γ S e fo

/-- A registered implementation `ci` of the interface `id` used with options `fo`. -/
structure ImplOk (id : TId) (fo : FOpts) (ci : ConcInfo) : Prop where
  type : S ci.tid fo
  notIface : Γ.isIface ci.tid = false
  /-- in field number 1 and in lists, the implementation must be a struct or a list of structs -/
  shape : fo.fnum = 1 → Γ.structOrRep ci.tid = true
  /-- in the shape it was registered, it implements the interface -/
  assignable : Γ.implements (if ci.ptrPref then .ptr (.base ci.tid) else .base ci.tid) id = true
  prefixLen : ci.prefx.length = 4
  prefixHead : ci.prefx.head? ≠ some 0
  disambLen : ci.disamb.length = 3
  disfix : c.disfix? (ci.disamb ++ ci.prefx) = some ci

structure Universe : Prop where
  noMap : ∀ {id fo e}, S id fo → Γ.shape id ≠ .map e
  registered : ∀ {id fo}, S id fo → Γ.shape id = .iface → (c.iface? id).isSome = true
  floats : ∀ {id fo fs}, S id fo → Γ.shape id = .struct fs → ∀ f ∈ fs, Γ.badFloat f = false
  /-- MarshalAmino and UnmarshalAmino come together and agree on the representation type, which is not
  an interface; a variable length kind is not represented by a fixed length number -/
  marsh : ∀ {id fo rid m}, S id fo → Γ.marsh id = some (rid, m) →
    (∃ um, Γ.unmarsh id = some (rid, um)) ∧ S rid fo ∧ Γ.isIface id = false ∧ Γ.isIface rid = false ∧
      (fixedKind Γ id fo = false → fixedKind Γ rid fo = false)
  noMarsh : ∀ {id fo}, S id fo → Γ.marsh id = none → Γ.unmarsh id = none
  slice : ∀ {id fo e}, S id fo → Γ.shape id = .slice e → Γ.marsh id = none → ListOk Γ S e fo
  array : ∀ {id fo n e}, S id fo → Γ.shape id = .array n e → Γ.marsh id = none → ListOk Γ S e fo
  struct : ∀ {id fo fs}, S id fo → Γ.shape id = .struct fs → Γ.marsh id = none → FieldsOk Γ S 0 fs
  iface : ∀ {id fo ii}, S id fo → Γ.shape id = .iface → c.iface? id = some ii →
    (∀ t ci, Γ.implements t id = true → c.conc? t.deref = some ci → ci ∈ ii.impls) ∧
    (∀ ci ∈ ii.impls, ImplOk Γ c S id fo ci)

/-- What `reflect.Zero` gives for composite types. -/
structure ZeroOk : Prop where
  struct : ∀ {id fs}, Γ.shape id = .struct fs → Γ.zero id = .struct (fs.map fun f => Γ.zeroTy f.ty)
  array : ∀ {id n e}, Γ.shape id = .array n e → Γ.isByteKind e = false →
    Γ.zero id = .list (List.replicate n (Γ.zeroTy e))
  slice : ∀ {id e}, Γ.shape id = .slice e → Γ.zero id = .nil
  iface : ∀ {id}, Γ.shape id = .iface → Γ.zero id = .nil
  bool : ∀ {id}, Γ.shape id = .bool → Γ.zero id = .bool false
  int : ∀ {id k}, Γ.shape id = .int k → Γ.zero id = .int 0
  string : ∀ {id}, Γ.shape id = .string → Γ.zero id = .str []

/-- Types whose zero value is written as the empty message if any value is: everything but `time.Time` and
structs that contain a `time.Time` by value (where 1970 is written as the empty message, but year 1 is the
zero value). -/
inductive Steady : TId → Prop
  | leaf {id : TId} : Γ.marsh id = none → Γ.isStruct id = false → Steady id
  | struct {id : TId} {fs : List Field} : Γ.marsh id = none → Γ.shape id = .struct fs →
      (∀ f ∈ fs, f.visible = true → ∀ i, f.ty = .base i → Steady i) → Steady id
  | marsh {id rid : TId} {m : Val → Res Val} : Γ.marsh id = some (rid, m) → m (Γ.zero id) = .ok (Γ.zero rid) →
      Steady rid → Steady id

/-- A type used by value: `time.Time` itself or steady. -/
def ByValue (t : Ty) : Prop :=
  ∀ i, t = .base i → (Γ.shape i = .time ∧ Γ.marsh i = none) ∨ Steady Γ i

/-- The types for which re-encoding a decoded value is claimed to give the same bytes. -/
structure Stable : Prop where
  /-- struct fields: no `*time.Time`, no by-value struct containing a time -/
  field : ∀ {id fo fs f}, S id fo → Γ.shape id = .struct fs → Γ.marsh id = none → f ∈ fs → f.visible = true →
    (Γ.shape f.ty.deref = .time → f.ty.isPtr = false) ∧ ByValue Γ f.ty ∧
    (repeated Γ f = true → ∀ e, (Γ.shape f.ty.deref).elem? = some e → ByValue Γ e)
  time : ∀ {id fo}, S id fo → Γ.shape id = .time → Γ.marsh id = none
  elem : ∀ {id fo e}, S id fo → Γ.marsh id = none → (Γ.shape id).elem? = some e → Γ.isByteKind e = false → ByValue Γ e
  /-- UnmarshalAmino is undone by MarshalAmino; types with these methods have no kind that is omitted on its
  raw value -/
  lawful : ∀ {id fo rid m um}, S id fo → Γ.marsh id = some (rid, m) → Γ.unmarsh id = some (rid, um) →
    (∀ r w, HasTy Γ (.base rid) r → um (Γ.zero id) r = .ok w → m w = .ok r) ∧
    (∀ v, HasTy Γ (.base id) v → dflt (Γ.shape id) v = false)

end Amino.Spec
