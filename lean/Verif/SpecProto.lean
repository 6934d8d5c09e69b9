import Verif.SpecWire

/-!
# Specification: Go values as protobuf messages

`PV` is a protobuf field value without schema, `PV.payload` its serialization as proto3 prescribes.  `Means` says
which protobuf value a Go value stands for.
-/

namespace Amino.Spec

mutual
/-- A protobuf value. -/
inductive PV
  | varint (n : Nat)
  | fixed64 (n : Nat)
  | fixed32 (n : Nat)
  | bytes (b : Bytes)
  | msg (m : PMsg)
  /-- a packed repeated field -/
  | packed (vs : PVs)
  /-- amino's interface value: the bytes that name the type, then the value -/
  | any (lead : Bytes) (v : PV)
/-- A message: numbered fields. -/
inductive PMsg
  | nil
  | field (num : Nat) (v : PV) (rest : PMsg)
inductive PVs
  | nil
  | cons (v : PV) (rest : PVs)
end

/-- The wire type. -/
def PV.wt : PV → Nat
  | .varint _ => 0
  | .fixed64 _ => 1
  | .fixed32 _ => 5
  | _ => 2

mutual
/-- The contents, without length. -/
def PV.body : PV → Bytes
  | .varint n => Spec.varint n
  | .fixed64 n => le 8 n
  | .fixed32 n => le 4 n
  | .bytes b => b
  | .msg m => m.bytes
  | .packed vs => vs.bytes
  | .any lead (.msg m) => lead ++ m.bytes
  | .any lead (.packed vs) => lead ++ vs.bytes
  | .any lead (.any l v) => lead ++ PV.body (.any l v)
  | .any lead (.varint n) => lead ++ Spec.varint n
  | .any lead (.fixed64 n) => lead ++ le 8 n
  | .any lead (.fixed32 n) => lead ++ le 4 n
  | .any lead (.bytes b) => lead ++ (Spec.varint b.length ++ b)
/-- The contents of a message: key and payload of each field. -/
def PMsg.bytes : PMsg → Bytes
  | .nil => []
  | .field num v rest =>
    Spec.varint (8 * num + v.wt) ++ ((if v.wt = 2 then Spec.varint (PV.body v).length else []) ++ PV.body v) ++ rest.bytes
def PVs.bytes : PVs → Bytes
  | .nil => []
  | .cons v rest => (if v.wt = 2 then Spec.varint (PV.body v).length else []) ++ PV.body v ++ rest.bytes
end

/-- What follows the key of a field. -/
def PV.payload (v : PV) : Bytes := (if v.wt = 2 then Spec.varint v.body.length else []) ++ v.body

/-- The form in which a value stands on its own, not in a field: messages and lists without length. -/
def PV.bare : PV → Bytes
  | .bytes b => PV.payload (.bytes b)
  | v => v.body

/-- The value is the default of its wire type. -/
def PV.empty : PV → Prop
  | .varint n => n = 0
  | .bytes b => b = []
  | .msg m => m = .nil
  | .packed vs => vs = .nil
  | _ => False

def PMsg.append : PMsg → PMsg → PMsg
  | .nil, m => m
  | .field n v r, m => .field n v (r.append m)

section
variable (Γ : Prog) (c : Codec)

/-- google.protobuf.Timestamp. -/
def timestamp (s ns : Int) : PMsg :=
  let nanos : PMsg := if ns = 0 then .nil else .field 2 (.varint ns.toNat) .nil
  if s = 0 then nanos else .field 1 (.varint (twos64 s)) nanos

/-- The bytes that name an implementation of an interface: its prefix bytes, after the disambiguation bytes if
another implementation has the same prefix bytes or the interface asks for them always. -/
def nameBytes (ii : IfaceInfo) (ci : ConcInfo) : Bytes :=
  (if ii.always = true ∨ 1 < (ii.impls.filter fun x => x.prefx == ci.prefx).length then 0 :: ci.disamb else []) ++ ci.prefx

mutual
/-- `Means id fo v x`: the Go value `v` of type `id`, in a field with options `fo`, stands for `x`. -/
inductive Means : TId → FOpts → Val → PV → Prop
  /-- a type with MarshalAmino stands for its representation -/
  | rep {id rid : TId} {m : Val → Res Val} {fo : FOpts} {v r : Val} {x : PV} : Γ.marsh id = some (rid, m) → m v = .ok r →
      Means rid fo r x → Means id fo v x
  /-- int8 and int16 are protobuf's sint32 -/
  | sint {id : TId} {k : IntKind} {fo : FOpts} {i : Int} : Γ.marsh id = none → Γ.shape id = .int k → k = .int8 ∨ k = .int16 →
      Means id fo (.int i) (.varint (zig i))
  /-- the other integers are protobuf's int64, int32, uint64, uint32 -/
  | int {id : TId} {k : IntKind} {fo : FOpts} {i : Int} : Γ.marsh id = none → Γ.shape id = .int k → k ≠ .int8 → k ≠ .int16 →
      ¬ (k ∈ [.int64, .uint64] ∧ fo.fixed64 = true) → ¬ (k ∈ [.int32, .uint32] ∧ fo.fixed32 = true) →
      Means id fo (.int i) (.varint (twos64 i))
  | fixed64 {id : TId} {k : IntKind} {fo : FOpts} {i : Int} : Γ.marsh id = none → Γ.shape id = .int k →
      k ∈ [.int64, .uint64] → fo.fixed64 = true → Means id fo (.int i) (.fixed64 (twos64 i))
  | fixed32 {id : TId} {k : IntKind} {fo : FOpts} {i : Int} : Γ.marsh id = none → Γ.shape id = .int k →
      k ∈ [.int32, .uint32] → fo.fixed32 = true → Means id fo (.int i) (.fixed32 (twos64 i % 2 ^ 32))
  | bool {id : TId} {fo : FOpts} {b : Bool} : Γ.marsh id = none → Γ.shape id = .bool →
      Means id fo (.bool b) (.varint (if b then 1 else 0))
  | double {id : TId} {fo : FOpts} {b : UInt64} : Γ.marsh id = none → Γ.shape id = .float64 →
      Means id fo (.f64 b) (.fixed64 b.toNat)
  | float {id : TId} {fo : FOpts} {b : UInt64} : Γ.marsh id = none → Γ.shape id = .float32 →
      Means id fo (.f32 b) (.fixed32 b.toNat)
  | string {id : TId} {fo : FOpts} {b : Bytes} : Γ.marsh id = none → Γ.shape id = .string → Means id fo (.str b) (.bytes b)
  | bytesNil {id : TId} {fo : FOpts} {e : Ty} : Γ.marsh id = none → Γ.shape id = .slice e → Γ.isByteKind e = true →
      Means id fo .nil (.bytes [])
  | bytes {id : TId} {fo : FOpts} {e : Ty} {b : Bytes} : Γ.marsh id = none → (Γ.shape id).elem? = some e →
      Γ.isByteKind e = true → Means id fo (.bytes b) (.bytes b)
  | time {id : TId} {fo : FOpts} {s ns : Int} : Γ.marsh id = none → Γ.shape id = .time →
      Means id fo (.time s ns) (.msg (timestamp s ns))
  | struct {id : TId} {fo : FOpts} {fs : List Field} {vs : List Val} {m : PMsg} : Γ.marsh id = none →
      Γ.shape id = .struct fs → MeansFields 0 fs vs m → Means id fo (.struct vs) (.msg m)
  | nilList {id : TId} {fo : FOpts} {e : Ty} : Γ.marsh id = none → Γ.shape id = .slice e → Γ.isByteKind e = false →
      Means id fo .nil (.packed .nil)
  /-- a list of numbers -/
  | packed {id : TId} {fo : FOpts} {e : Ty} {vs : List Val} {xs : PVs} : Γ.marsh id = none → (Γ.shape id).elem? = some e →
      lenKind Γ e.deref = false → MeansPacked e fo vs xs → Means id fo (.list vs) (.packed xs)
  /-- a list of anything else that is not directly the field of a struct: a message of its own -/
  | list {id : TId} {fo : FOpts} {e : Ty} {vs : List Val} {m : PMsg} : Γ.marsh id = none → (Γ.shape id).elem? = some e →
      lenKind Γ e.deref = true → MeansElems e fo vs m → Means id fo (.list vs) (.msg m)
  | nilIface {id : TId} {fo : FOpts} : Γ.marsh id = none → Γ.shape id = .iface → Means id fo .nil (.bytes [])
  | iface {id : TId} {fo : FOpts} {t : Ty} {v dv : Val} {ii : IfaceInfo} {ci : ConcInfo} {x : PV} : Γ.marsh id = none →
      Γ.shape id = .iface → pointee t v = some dv → c.conc? t.deref = some ci → c.iface? id = some ii →
      Means t.deref fo dv x → Means id fo (.iface t v) (.any (nameBytes ii ci) x)

/-- The elements of a packed list; nil stands for zero. -/
inductive MeansPacked : Ty → FOpts → List Val → PVs → Prop
  | nil {e : Ty} {fo : FOpts} : MeansPacked e fo [] .nil
  | cons {e : Ty} {fo : FOpts} {v : Val} {vs : List Val} {x : PV} {xs : PVs} :
      Means e.deref fo ((pointee e v).getD (Γ.zero e.deref)) x → MeansPacked e fo vs xs →
      MeansPacked e fo (v :: vs) (.cons x xs)

/-- The elements of a repeated field, each under the field's number. -/
inductive MeansElems : Ty → FOpts → List Val → PMsg → Prop
  | nil {e : Ty} {fo : FOpts} : MeansElems e fo [] .nil
  /-- nil and default elements are empty -/
  | empty {e : Ty} {fo : FOpts} {v : Val} {vs : List Val} {m : PMsg} :
      (∀ dv, pointee e v = some dv → dflt (Γ.shape e.deref) dv = true) → MeansElems e fo vs m →
      MeansElems e fo (v :: vs) (.field fo.fnum (.bytes []) m)
  | cons {e : Ty} {fo : FOpts} {v dv : Val} {vs : List Val} {x : PV} {m : PMsg} : pointee e v = some dv →
      dflt (Γ.shape e.deref) dv = false → Means e.deref { fo with fnum := 1 } dv x → MeansElems e fo vs m →
      MeansElems e fo (v :: vs) (.field fo.fnum x m)

/-- The fields of a struct, numbered in the order of declaration; `num` is the number of the last field before. -/
inductive MeansFields : Nat → List Field → List Val → PMsg → Prop
  | nil {num : Nat} : MeansFields num [] [] .nil
  /-- unexported, or `json:"-"` -/
  | hidden {num : Nat} {f : Field} {fs : List Field} {v : Val} {vs : List Val} {m : PMsg} : f.visible = false →
      MeansFields num fs vs m → MeansFields num (f :: fs) (v :: vs) m
  /-- nil pointers are absent -/
  | absent {num : Nat} {f : Field} {fs : List Field} {v : Val} {vs : List Val} {m : PMsg} : f.visible = true →
      pointee f.ty v = none → MeansFields (num + 1) fs vs m → MeansFields num (f :: fs) (v :: vs) m
  /-- zero numbers, empty strings and lists and nil interfaces are absent, unless tagged `write_empty` -/
  | dflt {num : Nat} {f : Field} {fs : List Field} {v dv : Val} {vs : List Val} {m : PMsg} : f.visible = true →
      f.opts.writeEmpty = false → pointee f.ty v = some dv → dflt (Γ.shape f.ty.deref) dv = true →
      MeansFields (num + 1) fs vs m → MeansFields num (f :: fs) (v :: vs) m
  /-- so are values that stand for an empty protobuf value, unless tagged `write_empty` or behind a pointer -/
  | empty {num : Nat} {f : Field} {fs : List Field} {v : Val} {vs : List Val} {x : PV} {m : PMsg} : f.visible = true →
      f.opts.writeEmpty = false → f.ty.isPtr = false → repeated Γ f = false →
      Means f.ty.deref { f.opts with fnum := num + 1 } v x → x.empty → MeansFields (num + 1) fs vs m →
      MeansFields num (f :: fs) (v :: vs) m
  | rep {num : Nat} {f : Field} {fs : List Field} {e : Ty} {us : List Val} {vs : List Val} {xs m : PMsg} : f.visible = true →
      repeated Γ f = true → (Γ.shape f.ty.deref).elem? = some e → MeansElems e { f.opts with fnum := num + 1 } us xs →
      MeansFields (num + 1) fs vs m → MeansFields num (f :: fs) (.list us :: vs) (xs.append m)
  /-- a nil list tagged `write_empty` -/
  | repNil {num : Nat} {f : Field} {fs : List Field} {vs : List Val} {m : PMsg} : f.visible = true → repeated Γ f = true →
      MeansFields (num + 1) fs vs m → MeansFields num (f :: fs) (.nil :: vs) m
  | present {num : Nat} {f : Field} {fs : List Field} {v dv : Val} {vs : List Val} {x : PV} {m : PMsg} : f.visible = true →
      pointee f.ty v = some dv → (dflt (Γ.shape f.ty.deref) dv = true → f.opts.writeEmpty = true) → repeated Γ f = false →
      Means f.ty.deref { f.opts with fnum := num + 1 } dv x →
      (x.empty → f.opts.writeEmpty = true ∨ f.ty.isPtr = true) →
      MeansFields (num + 1) fs vs m → MeansFields num (f :: fs) (v :: vs) (.field (num + 1) x m)
end

end

end Amino.Spec
