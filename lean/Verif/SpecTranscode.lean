import Verif.SpecJson

/-!
# Specification: types that JSON and the binary encoding treat alike
-/

namespace Amino.Spec

/-- All strings in a value are valid UTF-8. -/
inductive Utf8Val : Val → Prop
  | bool {b : Bool} : Utf8Val (.bool b)
  | int {i : Int} : Utf8Val (.int i)
  | f32 {b : UInt64} : Utf8Val (.f32 b)
  | f64 {b : UInt64} : Utf8Val (.f64 b)
  | str {s : Bytes} : Utf8 s → Utf8Val (.str s)
  | time {s ns : Int} : Utf8Val (.time s ns)
  | nil : Utf8Val .nil
  | ptr {v : Val} : Utf8Val v → Utf8Val (.ptr v)
  | bytes {b : Bytes} : Utf8Val (.bytes b)
  | list {vs : List Val} : (∀ v ∈ vs, Utf8Val v) → Utf8Val (.list vs)
  | struct {vs : List Val} : (∀ v ∈ vs, Utf8Val v) → Utf8Val (.struct vs)
  | iface {t : Ty} {v : Val} : Utf8Val v → Utf8Val (.iface t v)
  | map {kvs : List (Bytes × Val)} : Utf8Val (.map kvs)

/-- Zero, the empty string, slice or map, or a nil interface. -/
def Vacant : Shape → Val → Prop
  | .int _, .int i => i = 0
  | .string, .str b => b = []
  | .slice _, .bytes b => b = []
  | .slice _, .list vs => vs = []
  | .map _, .map kvs => kvs = []
  | .slice _, .nil | .map _, .nil | .iface, .nil => True
  | _, _ => False

/-- A pointer to a type with MarshalAmino: its representation is not a slice or an interface, and has no representation
itself. -/
def PtrOk (Γ : Prog) (t : Ty) : Prop := t.isPtr = true → ∀ rid m, Γ.marsh t.deref = some (rid, m) →
  Γ.marsh rid = none ∧ (∀ e, Γ.shape rid ≠ .slice e) ∧ Γ.shape rid ≠ .iface

/-- The types in `S` have well behaved methods and tags. -/
structure Alike (Γ : Prog) (S : TId → Prop) : Prop where
  /-- MarshalAmino undoes UnmarshalAmino -/
  back : ∀ {id rid m um r w}, S id → Γ.marsh id = some (rid, m) → Γ.unmarsh id = some (rid, um) → HasTy Γ (.base rid) r →
    um (Γ.zero id) r = .ok w → m w = .ok r
  zero : ∀ {id rid m}, S id → Γ.marsh id = some (rid, m) → m (Γ.zero id) = .ok (Γ.zero rid)
  text : ∀ {id rid m v r}, S id → Γ.marsh id = some (rid, m) → HasTy Γ (.base id) v → m v = .ok r → Utf8Val r
  /-- MarshalAmino turns zero values, and only these, into zero values, or else belongs to a struct -/
  void : ∀ {id rid m}, S id → Γ.marsh id = some (rid, m) → Γ.isStruct id = true ∨
    ∀ v r, HasTy Γ (.base id) v → m v = .ok r → (Vacant (Γ.shape id) v ↔ Vacant (Γ.shape rid) r)
  slice : ∀ {id e}, S id → Γ.shape id = .slice e → PtrOk Γ e
  array : ∀ {id n e}, S id → Γ.shape id = .array n e → PtrOk Γ e
  /-- `write_empty` goes neither with pointers nor with `omitempty`, `omitempty` not with pointers to arrays, and lists
  of anything but bytes have no MarshalAmino -/
  field : ∀ {id fs f}, S id → Γ.shape id = .struct fs → f ∈ fs → f.visible = true → PtrOk Γ f.ty ∧
    (f.opts.writeEmpty = true → f.opts.omitEmpty = false ∧ f.ty.isPtr = false) ∧
    (f.opts.omitEmpty = true → f.ty.isPtr = true → ∀ n e, Γ.shape f.ty.deref ≠ .array n e) ∧
    ∀ e, (Γ.shape f.ty.deref = .slice e ∨ ∃ n, Γ.shape f.ty.deref = .array n e) → Γ.isByteKind e = false →
      Γ.marsh f.ty.deref = none

end Amino.Spec
