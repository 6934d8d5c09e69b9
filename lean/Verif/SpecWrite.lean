import Verif.SpecUniv

/-!
# Specification: what can be written

`Writable` says, without reference to the encoder, for which values `MarshalBinaryBare` succeeds.
-/

namespace Amino.Spec

section
variable (Γ : Prog) (c : Codec)

/-- A visible float field (not behind a pointer) without the tag `amino:"unsafe"`. -/
def untaggedFloat (f : Field) : Prop :=
  f.visible = true ∧ f.opts.floatOk = false ∧ ∃ id, f.ty = .base id ∧ (Γ.shape id = .float32 ∨ Γ.shape id = .float64)

/-- Amino can inspect the type: interfaces are registered, structs have no untagged floats. -/
def Known (id : TId) : Prop :=
  (Γ.shape id = .iface → ∃ ii, c.iface? id = some ii) ∧ ∀ fs, Γ.shape id = .struct fs → ∀ f ∈ fs, ¬ untaggedFloat Γ f

/-- Bytes, lists of bytes, lists of lists of bytes, ... -/
inductive BytesInside : Ty → Prop
  | byte {id : TId} : Γ.shape id = .int .uint8 → BytesInside (.base id)
  | list {id : TId} {e : Ty} : (Γ.shape id).elem? = some e → BytesInside e → BytesInside (.base id)

/-- The instants that are written: years 1 to 9999. -/
def goodTime (s ns : Int) : Prop :=
  (s = 0 ∨ -62135596800 ≤ s ∧ s < 253402300800) ∧ (ns = 0 ∨ 0 ≤ ns ∧ ns ≤ 999999999)

/-- What is written: a value of a type, or the elements of a list with this element type. -/
inductive What
  | val (id : TId)
  | elems (e : Ty)

/-- `Writable (.val id) fo v`: the value `v` of type `id` can be written in a field with options `fo`. -/
inductive Writable : What → FOpts → Val → Prop
  | marsh {id rid : TId} {m : Val → Res Val} {fo : FOpts} {v r : Val} : Γ.marsh id = some (rid, m) → m v = .ok r →
      Known Γ c rid → Writable (.val rid) fo r → Writable (.val id) fo v
  | bool {id : TId} {fo : FOpts} {b : Bool} : Γ.marsh id = none → Γ.shape id = .bool → Writable (.val id) fo (.bool b)
  | int {id : TId} {k : IntKind} {fo : FOpts} {i : Int} : Γ.marsh id = none → Γ.shape id = .int k →
      Writable (.val id) fo (.int i)
  | f32 {id : TId} {fo : FOpts} {b : UInt64} : Γ.marsh id = none → Γ.shape id = .float32 → fo.floatOk = true →
      Writable (.val id) fo (.f32 b)
  | f64 {id : TId} {fo : FOpts} {b : UInt64} : Γ.marsh id = none → Γ.shape id = .float64 → fo.floatOk = true →
      Writable (.val id) fo (.f64 b)
  | str {id : TId} {fo : FOpts} {s : Bytes} : Γ.marsh id = none → Γ.shape id = .string → Writable (.val id) fo (.str s)
  | time {id : TId} {fo : FOpts} {s ns : Int} : Γ.marsh id = none → Γ.shape id = .time → goodTime s ns →
      Writable (.val id) fo (.time s ns)
  | bytes {id : TId} {e : Ty} {fo : FOpts} {b : Bytes} : Γ.marsh id = none → (Γ.shape id).elem? = some e →
      Γ.isByteKind e = true → Writable (.val id) fo (.bytes b)
  | nilBytes {id : TId} {e : Ty} {fo : FOpts} : Γ.marsh id = none → Γ.shape id = .slice e →
      Γ.isByteKind e = true → Writable (.val id) fo .nil
  /-- lists of lists are only "written" (as nothing) if there are bytes inside -/
  | nested {id : TId} {e : Ty} {fo : FOpts} {v : Val} : Γ.marsh id = none → (Γ.shape id).elem? = some e →
      Γ.isByteKind e = false → Γ.isListKind e = true → BytesInside Γ e → Writable (.val id) fo v
  | list {id : TId} {e : Ty} {fo : FOpts} {v : Val} : Γ.marsh id = none → (Γ.shape id).elem? = some e →
      Γ.isByteKind e = false → Γ.isListKind e = false → Writable (.elems e) fo v → Writable (.val id) fo v
  | nilIface {id : TId} {fo : FOpts} : Γ.marsh id = none → Γ.shape id = .iface → Writable (.val id) fo .nil
  /-- interfaces hold registered types, not nil pointers -/
  | iface {id : TId} {fo : FOpts} {t : Ty} {v dv : Val} {ci : ConcInfo} {ii : IfaceInfo} : Γ.marsh id = none →
      Γ.shape id = .iface → pointee t v = some dv → (t.isPtr = true → Γ.isIface t.deref = false) → Known Γ c t.deref →
      c.conc? t.deref = some ci → c.iface? id = some ii → Writable (.val t.deref) fo dv →
      Writable (.val id) fo (.iface t v)
  | struct {id : TId} {fs : List Field} {fo : FOpts} {vs : List Val} : Γ.marsh id = none → Γ.shape id = .struct fs →
      fs.length = vs.length →
      (∀ p ∈ fs.zip vs, p.1.visible = true → Known Γ c p.1.ty.deref) →
      (∀ p ∈ fs.zip vs, p.1.visible = true → p.1.opts.writeEmpty = true → pointee p.1.ty p.2 ≠ none) →
      (∀ p ∈ fs.zip vs, p.1.visible = true → ∀ dv, pointee p.1.ty p.2 = some dv →
        (dflt (Γ.shape p.1.ty.deref) dv = true → p.1.opts.writeEmpty = true) → repeated Γ p.1 = false →
        Writable (.val p.1.ty.deref) p.1.opts dv) →
      (∀ p ∈ fs.zip vs, p.1.visible = true → ∀ e, (Γ.shape p.1.ty.deref).elem? = some e →
        ∀ dv, pointee p.1.ty p.2 = some dv →
        (dflt (Γ.shape p.1.ty.deref) dv = true → p.1.opts.writeEmpty = true) → repeated Γ p.1 = true →
        Writable (.elems e) p.1.opts dv) →
      Writable (.val id) fo (.struct vs)
  | noElems {e : Ty} {fo : FOpts} : Known Γ c e.deref → Writable (.elems e) fo .nil
  | packed {e : Ty} {fo : FOpts} {vs : List Val} : Known Γ c e.deref → lenKind Γ e.deref = false →
      (∀ v ∈ vs, Writable (.val e.deref) fo ((pointee e v).getD (Γ.zero e.deref))) → Writable (.elems e) fo (.list vs)
  /-- nil elements are written as empty ones, unless tagged `empty_elements` -/
  | unpacked {e : Ty} {fo : FOpts} {vs : List Val} : Known Γ c e.deref → lenKind Γ e.deref = true →
      (keepEmpty Γ e fo = true → ∀ v ∈ vs, pointee e v ≠ none) →
      (∀ v ∈ vs, ∀ dv, pointee e v = some dv → dflt (Γ.shape e.deref) dv = false → Writable (.val e.deref) fo dv) →
      Writable (.elems e) fo (.list vs)

/-- Types whose values, once read, can be written again: zero values can be written (this excludes arrays of pointers to
structs tagged `empty_elements`), pointers are not tagged `write_empty`, MarshalAmino succeeds on what UnmarshalAmino gave
(and `time.Time` has no such methods); and every implementation the codec may find is registered. -/
structure Rewritable (S : TId → FOpts → Prop) : Prop where
  zero : ∀ {id fo}, S id fo → Writable Γ c (.val id) fo (Γ.zero id)
  noPtr : ∀ {id fo fs}, S id fo → Γ.shape id = .struct fs → ∀ f ∈ fs, f.visible = true → f.opts.writeEmpty = true →
    f.ty.isPtr = false
  user : ∀ {id fo rid um p r v}, S id fo → Γ.unmarsh id = some (rid, um) → Writable Γ c (.val rid) fo r →
    um p r = .ok v → Writable Γ c (.val id) fo v
  time : ∀ {id}, Γ.shape id = .time → Γ.marsh id = none
  impls : ∀ {id ii ci}, c.iface? id = some ii → ci ∈ ii.impls → c.conc? ci.tid = some ci
  disfix : ∀ {d ci}, c.disfix? d = some ci → c.conc? ci.tid = some ci

end
end Amino.Spec
