import Verif.SpecDoc
import Verif.SpecWrite

/-!
# Specification: what can be written as JSON

`JWritable` says, without reference to the encoder, for which values `MarshalJSON` succeeds.
-/

namespace Amino.Spec

section
variable (Γ : Prog) (c : Codec) (J : JLib)

/-- `JWritable a t fo v`: the value `v` of type `t`, addressable if `a`, can be written in a field with options `fo`. -/
inductive JWritable : Bool → Ty → FOpts → Val → Prop
  | nil {a : Bool} {t : Ty} {fo : FOpts} {v : Val} : (∀ w, v ≠ .ptr w) → JWritable a (.ptr t) fo v
  | ptr {a : Bool} {t : Ty} {fo : FOpts} {v : Val} : JWritable true t fo v → JWritable a (.ptr t) fo (.ptr v)
  | method {a : Bool} {id : TId} {m : Val → Res Bytes} {fo : FOpts} {v : Val} {b : Bytes} : Γ.shape id ≠ .time →
      J.marsh id a = some m → m v = .ok b → JWritable a (.base id) fo v
  | amino {a : Bool} {id rid : TId} {m : Val → Res Val} {fo : FOpts} {v r : Val} : Γ.shape id ≠ .time →
      J.marsh id a = none → Γ.marsh id = some (rid, m) → m v = .ok r → Known Γ c rid → JWritable false (.base rid) fo r →
      JWritable a (.base id) fo v
  | null {a : Bool} {id : TId} {fo : FOpts} : NoMarshal Γ J a id →
      (Γ.shape id = .iface ∨ (∃ e, Γ.shape id = .slice e) ∨ ∃ e, Γ.shape id = .map e) → JWritable a (.base id) fo .nil
  /-- interfaces hold registered types, not nil pointers -/
  | iface {a : Bool} {id : TId} {fo : FOpts} {t : Ty} {v dv : Val} {ci : ConcInfo} : NoMarshal Γ J a id →
      Γ.shape id = .iface → pointee t v = some dv → (t.isPtr = true → Γ.isIface t.deref = false) → Known Γ c t.deref →
      c.conc? t.deref = some ci → JWritable t.isPtr (.base t.deref) fo dv → JWritable a (.base id) fo (.iface t v)
  /-- bytes of a named byte type only if addressable -/
  | bytes {a : Bool} {id : TId} {e : Ty} {fo : FOpts} {b : Bytes} : NoMarshal Γ J a id → (Γ.shape id).elem? = some e →
      (a = true ∨ e = .base Γ.byteId) → JWritable a (.base id) fo (.bytes b)
  | list {a : Bool} {id : TId} {e : Ty} {fo : FOpts} {vs : List Val} : NoMarshal Γ J a id → Γ.shape id = .slice e →
      Known Γ c e.deref → (∀ v ∈ vs, JWritable true e fo v) → JWritable a (.base id) fo (.list vs)
  | array {a : Bool} {id : TId} {n : Nat} {e : Ty} {fo : FOpts} {vs : List Val} : NoMarshal Γ J a id →
      Γ.shape id = .array n e → Known Γ c e.deref → (∀ v ∈ vs, JWritable a e fo v) → JWritable a (.base id) fo (.list vs)
  | struct {a : Bool} {id : TId} {fs : List Field} {fo : FOpts} {vs : List Val} : NoMarshal Γ J a id →
      Γ.shape id = .struct fs → fs.length = vs.length →
      (∀ p ∈ fs.zip vs, p.1.visible = true → Known Γ c p.1.ty.deref) →
      (∀ p ∈ fs.zip vs, shown Γ p = true → JWritable a p.1.ty p.1.opts p.2) → JWritable a (.base id) fo (.struct vs)
  | map {a : Bool} {id : TId} {e : Ty} {fo : FOpts} {kvs : List (Bytes × Val)} : NoMarshal Γ J a id → Γ.shape id = .map e →
      (∀ p ∈ kvs, pointee e p.2 ≠ none → Known Γ c e.deref) → (∀ p ∈ kvs, JWritable false e fo p.2) →
      JWritable a (.base id) fo (.map kvs)
  | int {a : Bool} {id : TId} {k : IntKind} {fo : FOpts} {i : Int} : NoMarshal Γ J a id → Γ.shape id = .int k →
      JWritable a (.base id) fo (.int i)
  /-- not infinities and NaNs, which have no text -/
  | f32 {a : Bool} {id : TId} {fo : FOpts} {x : UInt64} {b : Bytes} : NoMarshal Γ J a id → Γ.shape id = .float32 →
      fo.floatOk = true → J.f32Text x = some b → JWritable a (.base id) fo (.f32 x)
  | f64 {a : Bool} {id : TId} {fo : FOpts} {x : UInt64} {b : Bytes} : NoMarshal Γ J a id → Γ.shape id = .float64 →
      fo.floatOk = true → J.f64Text x = some b → JWritable a (.base id) fo (.f64 x)
  | bool {a : Bool} {id : TId} {fo : FOpts} {b : Bool} : NoMarshal Γ J a id → Γ.shape id = .bool →
      JWritable a (.base id) fo (.bool b)
  | str {a : Bool} {id : TId} {fo : FOpts} {s : Bytes} : NoMarshal Γ J a id → Γ.shape id = .string →
      JWritable a (.base id) fo (.str s)
  | time {a : Bool} {id : TId} {fo : FOpts} {s ns : Int} {b : Bytes} : Γ.shape id = .time → J.timeText s ns = some b →
      JWritable a (.base id) fo (.time s ns)

/-- Types whose values, once read from JSON, can be written again: zero values can be written (this excludes untagged
floats), lists of bytes are of `byte` itself, the methods come in pairs and succeed on what was read, times that were read
from a text ending in `Z` have a text, and the types found by name are registered. -/
structure JRewritable (S : TId → FOpts → Prop) : Prop where
  zero : ∀ {id fo} (a : Bool), S id fo → JWritable Γ c J a (.base id) fo (Γ.zero id)
  json : ∀ {id fo um p bz v} (a : Bool), S id fo → Γ.shape id ≠ .time → J.unmarsh id = some um → um p bz = .ok v →
    JWritable Γ c J a (.base id) fo v
  amino : ∀ {id fo rid um}, S id fo → Γ.shape id ≠ .time → J.unmarsh id = none → Γ.unmarsh id = some (rid, um) →
    S rid fo ∧ ∀ {p r v}, (∀ a, JWritable Γ c J a (.base rid) fo r) → um p r = .ok v →
      ∀ a, JWritable Γ c J a (.base id) fo v
  methods : ∀ {id fo}, S id fo → J.unmarsh id = none → Γ.unmarsh id = none →
    Γ.marsh id = none ∧ ∀ a, J.marsh id a = none
  list : ∀ {id fo e}, S id fo → (Γ.shape id).elem? = some e →
    if Γ.isByteKind e then e = .base Γ.byteId else S e.deref fo
  map : ∀ {id fo e}, S id fo → Γ.shape id = .map e → S e.deref fo
  struct : ∀ {id fo fs f}, S id fo → Γ.shape id = .struct fs → f ∈ fs → f.visible = true → S f.ty.deref f.opts
  iface : ∀ {id fo n ci}, S id fo → Γ.shape id = .iface → c.name? n = some ci →
    Γ.implements (if ci.ptrPref then .ptr (.base ci.tid) else .base ci.tid) id = true →
    S ci.tid fo ∧ c.conc? ci.tid = some ci ∧ Known Γ c ci.tid ∧ Γ.isIface ci.tid = false
  time : ∀ {b s ns}, b[b.length - 2]? = some 0x5a → J.timeParse b = some (s, ns) → ∃ b', J.timeText s ns = some b'

end
end Amino.Spec
