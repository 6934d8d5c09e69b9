import Verif.SpecUniv
import Verif.SpecJson
import Verif.SpecRegistry

/-!
# Specification: programs that register what they use

Conditions on types and on the list of registration calls of a program; they do not mention the state of a codec.
-/

namespace Amino.Spec

/-- The registrations among the calls of a history. -/
def regsOf (ops : List Op) : List Op := ops.filter fun op => (regTid op).isSome

variable (Γ : Prog)

/-- Go's method sets: what a type implements, the pointer to its base type implements. -/
def MethodSets : Prop := ∀ t id, Γ.implements t id = true → Γ.implements (.ptr (.base t.deref)) id = true

/-- The supported types of a program that calls `ops` (compare `Universe`). -/
structure Program (ops : List Op) (S : TId → FOpts → Prop) : Prop where
  noMap : ∀ {id fo e}, S id fo → Γ.shape id ≠ .map e
  /-- interfaces are registered -/
  registered : ∀ {id fo}, S id fo → Γ.shape id = .iface → ∃ prio always, .iface id prio always ∈ ops
  floats : ∀ {id fo fs}, S id fo → Γ.shape id = .struct fs → ∀ f ∈ fs, Γ.badFloat f = false
  marsh : ∀ {id fo rid m}, S id fo → Γ.marsh id = some (rid, m) →
    (∃ um, Γ.unmarsh id = some (rid, um)) ∧ S rid fo ∧ Γ.isIface id = false ∧ Γ.isIface rid = false ∧
      (fixedKind Γ id fo = false → fixedKind Γ rid fo = false)
  noMarsh : ∀ {id fo}, S id fo → Γ.marsh id = none → Γ.unmarsh id = none
  slice : ∀ {id fo e}, S id fo → Γ.shape id = .slice e → Γ.marsh id = none → ListOk Γ S e fo
  array : ∀ {id fo n e}, S id fo → Γ.shape id = .array n e → Γ.marsh id = none → ListOk Γ S e fo
  struct : ∀ {id fo fs}, S id fo → Γ.shape id = .struct fs → Γ.marsh id = none → FieldsOk Γ S 0 fs
  /-- types registered for an interface are supported, are structs or lists of structs where the position needs it,
  and are registered in a form that implements the interface -/
  impl : ∀ {id fo t name}, S id fo → Γ.shape id = .iface → .conc t name ∈ ops →
    Γ.implements (.ptr (.base t.deref)) id = true →
    S t.deref fo ∧ (fo.fnum = 1 → Γ.structOrRep t.deref = true) ∧ Γ.implements t id = true

/-- The same for JSON (compare `JUniv`). -/
structure JProgram (J : JLib) (fl : Bool) (ops : List Op) (S : TId → Prop) : Prop where
  registered : ∀ {id}, S id → Γ.shape id = .iface → ∃ prio always, .iface id prio always ∈ ops
  tagged : ∀ {id fs}, S id → Γ.shape id = .struct fs → ∀ f ∈ fs, Γ.badFloat f = false
  methods : ∀ {id}, S id → (∀ a, J.marsh id a = none) ∧ J.unmarsh id = none
  time : ∀ {id}, S id → Γ.shape id = .time → Γ.marsh id = none
  floats : ∀ {id}, S id → Γ.shape id = .float32 ∨ Γ.shape id = .float64 → fl = true
  marsh : ∀ {id rid m}, S id → Γ.marsh id = some (rid, m) → (∃ um, Γ.unmarsh id = some (rid, um)) ∧ S rid
  noMarsh : ∀ {id}, S id → Γ.marsh id = none → Γ.unmarsh id = none
  slice : ∀ {id e}, S id → Γ.shape id = .slice e → Γ.isByteKind e = false → JOk Γ S e
  array : ∀ {id n e}, S id → Γ.shape id = .array n e → if Γ.isByteKind e then e = .base Γ.byteId else JOk Γ S e
  map : ∀ {id e}, S id → Γ.shape id = .map e → JOk Γ S e
  field : ∀ {id fs f}, S id → Γ.shape id = .struct fs → f ∈ fs → f.visible = true →
    JOk Γ S f.ty ∧ Utf8 f.opts.jsonName
  names : ∀ {id fs}, S id → Γ.shape id = .struct fs →
    ((fs.filter fun f => f.visible).map fun f => f.opts.jsonName).Nodup
  impl : ∀ {id t name}, S id → Γ.shape id = .iface → .conc t name ∈ ops →
    Γ.implements (.ptr (.base t.deref)) id = true → S t.deref ∧ PlainName name ∧ Γ.implements t id = true

end Amino.Spec
