import Verif.SpecTypes

/-!
# Specification: old contents of a variable that must not matter

`Stale Γ t p p'`: the variable contents `p` and `p'` of type `t` differ only in data that unmarshalling replaces.
Fields that are not encoded are not replaced, so they have to agree; non-nil interfaces are refused, so
interfaces have to be nil (or to agree).
-/

namespace Amino.Spec

/-- The variable behind a pointer: a nil pointer is first set to a new zero variable. -/
def target (Γ : Prog) (t : Ty) : Val → Val
  | .ptr v => v
  | _ => match t with
    | .base id => Γ.zero id
    | .ptr _ => .nil

inductive Stale (Γ : Prog) : Ty → Val → Val → Prop
  | same {t : Ty} {v : Val} : Stale Γ t v v
  | ptr {t : Ty} {v v' : Val} : Stale Γ t (target Γ t v) (target Γ t v') → Stale Γ (.ptr t) v v'
  /-- a type whose UnmarshalAmino does not look at the receiver's old contents -/
  | override {id rid : TId} {um : Val → Val → Res Val} {v v' : Val} : Γ.unmarsh id = some (rid, um) →
      (∀ r, um v r = um v' r) → Stale Γ (.base id) v v'
  /-- numbers, strings, times, byte arrays and slices of anything, even of interfaces -/
  | leaf {id : TId} {v v' : Val} : Γ.unmarsh id = none → (∀ fs, Γ.shape id ≠ .struct fs) → Γ.shape id ≠ .iface →
      (∀ n e, Γ.shape id = .array n e → Γ.isByteKind e = true) → Stale Γ (.base id) v v'
  | array {id : TId} {n : Nat} {e : Ty} {vs vs' : List Val} : Γ.unmarsh id = none → Γ.shape id = .array n e →
      vs.length = vs'.length → (∀ q ∈ vs.zip vs', Stale Γ e q.1 q.2) → Stale Γ (.base id) (.list vs) (.list vs')
  /-- fields: the encoded ones stale, the others equal -/
  | struct {id : TId} {fs : List Field} {vs vs' : List Val} : Γ.unmarsh id = none → Γ.shape id = .struct fs →
      vs.length = fs.length → vs'.length = fs.length →
      (∀ q ∈ fs.zip (vs.zip vs'), q.1.visible = true → Stale Γ q.1.ty q.2.1 q.2.2) →
      (∀ q ∈ fs.zip (vs.zip vs'), q.1.visible = false → q.2.1 = q.2.2) →
      Stale Γ (.base id) (.struct vs) (.struct vs')

/-- Old contents with no non-nil interface on the way and no fields that are not encoded. -/
inductive Clean (Γ : Prog) : Ty → Val → Prop
  | nilPtr {t : Ty} : Clean Γ (.ptr t) .nil
  | ptr {t : Ty} {v : Val} : Clean Γ t v → Clean Γ (.ptr t) (.ptr v)
  | override {id rid : TId} {um : Val → Val → Res Val} {v : Val} : Γ.unmarsh id = some (rid, um) →
      (∀ r, um v r = um (Γ.zero id) r) → Clean Γ (.base id) v
  | leaf {id : TId} {v : Val} : Γ.unmarsh id = none → (∀ fs, Γ.shape id ≠ .struct fs) → Γ.shape id ≠ .iface →
      (∀ n e, Γ.shape id = .array n e → Γ.isByteKind e = true) → Clean Γ (.base id) v
  | iface {id : TId} : Γ.shape id = .iface → Clean Γ (.base id) .nil
  | array {id : TId} {n : Nat} {e : Ty} {vs : List Val} : Γ.unmarsh id = none → Γ.shape id = .array n e →
      Γ.isByteKind e = false → vs.length = n → (∀ v ∈ vs, Clean Γ e v) → Clean Γ (.base id) (.list vs)
  | struct {id : TId} {fs : List Field} {vs : List Val} : Γ.unmarsh id = none → Γ.shape id = .struct fs →
      vs.length = fs.length → (∀ f ∈ fs, f.visible = true) → (∀ q ∈ fs.zip vs, Clean Γ q.1.ty q.2) →
      Clean Γ (.base id) (.struct vs)

end Amino.Spec
