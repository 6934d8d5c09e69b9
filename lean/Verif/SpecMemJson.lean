import Verif.MemJson
import Verif.SpecMemHolds

/-!
# JSON of values in memory
-/

namespace Amino.Spec

/-- MarshalJSON methods do on memory what they do on trees. -/
def MarshJFollow (Γ : Prog) (J : EJLib) : Prop :=
  ∀ id addr m, J.marsh id addr = some m → ∀ (h : Mem) (w : MVal) (v : Val), Unfolds Γ h (.base id) w v → J.marshJM id addr h w = m v

section
variable (Γ : Prog) (J : EJLib) (h : Mem)

/-- The type is written by amino: it has no methods of its own for it. -/
def NoOwnMethods (id : TId) : Prop := Γ.marsh id = none ∧ ∀ addr, J.marsh id addr = none

/-- The value is, behind pointers, in a visible field of the struct, an element of the list, a value of the map, or what the
interface value holds. -/
inductive JPartOf : TId × MVal → TId × MVal → Prop
  | field {id : TId} {fs : List Field} {ws : List MVal} {i : Nat} {f : Field} {w x : MVal} : NoOwnMethods Γ J id →
      Γ.shape id = .struct fs → fs[i]? = some f → ws[i]? = some w → f.visible = true → Leads h f.ty w x →
      JPartOf (id, .struct ws) (f.ty.deref, x)
  | slice {id : TId} {e : Ty} {a off len : Nat} {ws : List MVal} {w x : MVal} : NoOwnMethods Γ J id → Γ.shape id = .slice e →
      h[a]? = some (.arr ws) → w ∈ (ws.drop off).take len → Leads h e w x → JPartOf (id, .slice a off len) (e.deref, x)
  | arr {id : TId} {n : Nat} {e : Ty} {ws : List MVal} {w x : MVal} : NoOwnMethods Γ J id → Γ.shape id = .array n e →
      w ∈ ws → Leads h e w x → JPartOf (id, .arr ws) (e.deref, x)
  | map {id : TId} {e : Ty} {a i : Nat} {ws : List MVal} {w x : MVal} : NoOwnMethods Γ J id → Γ.shape id = .map e →
      h[a]? = some (.arr ws) → ws[2 * i + 1]? = some w → Leads h e w x → JPartOf (id, .map a) (e.deref, x)
  | iface {id : TId} {t : Ty} {w x : MVal} : NoOwnMethods Γ J id → Γ.shape id = .iface → Leads h t w x →
      JPartOf (id, .iface t w) (t.deref, x)

/-- A part of a part of … -/
inductive JWithin : TId × MVal → TId × MVal → Prop
  | part {x y : TId × MVal} : JPartOf Γ J h x y → JWithin x y
  | more {x y z : TId × MVal} : JPartOf Γ J h x y → JWithin y z → JWithin x z

/-- The value has a part, that has a part, and so on for ever. -/
def JEndless (x : TId × MVal) : Prop :=
  ∃ s : Nat → TId × MVal, s 0 = x ∧ ∀ n, JPartOf Γ J h (s n) (s (n + 1))

end

end Amino.Spec
