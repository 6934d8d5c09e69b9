import Verif.Registry

/-!
# What a registration history amounts to

The registrations of a history, read as a set: which types, names and bytes it names, when it is free of conflicts,
and which implementers an interface has.  No state, no order of calls.
-/

namespace Amino
namespace Spec

variable (Γ : Prog) (H : Bytes → Bytes)

/-- The type an operation registers. -/
def regTid : Op → Option TId
  | .iface id _ _ => some id
  | .conc t _ => some t.deref
  | _ => none

/-- What registering a concrete type enters: the type, whether it was given by a pointer, the name and the bytes
derived from it. -/
def concOf : Op → Option ConcInfo
  | .conc t name =>
    match nameToDisfix H name with
    | .ok dp => some { tid := t.deref, ptrPref := t.isPtr, name := name, disamb := dp.1, prefx := dp.2 }
    | _ => none
  | _ => none

/-- The concrete types of a history. -/
def concsOf (ops : List Op) : List ConcInfo := ops.filterMap (concOf H)

/-- The implementers of the interface `id` among the concrete types of a history. -/
def implsOf (ops : List Op) (id : TId) : List ConcInfo :=
  (concsOf H ops).filter fun ci => Γ.implements (.ptr (.base ci.tid)) id

/-- What registering an interface enters, given the whole history. -/
def ifaceOf (ops : List Op) : Op → Option IfaceInfo
  | .iface id prio always =>
    match prioDisfixes H prio with
    | .ok ds => some { tid := id, priority := ds, always := always, impls := implsOf Γ H ops id }
    | _ => none
  | _ => none

/-- The interfaces of a history. -/
def ifacesOf (ops : List Op) : List IfaceInfo := ops.filterMap (ifaceOf Γ H ops)

/-- A registration that is acceptable by itself. -/
def OpOk : Op → Prop
  | .iface id prio _ => Γ.isIface id = true ∧ ∃ ds, prioDisfixes H prio = .ok ds
  | .conc t name =>
    (∀ u, t ≠ .ptr (.ptr u)) ∧ Γ.isIface t.deref = false ∧
    (∀ fs, Γ.shape t.deref = .struct fs → fs.any Γ.badFloat = false) ∧ ∃ dp, nameToDisfix H name = .ok dp
  | _ => True

/-- Two registrations that can live together: different types, different names, different disfix bytes. -/
def Compatible (a b : Op) : Prop :=
  (∀ i, regTid a = some i → regTid b ≠ some i) ∧
  (∀ ca cb, concOf H a = some ca → concOf H b = some cb → ca.name ≠ cb.name ∧ ca.disfix ≠ cb.disfix)

/-- Implementers sharing prefix bytes are all in the priority list. -/
def PrioOk (i : IfaceInfo) : Prop :=
  i.impls.Pairwise fun a b => a.prefx = b.prefx → a.disfix ∈ i.priority ∧ b.disfix ∈ i.priority

/-- A history whose registrations do not conflict. -/
structure Valid (ops : List Op) : Prop where
  each : ∀ op ∈ ops, OpOk Γ H op
  compatible : ops.Pairwise (Compatible H)
  prio : ∀ i ∈ ifacesOf Γ H ops, PrioOk i

end Spec
end Amino
