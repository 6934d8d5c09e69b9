import Verif.MemDecode
import Verif.ValEq

/-! # Decidable equality of values in memory (used to evaluate concrete examples) -/

namespace Amino

mutual
def MVal.eqb : MVal → MVal → Bool
  | .prim a, .prim b => a.eqb b
  | .nil, .nil => true
  | .ptr a, .ptr b => a == b
  | .slice a b c, .slice d e f => a == d && b == e && c == f
  | .map a, .map b => a == b
  | .arr a, .arr b => eqbs a b
  | .struct a, .struct b => eqbs a b
  | .iface t a, .iface u b => t == u && a.eqb b
  | _, _ => false
def MVal.eqbs : List MVal → List MVal → Bool
  | [], [] => true
  | a :: as, b :: bs => a.eqb b && eqbs as bs
  | _, _ => false
end

mutual
theorem MVal.eqb_iff : (a b : MVal) → (a.eqb b = true ↔ a = b)
  | .prim v, b => by cases b <;> simp [MVal.eqb, Val.eqb_iff]
  | .nil, b | .ptr _, b | .map _, b => by cases b <;> simp [MVal.eqb]
  | .slice _ _ _, b => by cases b <;> simp [MVal.eqb, and_assoc]
  | .arr a, b => by
    cases b <;> simp [MVal.eqb]
    exact MVal.eqbs_iff a _
  | .struct a, b => by
    cases b <;> simp [MVal.eqb]
    exact MVal.eqbs_iff a _
  | .iface t a, b => by
    cases b <;> simp [MVal.eqb]
    intro _
    exact MVal.eqb_iff a _
theorem MVal.eqbs_iff : (a b : List MVal) → (MVal.eqbs a b = true ↔ a = b)
  | [], b => by cases b <;> simp [MVal.eqbs]
  | a :: as, b => by
    cases b with
    | nil => simp [MVal.eqbs]
    | cons b bs => simp only [MVal.eqbs, Bool.and_eq_true, MVal.eqb_iff a b, MVal.eqbs_iff as bs, List.cons.injEq]
end

instance : DecidableEq MVal := fun a b => decidable_of_iff _ (MVal.eqb_iff a b)

end Amino
