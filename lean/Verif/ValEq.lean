import Verif.Types

/-! # Decidable equality of values (used to evaluate concrete examples) -/

namespace Amino

mutual
def Val.eqb : Val → Val → Bool
  | .bool a, .bool b => a == b
  | .int a, .int b => a == b
  | .f32 a, .f32 b => a == b
  | .f64 a, .f64 b => a == b
  | .str a, .str b => a == b
  | .time a b, .time c d => a == c && b == d
  | .nil, .nil => true
  | .ptr a, .ptr b => a.eqb b
  | .bytes a, .bytes b => a == b
  | .list a, .list b => eqbs a b
  | .struct a, .struct b => eqbs a b
  | .iface t a, .iface u b => t == u && a.eqb b
  | .map a, .map b => eqkvs a b
  | _, _ => false
def Val.eqbs : List Val → List Val → Bool
  | [], [] => true
  | a :: as, b :: bs => a.eqb b && eqbs as bs
  | _, _ => false
def Val.eqkvs : List (Bytes × Val) → List (Bytes × Val) → Bool
  | [], [] => true
  | (k, a) :: as, (l, b) :: bs => k == l && a.eqb b && eqkvs as bs
  | _, _ => false
end

mutual
theorem Val.eqb_iff : (a b : Val) → (a.eqb b = true ↔ a = b)
  | .bool _, b | .int _, b | .f32 _, b | .f64 _, b | .str _, b | .time _ _, b | .nil, b
  | .bytes _, b => by cases b <;> simp [Val.eqb]
  | .ptr a, b => by
    cases b <;> simp [Val.eqb]
    exact Val.eqb_iff a _
  | .list a, b => by
    cases b <;> simp [Val.eqb]
    exact Val.eqbs_iff a _
  | .struct a, b => by
    cases b <;> simp [Val.eqb]
    exact Val.eqbs_iff a _
  | .iface t a, b => by
    cases b <;> simp [Val.eqb]
    intro _
    exact Val.eqb_iff a _
  | .map a, b => by
    cases b <;> simp [Val.eqb]
    exact Val.eqkvs_iff a _
theorem Val.eqbs_iff : (a b : List Val) → (Val.eqbs a b = true ↔ a = b)
  | [], b => by cases b <;> simp [Val.eqbs]
  | a :: as, b => by
    cases b with
    | nil => simp [Val.eqbs]
    | cons b bs => simp only [Val.eqbs, Bool.and_eq_true, Val.eqb_iff a b, Val.eqbs_iff as bs, List.cons.injEq]
theorem Val.eqkvs_iff : (a b : List (Bytes × Val)) → (Val.eqkvs a b = true ↔ a = b)
  | [], b => by cases b <;> simp [Val.eqkvs]
  | (k, a) :: as, b => by
    cases b with
    | nil => simp [Val.eqkvs]
    | cons b bs =>
      obtain ⟨l, b⟩ := b
      simp only [Val.eqkvs, Bool.and_eq_true, Val.eqb_iff a b, Val.eqkvs_iff as bs, List.cons.injEq,
        beq_iff_eq, Prod.mk.injEq]
end

instance : DecidableEq Val := fun a b => decidable_of_iff _ (Val.eqb_iff a b)

end Amino
