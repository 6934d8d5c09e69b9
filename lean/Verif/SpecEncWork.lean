import Verif.SpecSize

/-!
# How deep values nest, and what the MarshalAmino methods of a program may look like, for bounds on the work of Marshal
-/

namespace Amino.Spec

mutual
/-- How deep a value nests: structs, slices, arrays, maps, pointers and interfaces inside each other. -/
def vlevel : Val → Nat
  | .ptr v => 1 + vlevel v
  | .iface _ v => 1 + vlevel v
  | .list vs => 1 + vlevels vs
  | .struct vs => 1 + vlevels vs
  | .map kvs => 1 + vlevelKvs kvs
  | .bool _ | .int _ | .f32 _ | .f64 _ | .time _ _ | .nil | .str _ | .bytes _ => 1
def vlevels : List Val → Nat
  | [] => 0
  | v :: vs => max (vlevel v) (vlevels vs)
def vlevelKvs : List (Bytes × Val) → Nat
  | [] => 0
  | (_, v) :: kvs => max (vlevel v) (vlevelKvs kvs)
end

/-- What MarshalAmino methods return does not nest deeper than the value. -/
def ReprShallow (Γ : Prog) : Prop := ∀ id rid m v r, Γ.marsh id = some (rid, m) → m v = .ok r →
  vlevel r ≤ vlevel v

/-- The type that a MarshalAmino method returns may have such a method itself, and so on, but not more than `R` times. -/
structure ReprRank (Γ : Prog) (rank : TId → Nat) (R : Nat) : Prop where
  bound : ∀ id, rank id ≤ R
  marsh : ∀ {id rid m}, Γ.marsh id = some (rid, m) → rank rid < rank id

end Amino.Spec
