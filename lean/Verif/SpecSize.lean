import Verif.DecFuel

/-!
# Specification: how much memory a value takes
-/

namespace Amino.Spec

mutual
/-- Number of components, bytes of strings and byte slices included. -/
def vsize : Val → Nat
  | .str s => 1 + s.length
  | .bytes b => 1 + b.length
  | .ptr v => 1 + vsize v
  | .iface _ v => 1 + vsize v
  | .list vs => 1 + vsizes vs
  | .struct vs => 1 + vsizes vs
  | .map kvs => 1 + vsizeKvs kvs
  | .bool _ | .int _ | .f32 _ | .f64 _ | .time _ _ | .nil => 1
def vsizes : List Val → Nat
  | [] => 0
  | v :: vs => vsize v + vsizes vs
def vsizeKvs : List (Bytes × Val) → Nat
  | [] => 0
  | (k, v) :: kvs => k.length + vsize v + vsizeKvs kvs
end

/-- Number of pointers of a type. -/
def depth : Ty → Nat
  | .base _ => 0
  | .ptr t => 1 + depth t

/-- The types of a program are finite things: `B` bounds the size of zero values, the number of fields and the number
of pointers in front of a component.  UnmarshalAmino methods do not blow up the representation, and elements of packed
arrays have none. -/
structure Bounded (Γ : Prog) (B : Nat) : Prop where
  zero : ∀ id, vsize (Γ.zero id) ≤ B
  fields : ∀ {id fs}, Γ.shape id = .struct fs → fs.length ≤ B ∧ ∀ f ∈ fs, depth f.ty ≤ B
  elem : ∀ {id e}, (Γ.shape id).elem? = some e → depth e ≤ B
  array : ∀ {id n e}, Γ.shape id = .array n e → Γ.isLen e.deref = false → Γ.unmarsh e.deref = none
  user : ∀ {id rid um p r v}, Γ.unmarsh id = some (rid, um) → um p r = .ok v → vsize v ≤ vsize p + vsize r + B

end Amino.Spec
