import Verif.SpecSize
import Verif.JsonDecode

/-!
# Specification: programs for which the memory taken by decoded JSON can be bounded
-/

namespace Amino.Spec

/-- The types of a program are finite things: `B` bounds the size of zero values, the number of fields and the number
of pointers in front of a component.  UnmarshalAmino and UnmarshalJSON methods do not blow up what they are given, and chains of
types represented by other types are no longer than `R`. -/
structure JBounded (Γ : Prog) (J : JLib) (rank : TId → Nat) (R B : Nat) : Prop where
  zero : ∀ id, vsize (Γ.zero id) ≤ B
  fields : ∀ {id fs}, Γ.shape id = .struct fs → fs.length ≤ B ∧ ∀ f ∈ fs, depth f.ty ≤ B
  elem : ∀ {id e}, (Γ.shape id = .slice e ∨ (∃ n, Γ.shape id = .array n e) ∨ Γ.shape id = .map e) → depth e ≤ B
  user : ∀ {id rid um p r v}, Γ.unmarsh id = some (rid, um) → um p r = .ok v → vsize v ≤ vsize p + vsize r + B
  method : ∀ {id um p b v}, J.unmarsh id = some um → um p b = .ok v → vsize v ≤ vsize p + B * (b.length + 1)
  chain : ∀ {id rid um}, Γ.unmarsh id = some (rid, um) → rank rid < rank id
  bound : ∀ id, rank id ≤ R

/-- No two encoded fields of a struct have the same JSON name. -/
def OwnNames (Γ : Prog) : Prop :=
  ∀ {id fs}, Γ.shape id = .struct fs → ((fs.filter fun f => f.visible).map fun f => f.opts.jsonName).Nodup

end Amino.Spec
