import Verif.Types

/-!
# What the types of a program may look like, for bounds on the work of Unmarshal
-/

namespace Amino.Spec

/-- No struct type has more than `F` fields, no array type more than `F` elements. -/
structure Wide (Γ : Prog) (F : Nat) : Prop where
  fields : ∀ {id fs}, Γ.shape id = .struct fs → fs.length ≤ F
  array : ∀ {id n e}, Γ.shape id = .array n e → n ≤ F

end Amino.Spec
