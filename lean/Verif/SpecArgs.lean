import Verif.Args
import Verif.SpecPrim

/-!
# Specification: targets of Unmarshal
-/

namespace Amino.Spec

/-- Not a pointer. -/
inductive NoPtr : Arg → Prop
  | none : NoPtr .none
  | value {id : TId} {v : Val} : NoPtr (.value id v)

/-- The bytes are a number of at most 64 bits, and as many bytes as it says. -/
def FramedExactly (bz : Bytes) : Prop := ∃ n l, readVarint bz = some (n, l) ∧ l ≤ 10 ∧ bz.length = l + n ∧ n < 2 ^ 64

end Amino.Spec
