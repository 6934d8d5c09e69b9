import Verif.SpecMem

/-!
# Specification for UnmarshalJSON on memory
-/

namespace Amino.Spec

/-- As `Owned`, and the arrays behind byte slices. -/
inductive OwnedJ (h : Mem) (l : Loc) : Loc → Prop
  | self : OwnedJ h l l
  | part {m : Loc} {i : Nat} : OwnedJ h l m → OwnedJ h l ⟨m.addr, m.path ++ [i]⟩
  | ptr {m m' : Loc} : OwnedJ h l m → h.get m = some (.ptr m') → OwnedJ h l m'
  | bytes {m : Loc} {a off len : Nat} {b : Bytes} : OwnedJ h l m → h.get m = some (.slice a off len) →
      h[a]? = some (.prim (.bytes b)) → OwnedJ h l ⟨a, []⟩

end Amino.Spec
