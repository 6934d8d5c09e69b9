import Verif.SpecSpace

/-!
# Specification: what JSON code may rely on
-/

namespace Amino.Spec

/-- A JSON text (RFC 8259): one value, with white space around it and between its tokens. -/
inductive IsJson : Bytes → Prop
  | mk {w1 b b' w2 : Bytes} : White w1 → White w2 → Spaced b b' → IsJson (w1 ++ (b' ++ w2))

/-- The library's float and time parsers, and the UnmarshalJSON methods, take nothing but JSON. -/
structure LibJson (J : JLib) : Prop where
  f32 : ∀ {b x}, J.f32Parse b = some x → IsJson b
  f64 : ∀ {b x}, J.f64Parse b = some x → IsJson b
  time : ∀ {b x}, J.timeParse b = some x → IsJson b
  unmarsh : ∀ {id um p b v}, J.unmarsh id = some um → um p b = .ok v → IsJson b

/-- Two libraries that differ at most in what they do with texts that are not JSON. -/
structure SameOnJson (J J' : JLib) : Prop where
  f32 : ∀ {b}, IsJson b → J.f32Parse b = J'.f32Parse b
  f64 : ∀ {b}, IsJson b → J.f64Parse b = J'.f64Parse b
  time : ∀ {b}, IsJson b → J.timeParse b = J'.timeParse b
  none : ∀ {id}, J.unmarsh id = none → J'.unmarsh id = none
  some : ∀ {id um}, J.unmarsh id = some um → ∃ um', J'.unmarsh id = some um' ∧ ∀ p b, IsJson b → um p b = um' p b

/-- 64-bit integers, and types that are one to amino (by UnmarshalAmino). -/
inductive Bare64 (Γ : Prog) (J : JLib) : TId → Prop
  | int {id : TId} {k : IntKind} : J.unmarsh id = none → Γ.unmarsh id = none → Γ.shape id = .int k →
      k ∈ [.int, .int64, .uint, .uint64] → Bare64 Γ J id
  | amino {id rid : TId} {um : Val → Val → Res Val} : J.unmarsh id = none → Γ.unmarsh id = some (rid, um) → Bare64 Γ J rid →
      Bare64 Γ J id

end Amino.Spec
