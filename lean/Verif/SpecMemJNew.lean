import Verif.MemJDecode
import Verif.SpecMemHolds

/-!
# Methods that do on memory what they do on trees, for UnmarshalJSON
-/

namespace Amino.Spec

/-- The variables that can be reached from a value. -/
inductive ReachV (h : Mem) (w : MVal) : Nat → Prop
  | ref {a : Nat} : MRefs w a → ReachV h w a
  | more {v : MVal} {a b : Nat} : ReachV h w a → h[a]? = some v → MRefs v b → ReachV h w b

/-- The value has no references: all its pointers, slices and maps are nil. -/
def NoRefs (w : MVal) : Prop := ∀ a, ¬ MRefs w a

/-- The same outcome; on success the variable at `l` unfolds to the result. -/
def SameAs (Γ : Prog) (t : Ty) (l : Loc) (r : Res Unit × Mem) (d : Res Val) : Prop :=
  match r.1, d with
  | .ok _, .ok v => ∃ w, r.2.get l = some w ∧ Unfolds Γ r.2 t w v
  | .err e, .err e' => e = e'
  | .panic p, .panic p' => p = p'
  | .oof, .oof => True
  | _, _ => False

/-- UnmarshalJSON and UnmarshalAmino methods do on memory what they do on trees, for a receiver without references, and a
representation from which the receiver cannot be reached. -/
structure MethodsFollowJ (Γ : MProg) (J : MJLib) : Prop where
  amino : ∀ id rid um, Γ.unmarsh id = some (rid, um) → ∀ (h : Mem) (l : Loc) (w r : MVal) (p rv : Val), h.get l = some w →
    Unfolds Γ.toProg h (.base id) w p → NoRefs w → Unfolds Γ.toProg h (.base rid) r rv → ¬ ReachV h r l.addr →
    SameAs Γ.toProg (.base id) l (Γ.unmarshM id r l h) (um p rv)
  json : ∀ id um, J.unmarsh id = some um → ∀ (h : Mem) (l : Loc) (w : MVal) (p : Val) (bz : Bytes), h.get l = some w →
    Unfolds Γ.toProg h (.base id) w p → NoRefs w → SameAs Γ.toProg (.base id) l (J.unmarshJM id l bz h) (um p bz)

end Amino.Spec
