import Verif.SpecSize
import Verif.SpecTypes
import Verif.JsonText

/-!
# Specification: how much bigger than a value its encoding may be
-/

namespace Amino.Spec

/-- What MarshalAmino methods return is not bigger than the value, or a string or some bytes at most `B` times as big. -/
structure ReprSmall (Γ : Prog) (B : Nat) : Prop where
  marsh : ∀ {id rid m v r}, Γ.marsh id = some (rid, m) → m v = .ok r →
    vsize r ≤ vsize v ∨ (Γ.marsh rid = none ∧ ((∃ s, r = .str s) ∨ ∃ b, r = .bytes b) ∧ vsize r ≤ B * vsize v)

/-- Names of fields and of registered types have at most `B` bytes, so have the texts of floats and times; texts from
MarshalJSON methods have at most `B` bytes per component of the value. -/
structure TextSmall (Γ : Prog) (c : Codec) (J : JLib) (B : Nat) : Prop where
  field : ∀ {id fs}, Γ.shape id = .struct fs → ∀ f ∈ fs, f.opts.jsonName.length ≤ B
  name : ∀ {id ci}, c.conc? id = some ci → ci.name.length ≤ B
  f32 : ∀ {x b}, J.f32Text x = some b → b.length ≤ B
  f64 : ∀ {x b}, J.f64Text x = some b → b.length ≤ B
  time : ∀ {s ns b}, J.timeText s ns = some b → b.length ≤ B
  user : ∀ {id a m v b}, J.marsh id a = some m → m v = .ok b → b.length ≤ B * vsize v

/-- Registered types have a prefix of four and disambiguation bytes of three bytes. -/
def PrefixBytes (c : Codec) : Prop := ∀ id ci, c.conc? id = some ci → ci.prefx.length = 4 ∧ ci.disamb.length = 3

end Amino.Spec
