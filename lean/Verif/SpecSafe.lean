import Verif.SpecJson3

/-!
# Specification: text that can be put into HTML, into a script and on one line
-/

namespace Amino.Spec

/-- A character that is no control character, no `<`, `>` or `&`, and no line or paragraph separator. -/
def SafeChar (ch : Char) : Prop :=
  0x20 ≤ ch.toNat ∧ ch ≠ '<' ∧ ch ≠ '>' ∧ ch ≠ '&' ∧ ch.toNat ≠ 0x2028 ∧ ch.toNat ≠ 0x2029

/-- The UTF-8 encoding of such characters. -/
def SafeText (b : Bytes) : Prop := ∃ cs : List Char, utf8 cs = b ∧ ∀ ch ∈ cs, SafeChar ch

/-- What amino writes as it is: the names of registered types. -/
def SafeNames (c : Codec) : Prop := ∀ id ci, c.conc? id = some ci → SafeText ci.name

/-- What other code returns: floats and times are formatted by the standard library, and methods MarshalJSON return
anything. -/
structure SafeLib (J : JLib) : Prop where
  f32 : ∀ {x b}, J.f32Text x = some b → SafeText b
  f64 : ∀ {x b}, J.f64Text x = some b → SafeText b
  time : ∀ {s ns b}, J.timeText s ns = some b → SafeText b
  marsh : ∀ {id a m v b}, J.marsh id a = some m → m v = .ok b → SafeText b

end Amino.Spec
