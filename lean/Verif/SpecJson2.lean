import Verif.SpecJson
import Verif.SpecStale

/-!
# Specification of further JSON properties
-/

namespace Amino.Spec

/-- White space between JSON tokens. -/
def White (b : Bytes) : Prop := ∀ c ∈ b, c = 0x20 ∨ c = 0x09 ∨ c = 0x0a ∨ c = 0x0d

/-- A decimal integer as JSON allows it: no leading zeros, but `-0` is allowed. -/
inductive IntText : Int → Bytes → Prop
  | pos {ds : Bytes} : IntPart ds → IntText (decVal ds) ds
  | neg {ds : Bytes} : IntPart ds → IntText (-(decVal ds : Int)) (0x2d :: ds)

/-- The word `null` occurs in the text only as the whole text or behind a colon, as the value of a member of an object. -/
def MemberNulls (bz : Bytes) : Prop :=
  ∀ a b, bz = a ++ ([0x6e, 0x75, 0x6c, 0x6c] ++ b) → (a = [] ∧ b = []) ∨ ∃ a' w, White w ∧ a = a' ++ 0x3a :: w

/-- Kinds of which the word `null` can leave old contents: elements of byte slices. -/
def keptByNull (Γ : Prog) : Shape → Bool
  | .slice (.base e) => match Γ.shape e with | .int .uint8 => true | _ => false
  | _ => false

/-- `p` and `p'` agree where UnmarshalJSON does not write: in fields that are not encoded and in fields tagged
`omitempty`; if `nul`, also in what `null` in odd places leaves as it is. -/
inductive JStale (Γ : Prog) (J : JLib) (nul : Bool) : Ty → Val → Val → Prop
  | same {t : Ty} {v : Val} : JStale Γ J nul t v v
  | ptr {t : Ty} {v v' : Val} : JStale Γ J nul t (target Γ t v) (target Γ t v') → JStale Γ J nul (.ptr t) v v'
  /-- a type whose UnmarshalJSON does not look at the receiver's old contents -/
  | method {id : TId} {um : Val → Bytes → Res Val} {v v' : Val} : Γ.shape id ≠ .time → J.unmarsh id = some um →
      (∀ b, um v b = um v' b) → JStale Γ J nul (.base id) v v'
  /-- a type whose UnmarshalAmino does not look at the receiver's old contents -/
  | override {id rid : TId} {um : Val → Val → Res Val} {v v' : Val} : Γ.shape id ≠ .time → J.unmarsh id = none →
      Γ.unmarsh id = some (rid, um) → (∀ r, um v r = um v' r) → JStale Γ J nul (.base id) v v'
  /-- numbers, strings, times, byte arrays, slices, maps and interfaces -/
  | leaf {id : TId} {v v' : Val} : J.unmarsh id = none → Γ.unmarsh id = none → (∀ fs, Γ.shape id ≠ .struct fs) →
      (∀ n e, Γ.shape id = .array n e → Γ.isByteKind e = true) → (nul = true → keptByNull Γ (Γ.shape id) = false) →
      JStale Γ J nul (.base id) v v'
  | array {id : TId} {n : Nat} {e : Ty} {vs vs' : List Val} : J.unmarsh id = none → Γ.unmarsh id = none →
      Γ.shape id = .array n e → vs.length = vs'.length → (∀ q ∈ vs.zip vs', JStale Γ J nul e q.1 q.2) →
      JStale Γ J nul (.base id) (.list vs) (.list vs')
  | struct {id : TId} {fs : List Field} {vs vs' : List Val} : J.unmarsh id = none → Γ.unmarsh id = none →
      Γ.shape id = .struct fs → vs.length = fs.length → vs'.length = fs.length →
      (∀ q ∈ fs.zip (vs.zip vs'), q.1.visible = true → q.1.opts.omitEmpty = false → JStale Γ J nul q.1.ty q.2.1 q.2.2) →
      (∀ q ∈ fs.zip (vs.zip vs'), q.1.visible = false ∨ q.1.opts.omitEmpty = true → q.2.1 = q.2.2) →
      JStale Γ J nul (.base id) (.struct vs) (.struct vs')

/-- The last value a list of members gives to a name. -/
def lastOf (ms : List (Bytes × Bytes)) (n : Bytes) : Option Bytes := ms.reverse.lookup n

end Amino.Spec
