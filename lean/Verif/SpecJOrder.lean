import Verif.SpecJson

/-!
# Specification: JSON texts that differ only in the order of members
-/

namespace Amino.Spec

/-- The same text, with the members of objects in another order. -/
inductive Reordered : Bytes → Bytes → Prop
  | same {b : Bytes} : Reordered b b
  | arr {bs cs : List Bytes} : bs.length = cs.length → (∀ p ∈ bs.zip cs, Reordered p.1 p.2) →
      Reordered (0x5b :: (commas bs ++ [0x5d])) (0x5b :: (commas cs ++ [0x5d]))
  | obj {ms ns ps : List (Bytes × Bytes)} : ms.length = ns.length → (∀ p ∈ ms.zip ns, p.1.1 = p.2.1) →
      (∀ p ∈ ms.zip ns, Reordered p.1.2 p.2.2) → ns.Perm ps →
      Reordered (0x7b :: (commas (ms.map fun m => m.1 ++ 0x3a :: m.2) ++ [0x7d]))
        (0x7b :: (commas (ps.map fun m => m.1 ++ 0x3a :: m.2) ++ [0x7d]))

/-- What is assumed of a program: zero values contain no maps with several entries (in Go: none but nil maps), and methods do not
look at the order in which maps are walked, but for what they write. -/
structure OrderBlind (Γ : Prog) (J : JLib) : Prop where
  zero : ∀ id, SmallMaps (Γ.zero id)
  marsh : ∀ {id rid m v v' r}, Γ.marsh id = some (rid, m) → SameVal v v' → m v = .ok r → ∃ r', m v' = .ok r' ∧ SameVal r r'
  unmarsh : ∀ {id rid um p r r' w}, Γ.unmarsh id = some (rid, um) → SameVal r r' → um p r = .ok w →
    ∃ w', um p r' = .ok w' ∧ SameVal w w'
  json : ∀ {id a m v v' b}, J.marsh id a = some m → SameVal v v' → m v = .ok b → ∃ b', m v' = .ok b' ∧ Reordered b b'

/-- The keys of maps are valid UTF-8, and different (as Go sees to). -/
inductive TextKeys : Val → Prop
  | ptr {v : Val} : TextKeys v → TextKeys (.ptr v)
  | iface {t : Ty} {v : Val} : TextKeys v → TextKeys (.iface t v)
  | list {vs : List Val} : (∀ v ∈ vs, TextKeys v) → TextKeys (.list vs)
  | struct {vs : List Val} : (∀ v ∈ vs, TextKeys v) → TextKeys (.struct vs)
  | map {l : List (Bytes × Val)} : (l.map (·.1)).Nodup → (∀ p ∈ l, Utf8 p.1) → (∀ p ∈ l, TextKeys p.2) → TextKeys (.map l)
  | nil : TextKeys .nil
  | bool {b : Bool} : TextKeys (.bool b)
  | int {i : Int} : TextKeys (.int i)
  | f32 {b : UInt64} : TextKeys (.f32 b)
  | f64 {b : UInt64} : TextKeys (.f64 b)
  | str {s : Bytes} : TextKeys (.str s)
  | bytes {b : Bytes} : TextKeys (.bytes b)
  | time {s ns : Int} : TextKeys (.time s ns)

end Amino.Spec
