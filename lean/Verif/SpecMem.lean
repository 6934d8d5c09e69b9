import Verif.MemDecode

/-!
# Specification for Unmarshal on memory
-/

namespace Amino.Spec

/-- The locations that make up the variable at `l`: its parts, what its pointers point to, the parts of that, and so on.
Slices, maps and interface values are not followed. -/
inductive Owned (h : Mem) (l : Loc) : Loc → Prop
  | self : Owned h l l
  | part {m : Loc} {i : Nat} : Owned h l m → Owned h l ⟨m.addr, m.path ++ [i]⟩
  | ptr {m m' : Loc} : Owned h l m → h.get m = some (.ptr m') → Owned h l m'

/-- A value refers to variable `a`. -/
inductive MRefs : MVal → Nat → Prop
  | ptr {l : Loc} : MRefs (.ptr l) l.addr
  | slice {a off len : Nat} : MRefs (.slice a off len) a
  | map {a : Nat} : MRefs (.map a) a
  | arr {vs : List MVal} {v : MVal} {a : Nat} : v ∈ vs → MRefs v a → MRefs (.arr vs) a
  | struct {vs : List MVal} {v : MVal} {a : Nat} : v ∈ vs → MRefs v a → MRefs (.struct vs) a
  | iface {t : Ty} {v : MVal} {a : Nat} : MRefs v a → MRefs (.iface t v) a

/-- The variables that can be reached from a location by any references. -/
inductive Reached (h : Mem) (l : Loc) : Nat → Prop
  | ref {v : MVal} {a : Nat} : h.get l = some v → MRefs v a → Reached h l a
  | more {v : MVal} {a b : Nat} : Reached h l a → h[a]? = some v → MRefs v b → Reached h l b

end Amino.Spec
