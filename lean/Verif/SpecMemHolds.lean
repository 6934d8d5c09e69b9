import Verif.MemEncode
import Verif.SpecMemRep

/-!
# Values in memory as trees, and values that go on for ever
-/

namespace Amino.Spec

section
variable (Γ : Prog) (h : Mem)

mutual
/-- Following all references from a value in memory, of the given type, gives the tree.  Variables may be met any number of
times, pointers may lead into structs and arrays, slices may overlap.  The variable of a map holds its keys and values in
turn. -/
inductive Unfolds : Ty → MVal → Val → Prop
  | prim {id : TId} {v : Val} : scalarShape (Γ.shape id) = true → Unfolds (.base id) (.prim v) v
  | bytes {id : TId} {n : Nat} {e : Ty} {b : Bytes} : Γ.shape id = .array n e → Γ.isByteKind e = true →
      Unfolds (.base id) (.prim (.bytes b)) (.bytes b)
  | nilPtr {t : Ty} : Unfolds (.ptr t) .nil .nil
  | ptr {t : Ty} {l : Loc} {w : MVal} {v : Val} : h.get l = some w → Unfolds t w v → Unfolds (.ptr t) (.ptr l) (.ptr v)
  | nil {id : TId} : nilShape (Γ.shape id) = true → Unfolds (.base id) .nil .nil
  | byteSlice {id : TId} {e : Ty} {a off len : Nat} {b : Bytes} : Γ.shape id = .slice e → Γ.isByteKind e = true →
      h[a]? = some (.prim (.bytes b)) → off + len ≤ b.length →
      Unfolds (.base id) (.slice a off len) (.bytes ((b.drop off).take len))
  | slice {id : TId} {e : Ty} {a off len : Nat} {ws : List MVal} {vs : List Val} :
      Γ.shape id = .slice e → Γ.isByteKind e = false → h[a]? = some (.arr ws) → off + len ≤ ws.length →
      UnfoldsL (List.replicate len e) ((ws.drop off).take len) vs → Unfolds (.base id) (.slice a off len) (.list vs)
  | arr {id : TId} {n : Nat} {e : Ty} {ws : List MVal} {vs : List Val} : Γ.shape id = .array n e →
      Γ.isByteKind e = false → UnfoldsL (List.replicate n e) ws vs → Unfolds (.base id) (.arr ws) (.list vs)
  | struct {id : TId} {fs : List Field} {ws : List MVal} {vs : List Val} : Γ.shape id = .struct fs →
      UnfoldsL (fs.map Field.ty) ws vs → Unfolds (.base id) (.struct ws) (.struct vs)
  | iface {id : TId} {t : Ty} {w : MVal} {v : Val} : Γ.shape id = .iface → Unfolds t w v →
      Unfolds (.base id) (.iface t w) (.iface t v)
  | map {id : TId} {e : Ty} {a : Nat} {ws : List MVal} {kvs : List (Bytes × Val)} : Γ.shape id = .map e →
      h[a]? = some (.arr ws) → UnfoldsE e ws kvs → Unfolds (.base id) (.map a) (.map kvs)

/-- The same for lists of values of the given types. -/
inductive UnfoldsL : List Ty → List MVal → List Val → Prop
  | nil : UnfoldsL [] [] []
  | cons {t : Ty} {w : MVal} {v : Val} {ts : List Ty} {ws : List MVal} {vs : List Val} :
      Unfolds t w v → UnfoldsL ts ws vs → UnfoldsL (t :: ts) (w :: ws) (v :: vs)

/-- The same for the entries of a map. -/
inductive UnfoldsE : Ty → List MVal → List (Bytes × Val) → Prop
  | nil {e : Ty} : UnfoldsE e [] []
  | cons {e : Ty} {k : Bytes} {w : MVal} {v : Val} {ws : List MVal} {kvs : List (Bytes × Val)} :
      Unfolds e w v → UnfoldsE e ws kvs → UnfoldsE e (.prim (.str k) :: w :: ws) ((k, v) :: kvs)
end

/-- A value of a type leads through all its pointers to a value. -/
inductive Leads : Ty → MVal → MVal → Prop
  | base {id : TId} {w : MVal} : Leads (.base id) w w
  | ptr {t : Ty} {l : Loc} {w x : MVal} : h.get l = some w → Leads t w x → Leads (.ptr t) (.ptr l) x

/-- The value is, behind pointers, in a visible field of the struct, an element of the list, or what the interface value
holds.  Types with MarshalAmino are not taken apart, nor are lists of lists. -/
inductive PartOf : TId × MVal → TId × MVal → Prop
  | field {id : TId} {fs : List Field} {ws : List MVal} {i : Nat} {f : Field} {w x : MVal} : Γ.marsh id = none →
      Γ.shape id = .struct fs → fs[i]? = some f → ws[i]? = some w → f.visible = true → Leads h f.ty w x →
      PartOf (id, .struct ws) (f.ty.deref, x)
  | slice {id : TId} {e : Ty} {a off len : Nat} {ws : List MVal} {w x : MVal} : Γ.marsh id = none → Γ.shape id = .slice e →
      Γ.isByteKind e = false → Γ.isListKind e = false → h[a]? = some (.arr ws) → w ∈ (ws.drop off).take len → Leads h e w x →
      PartOf (id, .slice a off len) (e.deref, x)
  | arr {id : TId} {n : Nat} {e : Ty} {ws : List MVal} {w x : MVal} : Γ.marsh id = none → Γ.shape id = .array n e →
      Γ.isByteKind e = false → Γ.isListKind e = false → w ∈ ws → Leads h e w x → PartOf (id, .arr ws) (e.deref, x)
  | iface {id : TId} {t : Ty} {w x : MVal} : Γ.marsh id = none → Γ.shape id = .iface → Leads h t w x →
      PartOf (id, .iface t w) (t.deref, x)

/-- A part of a part of … -/
inductive Within : TId × MVal → TId × MVal → Prop
  | part {x y : TId × MVal} : PartOf Γ h x y → Within x y
  | more {x y z : TId × MVal} : PartOf Γ h x y → Within y z → Within x z

/-- The value has a part, that has a part, and so on for ever. -/
def Endless (x : TId × MVal) : Prop :=
  ∃ s : Nat → TId × MVal, s 0 = x ∧ ∀ n, PartOf Γ h (s n) (s (n + 1))

end

/-- MarshalAmino methods do on memory what they do on trees. -/
def MarshFollow (Γ : EProg) : Prop :=
  ∀ id rid m, Γ.marsh id = some (rid, m) → ∀ (h : Mem) (w : MVal) (v : Val), Unfolds Γ.toProg h (.base id) w v →
    match Γ.marshM id h w, m v with
    | .ok (w', h'), .ok r => Unfolds Γ.toProg h' (.base rid) w' r
    | .err e, .err e' => e = e'
    | .panic p, .panic p' => p = p'
    | .oof, .oof => True
    | _, _ => False

end Amino.Spec
