import Verif.SpecMem

/-!
# Memory that holds a tree
-/

namespace Amino.Spec

/-- The kinds whose values contain no references and have no parts. -/
def scalarShape : Shape → Bool
  | .bool | .int _ | .float32 | .float64 | .string | .time => true
  | _ => false

/-- The kinds with a nil value. -/
def nilShape : Shape → Bool
  | .slice _ | .map _ | .iface => true
  | _ => false

section
variable (Γ : Prog) (h : Mem)

mutual
/-- A value in memory, of the given type, has the contents given as a tree.  `own` lists the variables its pointers lead to
(not following slices and interface values), `ro` those that belong to slices and interface values.  Only nil maps are
covered. -/
inductive RepV : Ty → MVal → Val → List Nat → List Nat → Prop
  | prim {id : TId} {v : Val} : scalarShape (Γ.shape id) = true → RepV (.base id) (.prim v) v [] []
  | bytes {id : TId} {n : Nat} {e : Ty} {b : Bytes} : Γ.shape id = .array n e → Γ.isByteKind e = true →
      RepV (.base id) (.prim (.bytes b)) (.bytes b) [] []
  | nilPtr {t : Ty} : RepV (.ptr t) .nil .nil [] []
  | ptr {t : Ty} {a : Nat} {w : MVal} {v : Val} {own ro : List Nat} : h[a]? = some w → RepV t w v own ro →
      RepV (.ptr t) (.ptr ⟨a, []⟩) (.ptr v) (a :: own) ro
  | nil {id : TId} : nilShape (Γ.shape id) = true → RepV (.base id) .nil .nil [] []
  | byteSlice {id : TId} {e : Ty} {a off len : Nat} {b : Bytes} : Γ.shape id = .slice e → Γ.isByteKind e = true →
      h[a]? = some (.prim (.bytes b)) → off + len ≤ b.length →
      RepV (.base id) (.slice a off len) (.bytes ((b.drop off).take len)) [] [a]
  | slice {id : TId} {e : Ty} {a off len : Nat} {ws : List MVal} {vs : List Val} {own ro : List Nat} :
      Γ.shape id = .slice e → Γ.isByteKind e = false → h[a]? = some (.arr ws) → off + len ≤ ws.length →
      RepL (List.replicate len e) ((ws.drop off).take len) vs own ro →
      RepV (.base id) (.slice a off len) (.list vs) [] (a :: (own ++ ro))
  | arr {id : TId} {n : Nat} {e : Ty} {ws : List MVal} {vs : List Val} {own ro : List Nat} : Γ.shape id = .array n e →
      Γ.isByteKind e = false → RepL (List.replicate n e) ws vs own ro → RepV (.base id) (.arr ws) (.list vs) own ro
  | struct {id : TId} {fs : List Field} {ws : List MVal} {vs : List Val} {own ro : List Nat} : Γ.shape id = .struct fs →
      RepL (fs.map Field.ty) ws vs own ro → RepV (.base id) (.struct ws) (.struct vs) own ro
  | iface {id : TId} {t : Ty} {w : MVal} {v : Val} {own ro : List Nat} : Γ.shape id = .iface → RepV t w v own ro →
      RepV (.base id) (.iface t w) (.iface t v) [] (own ++ ro)

/-- The same for lists of values of the given types. -/
inductive RepL : List Ty → List MVal → List Val → List Nat → List Nat → Prop
  | nil : RepL [] [] [] [] []
  | cons {t : Ty} {w : MVal} {v : Val} {o r : List Nat} {ts : List Ty} {ws : List MVal} {vs : List Val} {o' r' : List Nat} :
      RepV t w v o r → RepL ts ws vs o' r' → RepL (t :: ts) (w :: ws) (v :: vs) (o ++ o') (r ++ r')
end

/-- The variable at `l` of type `t` has contents `v`, and is not shared: no two of its pointers lead to the same variable, none
back to itself, and none to the contents of one of its slices or interface values. -/
def Unshared (l : Loc) (t : Ty) (v : Val) (own ro : List Nat) : Prop :=
  (∃ w, h.get l = some w ∧ RepV Γ h t w v own ro) ∧ own.Nodup ∧ (∀ a ∈ own, a ∉ ro) ∧ l.addr ∉ own ∧ l.addr ∉ ro

end

end Amino.Spec
