import Verif.SpecNorm

/-!
# Specification: what is left of a value when the end of its encoding is missing
-/

namespace Amino.Spec

variable (Γ : Prog)

/-- What a byte slice is, or what its UnmarshalAmino makes of one, if nothing follows its key. -/
inductive NoBytes : TId → Val → Prop
  | slice {id : TId} {e : Ty} : Γ.unmarsh id = none → Γ.shape id = .slice e → Γ.isByteKind e = true → NoBytes id .nil
  | rep {id rid : TId} {um : Val → Val → Res Val} {r v : Val} : Γ.unmarsh id = some (rid, um) → NoBytes rid r →
      um (Γ.zero id) r = .ok v → NoBytes id v

/-- The first elements of a list, and possibly a byte slice of which only the key was there. -/
inductive CutList (e : Ty) : List Val → List Val → Prop
  | front {ws rest : List Val} : CutList e (ws ++ rest) ws
  | key {ws rest : List Val} {w x : Val} : NoBytes Γ e.deref x → CutList e (ws ++ w :: rest) (ws ++ [refs e x])

/-- The field in which the message ends: a repeated field, of which there is at least one element (of an array, all of them), or a
byte slice of which only the key was there. -/
inductive CutVal (f : Field) : Val → Val → Prop
  | list {id : TId} {e : Ty} {ws us : List Val} : f.ty = .base id → (Γ.shape id).elem? = some e → repeated Γ f = true →
      us ≠ [] → CutList Γ e ws us → (∀ n, Γ.shape id = .array n e → us.length = ws.length) → CutVal f (.list ws) (.list us)
  | key {w x : Val} : repeated Γ f = false → NoBytes Γ f.ty.deref x → CutVal f w (refs f.ty x)

/-- Fields that are not there. -/
def missing (fs : List Field) : List Val :=
  fs.map fun f => if f.visible then absent Γ f.ty else match f.ty with | .base id => Γ.zero id | .ptr _ => .nil

/-- `CutFields Γ fs ws us`: of the fields `ws` the first are there, then one of which the end may be missing, the others are
missing. -/
inductive CutFields : List Field → List Val → List Val → Prop
  | missing {fs : List Field} {ws : List Val} : CutFields fs ws (missing Γ fs)
  | last {f : Field} {fs : List Field} {w u : Val} {ws : List Val} : f.visible = true → CutVal Γ f w u →
      CutFields (f :: fs) (w :: ws) (u :: Spec.missing Γ fs)
  | keep {f : Field} {fs : List Field} {w : Val} {ws us : List Val} : CutFields fs ws us → CutFields (f :: fs) (w :: ws) (w :: us)

end Amino.Spec
