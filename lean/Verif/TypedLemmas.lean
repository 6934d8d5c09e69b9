import Verif.SpecTypes

namespace Amino
variable {Γ : Prog}

theorem fieldsTy_nil : FieldsTy Γ [] [] := ⟨rfl, by simp⟩

theorem fieldsTy_cons {f : Field} {fs : List Field} {v : Val} {vs : List Val} :
    FieldsTy Γ (f :: fs) (v :: vs) ↔ HasTy Γ f.ty v ∧ FieldsTy Γ fs vs := by
  unfold FieldsTy
  simp only [List.length_cons, Nat.add_right_cancel_iff, List.zip_cons_cons, List.mem_cons,
    forall_eq_or_imp]
  constructor
  · rintro ⟨h1, h2, h3⟩; exact ⟨h2, h1, h3⟩
  · rintro ⟨h1, h2, h3⟩; exact ⟨h2, h1, h3⟩

theorem hasTy_wrap {t : Ty} {v : Val} (h : HasTy Γ (.base t.deref) v) : HasTy Γ t (wrapTy t v) := by
  induction t with
  | base id => exact h
  | ptr t ih => exact .ptr (ih h)

theorem hasTy_zeroTy (hz : ∀ id, HasTy Γ (.base id) (Γ.zero id)) (t : Ty) : HasTy Γ t (Γ.zeroTy t) := by
  cases t with
  | base id => exact hz id
  | ptr t => exact .ptrNil

theorem hasTy_derefPrior (hz : ∀ id, HasTy Γ (.base id) (Γ.zero id)) {t : Ty} {v : Val}
    (h : HasTy Γ t v) : HasTy Γ (.base t.deref) (Γ.derefPrior t v) := by
  induction t generalizing v with
  | base id => exact h
  | ptr t ih =>
    cases h with
    | ptrNil => exact ih (hasTy_zeroTy hz t)
    | ptr h => exact ih h

theorem hasTy_derefVal {t : Ty} {v dv : Val} (h : HasTy Γ t v) (hd : derefVal t v = some dv) :
    HasTy Γ (.base t.deref) dv := by
  induction t generalizing v with
  | base id => simp only [derefVal, Option.some.injEq] at hd; subst hd; exact h
  | ptr t ih =>
    cases h with
    | ptrNil => simp [derefVal] at hd
    | ptr h => exact ih h hd

theorem hasTy_derefZero (hz : ∀ id, HasTy Γ (.base id) (Γ.zero id)) {t : Ty} {v : Val}
    (h : HasTy Γ t v) : HasTy Γ (.base t.deref) (Γ.derefZero t v) := by
  unfold Prog.derefZero
  split
  · rename_i h'; exact hasTy_derefVal h h'
  · exact hz _

theorem hasTy_default (hz : ∀ id, HasTy Γ (.base id) (Γ.zero id)) (t : Ty) :
    HasTy Γ t (Γ.defaultValue t) := by
  unfold Prog.defaultValue
  split
  · rename_i h; exact hasTy_wrap (.time h (by decide) (by decide) (by decide) (by decide))
  · exact hasTy_zeroTy hz t

end Amino
