import Verif.EvolveLemmas

/-!
# Values of old types have counterparts in the new types
-/

namespace Amino
open Spec

variable {Γ : Prog} {c c' : Codec} {D : Nat} {R : Bool → TId → TId → Prop}

theorem exists_list {α β : Type} {P : α → β → Prop} {as : List α} (h : ∀ a ∈ as, ∃ b, P a b) :
    ∃ bs : List β, as.length = bs.length ∧ ∀ p ∈ as.zip bs, P p.1 p.2 := by
  induction as with
  | nil => exact ⟨[], rfl, by simp⟩
  | cons a as ih =>
    obtain ⟨b, hb⟩ := h a (by simp)
    obtain ⟨bs, h1, h2⟩ := ih fun x hx => h x (by simp [hx])
    refine ⟨b :: bs, by simp [h1], ?_⟩
    intro p hp
    simp only [List.zip_cons_cons, List.mem_cons] at hp
    rcases hp with rfl | hp
    · exact hb
    · exact h2 p hp

theorem zip_snd {α β : Type} {P : β → Prop} {as : List α} {bs : List β} (hl : as.length = bs.length)
    (h : ∀ p ∈ as.zip bs, P p.2) : ∀ b ∈ bs, P b := by
  intro b hb
  obtain ⟨i, hi, rfl⟩ := List.getElem_of_mem hb
  exact h (as[i]'(by omega), bs[i]) (List.mem_iff_getElem.2 ⟨i, by simp; omega, by simp⟩)

theorem hasTy_zero (hT : Γ.Typed) (t : Ty) : HasTy Γ t (Γ.zeroTy t) := by
  cases t with
  | base id => exact hT.zero id
  | ptr t => exact .ptrNil

theorem inRange_widens {k k' : IntKind} (h : widens k k' = true) {i : Int} (hi : k.inRange i) : k'.inRange i := by
  cases k <;> cases k' <;> simp [widens] at h <;>
    simp [IntKind.inRange, IntKind.signed, IntKind.bits] at hi ⊢ <;> omega

theorem valTo_exists (hE : Evolves Γ c c' D R) (hT : Γ.Typed) (hI : ImplTo Γ R) {t : Ty} {v : Val} (h : HasTy Γ t v) :
    ∀ {b : Bool} {t' : Ty}, SamePtrs (R b) t t' → ∃ v', ValTo Γ c' D R b t t' v v' ∧ HasTy Γ t' v' := by
  induction h with
  | ptrNil =>
    intro b t' hp
    cases hp
    exact ⟨_, .ptrNil, .ptrNil⟩
  | ptr _ ih =>
    intro b t' hp
    cases hp with
    | ptr hp =>
      obtain ⟨v', h1, h2⟩ := ih hp
      exact ⟨_, .ptr h1, .ptr h2⟩
  | bool hs =>
    intro b t' hp
    cases hp with | base hR =>
    have := hE.shape hR
    rw [hs] at this
    generalize hs' : Γ.shape _ = s' at this
    cases this
    exact ⟨_, .same (by simp) (by simp) (by simp), .bool hs'⟩
  | int hs hi =>
    intro b t' hp
    cases hp with | base hR =>
    have := hE.shape hR
    rw [hs] at this
    generalize hs' : Γ.shape _ = s' at this
    cases this with
    | int => exact ⟨_, .same (by simp) (by simp) (by simp), .int hs' hi⟩
    | widen _ hw => exact ⟨_, .same (by simp) (by simp) (by simp), .int hs' (inRange_widens hw hi)⟩
  | f32 hs hi =>
    intro b t' hp
    cases hp with | base hR =>
    have := hE.shape hR
    rw [hs] at this
    generalize hs' : Γ.shape _ = s' at this
    cases this
    exact ⟨_, .same (by simp) (by simp) (by simp), .f32 hs' hi⟩
  | f64 hs =>
    intro b t' hp
    cases hp with | base hR =>
    have := hE.shape hR
    rw [hs] at this
    generalize hs' : Γ.shape _ = s' at this
    cases this
    exact ⟨_, .same (by simp) (by simp) (by simp), .f64 hs'⟩
  | str hs =>
    intro b t' hp
    cases hp with | base hR =>
    have := hE.shape hR
    rw [hs] at this
    generalize hs' : Γ.shape _ = s' at this
    cases this
    exact ⟨_, .same (by simp) (by simp) (by simp), .str hs'⟩
  | time hs h1 h2 h3 h4 =>
    intro b t' hp
    cases hp with | base hR =>
    have := hE.shape hR
    rw [hs] at this
    generalize hs' : Γ.shape _ = s' at this
    cases this
    exact ⟨_, .same (by simp) (by simp) (by simp), .time hs' h1 h2 h3 h4⟩
  | sliceNil hs =>
    intro b t' hp
    cases hp with | base hR =>
    have := hE.shape hR
    rw [hs] at this
    generalize hs' : Γ.shape _ = s' at this
    cases this
    exact ⟨_, .same (by simp) (by simp) (by simp), .sliceNil hs'⟩
  | sliceBytes hs hb =>
    intro b t' hp
    cases hp with | base hR =>
    have := hE.shape hR
    rw [hs] at this
    generalize hs' : Γ.shape _ = s' at this
    cases this with | slice he =>
    exact ⟨_, .same (by simp) (by simp) (by simp), .sliceBytes hs' (by rw [samePtrs_byteKind hE he, hb])⟩
  | slice hs hb _ ih =>
    intro b t' hp
    cases hp with | base hR =>
    have := hE.shape hR
    rw [hs] at this
    generalize hs' : Γ.shape _ = s' at this
    cases this with | slice he =>
    obtain ⟨vs', h1, h2⟩ := exists_list fun v hv => ih v hv he
    refine ⟨.list vs', .list (by rw [hs]; rfl) (by rw [hs']; rfl) h1 fun p hp => (h2 p hp).1,
      .slice hs' (by rw [samePtrs_byteKind hE he, hb]) (zip_snd h1 fun p hp => (h2 p hp).2)⟩
  | arrayBytes hs hb hn =>
    intro b t' hp
    cases hp with | base hR =>
    have := hE.shape hR
    rw [hs] at this
    generalize hs' : Γ.shape _ = s' at this
    cases this with | array he =>
    exact ⟨_, .same (by simp) (by simp) (by simp), .arrayBytes hs' (by rw [samePtrs_byteKind hE he, hb]) hn⟩
  | array hs hb hn _ ih =>
    intro b t' hp
    cases hp with | base hR =>
    have := hE.shape hR
    rw [hs] at this
    generalize hs' : Γ.shape _ = s' at this
    cases this with | array he =>
    obtain ⟨vs', h1, h2⟩ := exists_list fun v hv => ih v hv he
    refine ⟨.list vs', .list (by rw [hs]; rfl) (by rw [hs']; rfl) h1 fun p hp => (h2 p hp).1,
      .array hs' (by rw [samePtrs_byteKind hE he, hb]) (by omega) (zip_snd h1 fun p hp => (h2 p hp).2)⟩
  | mapNil hs =>
    intro b t' hp
    cases hp with | base hR =>
    have := hE.shape hR
    rw [hs] at this
    cases this
  | map hs =>
    intro b t' hp
    cases hp with | base hR =>
    have := hE.shape hR
    rw [hs] at this
    cases this
  | ifaceNil hs =>
    intro b t' hp
    cases hp with | base hR =>
    have := hE.shape hR
    rw [hs] at this
    generalize hs' : Γ.shape _ = s' at this
    cases this
    exact ⟨_, .same (by simp) (by simp) (by simp), .ifaceNil hs'⟩
  | iface hs hi _ ih =>
    intro b t' hp
    cases hp with | base hR =>
    have := hE.shape hR
    rw [hs] at this
    generalize hs' : Γ.shape _ = s' at this
    cases this
    obtain ⟨u, hu, hiu⟩ := hI hR hs hi
    obtain ⟨v', h1, h2⟩ := ih hu
    exact ⟨_, .iface hu h1, .iface hs' hiu h2⟩
  | struct hs hl hty ih =>
    intro b t' hp
    cases hp with | base hR =>
    rename_i fs vs _
    have := hE.shape hR
    rw [hs] at this
    generalize hs' : Γ.shape _ = s' at this
    cases this with | struct hl' hf hlt hgs =>
    rename_i fs' gs
    have hold : ∃ vs' : List Val, fs.length = vs'.length ∧
        (∀ p ∈ (fs.zip fs').zip (vs.zip vs'), p.1.1.visible = true →
          ValTo Γ c' D R (fixedTag p.1.1) p.1.1.ty p.1.2.ty p.2.1 p.2.2) ∧
        ∀ p ∈ fs'.zip vs', HasTy Γ p.1.ty p.2 := by
      clear hs hs' hgs hlt hR
      clear hty
      induction fs generalizing vs fs' with
      | nil =>
        cases fs' with
        | nil => exact ⟨[], rfl, by simp, by simp⟩
        | cons => simp at hl'
      | cons f fs ihf =>
        cases fs' with
        | nil => simp at hl'
        | cons f' fs' =>
        cases vs with
        | nil => simp at hl
        | cons v vs =>
          obtain ⟨vs', i1, i2, i3⟩ := ihf (by simpa using hl) (fun p hp => ih p (List.mem_cons_of_mem _ hp)) (by simpa using hl')
            (fun p hp => hf p (by simp [hp]))
          have hff := hf (f, f') (by simp)
          have : ∃ v', (f.visible = true → ValTo Γ c' D R (fixedTag f) f.ty f'.ty v v') ∧ HasTy Γ f'.ty v' := by
            cases hv : f.visible with
            | true =>
              obtain ⟨v', j1, j2⟩ := ih (f, v) (by simp) (hff.type hv)
              exact ⟨v', fun _ => j1, j2⟩
            | false => exact ⟨Γ.zeroTy f'.ty, by simp, hasTy_zero hT _⟩
          obtain ⟨v', j1, j2⟩ := this
          refine ⟨v' :: vs', by simp [i1], ?_, ?_⟩
          · intro p hp
            simp only [List.zip_cons_cons, List.mem_cons] at hp
            rcases hp with rfl | hp
            · exact j1
            · exact i2 p hp
          · intro p hp
            simp only [List.zip_cons_cons, List.mem_cons] at hp
            rcases hp with rfl | hp
            · exact j2
            · exact i3 p hp
    obtain ⟨vs', i1, i2, i3⟩ := hold
    obtain ⟨us, j1, j2⟩ := exists_list (as := gs)
        (P := fun g u => (g.visible = true → Unsent Γ c' D g.ty u) ∧ HasTy Γ g.ty u) fun g hg => by
      cases hv : g.visible with
      | true =>
        obtain ⟨_, u, k1, k2⟩ := hgs g hg hv
        exact ⟨u, fun _ => k1, k2⟩
      | false => exact ⟨Γ.zeroTy g.ty, by simp, hasTy_zero hT _⟩
    refine ⟨.struct (vs' ++ us), .struct hs hs' hl' hl (by omega) j1 i2 fun p hp => (j2 p hp).1,
      .struct hs' (by simp [← i1, ← j1, hl']) ?_⟩
    rw [List.zip_append (by omega)]
    intro p hp
    rcases List.mem_append.1 hp with hp | hp
    · exact i3 p hp
    · exact (j2 p hp).2

end Amino
