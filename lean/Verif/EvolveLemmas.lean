import Verif.SpecEvolve
import Verif.PropsRT

/-!
# Related values of related types are written alike
-/

namespace Amino
open Spec

variable {Γ : Prog} {c c' : Codec} {D : Nat} {R : Bool → TId → TId → Prop}

/-- Integers are only widened where no fixed-width tag is in force. -/
def TagOk (b : Bool) (fo : FOpts) : Prop := b = false → fo.fixed32 = false ∧ fo.fixed64 = false

theorem Spec.SamePtrs.deref {Q : TId → TId → Prop} {t t' : Ty} (h : SamePtrs Q t t') : Q t.deref t'.deref := by
  induction h with
  | base h => exact h
  | ptr _ ih => exact ih

theorem Spec.SamePtrs.isPtr {Q : TId → TId → Prop} {t t' : Ty} (h : SamePtrs Q t t') : t'.isPtr = t.isPtr := by
  cases h <;> rfl

theorem valTo_deref {b : Bool} {t t' : Ty} {v v' : Val} (hp : SamePtrs (R b) t t') (h : ValTo Γ c' D R b t t' v v') :
    (derefVal t v = none ∧ derefVal t' v' = none) ∨
      ∃ dv dv', derefVal t v = some dv ∧ derefVal t' v' = some dv' ∧
        ValTo Γ c' D R b (.base t.deref) (.base t'.deref) dv dv' := by
  induction hp generalizing v v' with
  | base _ => exact .inr ⟨v, v', rfl, rfl, h⟩
  | ptr _ ih =>
    cases h with
    | ptrNil => exact .inl ⟨rfl, rfl⟩
    | ptr h => exact ih h

section shapes
variable {b : Bool} {s s' : Shape} (h : ShapeTo Γ c' D R b s s')
include h

theorem shapeTo_typ3 {id id' : TId} (hs : Γ.shape id = s) (hs' : Γ.shape id' = s') {fo fo' : FOpts} (ho : SameOpts fo fo')
    (hb : TagOk b fo) : Γ.typ3 id' fo' = Γ.typ3 id fo := by
  unfold Prog.typ3
  rw [hs, hs']
  cases h with
  | widen h1 h2 =>
    obtain ⟨h3, h4⟩ := hb h1
    rename_i k k'
    cases k <;> cases k' <;> simp_all [widens, ho.fixed32, ho.fixed64]
  | int => rename_i k; cases k <;> simp [ho.fixed32, ho.fixed64]
  | _ => rfl

theorem shapeTo_isStruct {id id' : TId} (hs : Γ.shape id = s) (hs' : Γ.shape id' = s') : Γ.isStruct id' = Γ.isStruct id := by
  unfold Prog.isStruct
  rw [hs, hs']
  cases h <;> rfl

theorem shapeTo_isIface {id id' : TId} (hs : Γ.shape id = s) (hs' : Γ.shape id' = s') : Γ.isIface id' = Γ.isIface id := by
  unfold Prog.isIface
  rw [hs, hs']
  cases h <;> rfl

theorem shapeTo_dflt {v v' : Val} {id id' : TId} (hv : ValTo Γ c' D R b (.base id) (.base id') v v') :
    isDefaultBase s' v' = isDefaultBase s v := by
  cases hv with
  | same => cases h <;> cases v <;> rfl
  | list _ _ hl _ =>
    have : ∀ {vs vs' : List Val}, vs.length = vs'.length → vs'.isEmpty = vs.isEmpty := by
      intro vs vs' h
      cases vs <;> cases vs' <;> simp_all
    cases h <;> simp [isDefaultBase, this hl]
  | iface => cases h <;> rfl
  | struct => cases h <;> rfl

end shapes

theorem samePtrs_byteKind (hE : Evolves Γ c c' D R) {b : Bool} {t t' : Ty} (hp : SamePtrs (R b) t t') :
    Γ.isByteKind t' = Γ.isByteKind t := by
  cases hp with
  | ptr _ => rfl
  | base h =>
    have hs := hE.shape h
    rename_i id id'
    simp only [Prog.isByteKind]
    generalize Γ.shape id = s at hs
    generalize Γ.shape id' = s' at hs
    cases hs with
    | widen h1 h2 => rename_i k k'; cases k <;> cases k' <;> first | rfl | cases h2
    | _ => rfl

theorem samePtrs_listKind (hE : Evolves Γ c c' D R) {b : Bool} {t t' : Ty} (hp : SamePtrs (R b) t t') :
    Γ.isListKind t' = Γ.isListKind t := by
  cases hp with
  | ptr _ => rfl
  | base h =>
    have hs := hE.shape h
    rename_i id id'
    simp only [Prog.isListKind]
    generalize Γ.shape id = s at hs
    generalize Γ.shape id' = s' at hs
    cases hs <;> rfl

theorem samePtrs_innerIsByte (hE : Evolves Γ c c' D R) {b : Bool} (k : Nat) {t t' : Ty} (hp : SamePtrs (R b) t t') :
    innerIsByte Γ k t' = innerIsByte Γ k t := by
  induction k generalizing t t' with
  | zero => rfl
  | succ k ih =>
    cases hp with
    | ptr _ => rfl
    | base h =>
      have hs := hE.shape h
      rename_i id id'
      simp only [innerIsByte]
      generalize Γ.shape id = s at hs
      generalize Γ.shape id' = s' at hs
      cases hs with
      | widen h1 h2 => rename_i k k'; cases k <;> cases k' <;> first | rfl | cases h2
      | slice hp => exact ih hp
      | array hp => exact ih hp
      | _ => rfl

theorem typ3_to (hE : Evolves Γ c c' D R) {b : Bool} {id id' : TId} (hR : R b id id') {fo fo' : FOpts} (ho : SameOpts fo fo')
    (hb : TagOk b fo) : Γ.typ3 id' fo' = Γ.typ3 id fo := shapeTo_typ3 (hE.shape hR) rfl rfl ho hb

theorem encInt_to {k k' : IntKind} (h : widens k k' = true) {fo fo' : FOpts} (ho : SameOpts fo fo') (h32 : fo.fixed32 = false)
    (h64 : fo.fixed64 = false) {i : Int} {bz : Bytes} (he : encInt k fo i = .ok bz) : encInt k' fo' i = .ok bz := by
  have e32 := ho.fixed32
  have e64 := ho.fixed64
  rw [h32] at e32
  rw [h64] at e64
  cases k <;> cases k' <;> simp_all [widens, encInt, encodeInt8, encodeInt16, encodeUint16]

/-! ## The encoder -/

/-- What is claimed one level down. -/
def RecTo (Γ : Prog) (c' : Codec) (D : Nat) (R : Bool → TId → TId → Prop) (rec rec' : TId → Val → FOpts → Bool → Res Bytes) : Prop :=
  ∀ b id id' v v' fo fo' bare bz, R b id id' → ValTo Γ c' D R b (.base id) (.base id') v v' → SameOpts fo fo' → TagOk b fo →
    rec id v fo bare = .ok bz → rec' id' v' fo' bare = .ok bz

section
variable {rec rec' : TId → Val → FOpts → Bool → Res Bytes}

theorem sameOpts_fnum {fo fo' : FOpts} (h : SameOpts fo fo') (n : Nat) :
    SameOpts { fo with fnum := n } { fo' with fnum := n } :=
  ⟨h.fixed64, h.fixed32, rfl, h.floatOk, h.writeEmpty, h.emptyElements⟩

theorem shape_len {id : TId} {fo : FOpts} (h : Γ.typ3 id fo ≠ typ3ByteLength) : lenKind Γ id = false := by
  unfold lenKind
  unfold Prog.typ3 at h
  split <;> simp_all

theorem encPacked_to (hE : Evolves Γ c c' D R) (hT : Γ.Typed) (hr : RecTo Γ c' D R rec rec') {b : Bool} {e e' : Ty} (hp : SamePtrs (R b) e e')
    {fo fo' : FOpts} (ho : SameOpts fo fo') (hb : TagOk b fo) (hk : lenKind Γ e.deref = false) {vs vs' : List Val}
    (hl : vs.length = vs'.length) (hv : ∀ p ∈ vs.zip vs', ValTo Γ c' D R b e e' p.1 p.2) {bz : Bytes}
    (he : encPacked Γ rec e fo vs = .ok bz) : encPacked Γ rec' e' fo' vs' = .ok bz := by
  induction vs generalizing vs' bz with
  | nil =>
    cases vs' with
    | nil => exact he
    | cons _ _ => simp at hl
  | cons v vs ih =>
    cases vs' with
    | nil => simp at hl
    | cons v' vs' =>
      rw [encPacked] at he ⊢
      obtain ⟨x, hx, he⟩ := Res.bind_eq_ok he
      obtain ⟨y, hy, he⟩ := Res.bind_eq_ok he
      have hval : ValTo Γ c' D R b (.base e.deref) (.base e'.deref) (Γ.derefZero e v) (Γ.derefZero e' v') := by
        unfold Prog.derefZero
        rcases valTo_deref hp (hv (v, v') (by simp)) with ⟨h1, h2⟩ | ⟨dv, dv', h1, h2, h3⟩
        · rw [h1, h2]
          simp only
          rw [hE.zero hp.deref hk]
          have hz := hT.zero e.deref
          have hk' := hk
          unfold lenKind at hk'
          refine .same ?_ ?_ ?_ <;> (intros; intro h; rw [h] at hz; cases hz <;> simp_all)
        · rw [h1, h2]
          exact h3
      rw [hr b _ _ _ _ fo fo' _ _ hp.deref hval ho hb hx, Res.bind_ok,
        ih (by simpa using hl) (fun p hp => hv p (by simp [hp])) hy]
      exact he

theorem encElem_to (hE : Evolves Γ c c' D R) (hr : RecTo Γ c' D R rec rec') {b : Bool} {e e' : Ty} (hp : SamePtrs (R b) e e')
    {fo fo' : FOpts} (ho : SameOpts fo fo') (hb : TagOk b fo) {v v' : Val} (hv : ValTo Γ c' D R b e e' v v') {bz : Bytes}
    (he : encElem Γ rec e fo v = .ok bz) : encElem Γ rec' e' fo' v' = .ok bz := by
  have hs := hE.shape hp.deref
  unfold encElem at he ⊢
  rw [hp.isPtr, shapeTo_isStruct hs rfl rfl, ho.emptyElements]
  rcases valTo_deref hp hv with ⟨h1, h2⟩ | ⟨dv, dv', h1, h2, h3⟩
  · rw [h1] at he
    rw [h2]
    exact he
  · rw [h1] at he
    rw [h2]
    simp only at he ⊢
    rw [shapeTo_dflt hs h3]
    split at he
    · rename_i hd
      rw [if_pos hd]
      exact he
    · rename_i hd
      rw [if_neg hd]
      exact hr b _ _ _ _ { fo with fnum := 1 } _ _ _ hp.deref h3
        ⟨ho.fixed64, ho.fixed32, rfl, ho.floatOk, ho.writeEmpty, rfl⟩ hb he

theorem encUnpacked_to (hE : Evolves Γ c c' D R) (hr : RecTo Γ c' D R rec rec') {b : Bool} {e e' : Ty}
    (hp : SamePtrs (R b) e e') {fo fo' : FOpts} (ho : SameOpts fo fo') (hb : TagOk b fo) {vs vs' : List Val}
    (hl : vs.length = vs'.length) (hv : ∀ p ∈ vs.zip vs', ValTo Γ c' D R b e e' p.1 p.2) {bz : Bytes}
    (he : encUnpacked Γ rec e fo vs = .ok bz) : encUnpacked Γ rec' e' fo' vs' = .ok bz := by
  induction vs generalizing vs' bz with
  | nil =>
    cases vs' with
    | nil => exact he
    | cons _ _ => simp at hl
  | cons v vs ih =>
    cases vs' with
    | nil => simp at hl
    | cons v' vs' =>
      rw [encUnpacked] at he ⊢
      obtain ⟨k, hk, he⟩ := Res.bind_eq_ok he
      obtain ⟨x, hx, he⟩ := Res.bind_eq_ok he
      obtain ⟨y, hy, he⟩ := Res.bind_eq_ok he
      rw [ho.fnum, hk, Res.bind_ok, encElem_to hE hr hp ho hb (hv (v, v') (by simp)) hx, Res.bind_ok,
        ih (by simpa using hl) (fun p hp => hv p (by simp [hp])) hy]
      exact he

theorem encList_to (hE : Evolves Γ c c' D R) (hT : Γ.Typed) (hr : RecTo Γ c' D R rec rec') {b : Bool} {id id' : TId} {e e' : Ty}
    (hse : (Γ.shape id).elem? = some e) (hse' : (Γ.shape id').elem? = some e') (hp : SamePtrs (R b) e e')
    {fo fo' : FOpts} (ho : SameOpts fo fo') (hb : TagOk b fo) {v v' : Val}
    (hv : ValTo Γ c' D R b (.base id) (.base id') v v') {bare : Bool} {bz : Bytes}
    (he : encList Γ c rec e v fo bare = .ok bz) : encList Γ c' rec' e' v' fo' bare = .ok bz := by
  unfold encList at he ⊢
  obtain ⟨_, _, he⟩ := Res.bind_eq_ok he
  rw [hE.info hp.deref, Res.bind_ok]
  have ht : Γ.typ3 e'.deref fo' = Γ.typ3 e.deref fo := typ3_to hE hp.deref ho hb
  cases hv with
  | same h1 h2 h3 =>
    cases v with
    | list vs => exact absurd rfl (h1 vs)
    | nil => exact he
    | _ => cases he
  | list hs hs' hl hvs =>
    rw [hse] at hs
    cases hs
    rw [hse'] at hs'
    cases hs'
    simp only at he ⊢
    obtain ⟨x, hx, he⟩ := Res.bind_eq_ok he
    rw [ht]
    by_cases hk : Γ.typ3 e.deref fo ≠ typ3ByteLength
    · rw [if_pos hk] at hx ⊢
      rw [encPacked_to hE hT hr hp ho hb (shape_len hk) hl hvs hx]
      exact he
    · rw [if_neg hk] at hx ⊢
      rw [encUnpacked_to hE hr hp ho hb hl hvs hx]
      exact he
  | iface => cases he
  | struct => cases he

theorem writeField_to (hE : Evolves Γ c c' D R) (hr : RecTo Γ c' D R rec rec') {b : Bool} {id id' : TId} (hR : R b id id')
    {fo fo' : FOpts} (ho : SameOpts fo fo') (hb : TagOk b fo) {v v' : Val}
    (hv : ValTo Γ c' D R b (.base id) (.base id') v v') {num : Nat} {we bare : Bool} {bz : Bytes}
    (he : writeField Γ rec num id fo v we bare = .ok bz) : writeField Γ rec' num id' fo' v' we bare = .ok bz := by
  unfold writeField at he ⊢
  obtain ⟨k, hk, he⟩ := Res.bind_eq_ok he
  obtain ⟨x, hx, he⟩ := Res.bind_eq_ok he
  rw [typ3_to hE hR ho hb, hk, Res.bind_ok, hr b _ _ _ _ _ _ _ _ hR hv ho hb hx]
  exact he

theorem unpackedList_to (hE : Evolves Γ c c' D R) {f f' : Field} (hf : FieldTo R f f') (hv : f.visible = true) :
    Γ.unpackedList f' = Γ.unpackedList f := by
  have hp := hf.type hv
  have ho : SameOpts f.opts { f'.opts with fnum := f.opts.fnum } := by
    have := hf.opts
    exact ⟨this.fixed64, this.fixed32, rfl, this.floatOk, this.writeEmpty, this.emptyElements⟩
  have hb : TagOk (fixedTag f) f.opts := by
    intro h
    simpa [fixedTag] using h
  unfold Prog.unpackedList
  cases ht : f.ty with
  | ptr t =>
    rw [ht] at hp
    generalize f'.ty = t' at hp
    cases hp
    rfl
  | base id =>
    rw [ht] at hp
    generalize f'.ty = t' at hp
    cases hp with
    | base hR =>
      rename_i id'
      have hs := hE.shape hR
      simp only
      have key : ∀ {e e' : Ty}, SamePtrs (R (fixedTag f)) e e' →
          (!Γ.isByteKind e' && Γ.typ3 e'.deref f'.opts == typ3ByteLength) =
            (!Γ.isByteKind e && Γ.typ3 e.deref f.opts == typ3ByteLength) := by
        intro e e' hpe
        have h1 := typ3_to hE hpe.deref ho hb
        have h2 : Γ.typ3 e'.deref { f'.opts with fnum := f.opts.fnum } = Γ.typ3 e'.deref f'.opts := rfl
        rw [samePtrs_byteKind hE hpe, ← h1, h2]
      generalize Γ.shape id = s at hs
      generalize Γ.shape id' = s' at hs
      cases hs with
      | slice h => exact key h
      | array h => exact key h
      | _ => rfl

theorem encField_to (hE : Evolves Γ c c' D R) (hT : Γ.Typed) (hr : RecTo Γ c' D R rec rec') {f f' : Field} (hf : FieldTo R f f')
    (hvis : f.visible = true) {num : Nat} {v v' : Val} (hv : ValTo Γ c' D R (fixedTag f) f.ty f'.ty v v') {bz : Bytes}
    (he : encField Γ c rec f num v = .ok bz) : encField Γ c' rec' f' num v' = .ok bz := by
  have hp := hf.type hvis
  have hs := hE.shape hp.deref
  have ho : SameOpts { f.opts with fnum := num } { f'.opts with fnum := num } := sameOpts_fnum hf.opts num
  have hb : TagOk (fixedTag f) { f.opts with fnum := num } := by
    intro h
    simpa [fixedTag] using h
  unfold encField at he ⊢
  obtain ⟨_, _, he⟩ := Res.bind_eq_ok he
  rw [hE.info hp.deref, Res.bind_ok, unpackedList_to hE hf hvis, ho.writeEmpty, hp.isPtr]
  rcases valTo_deref hp hv with ⟨h1, h2⟩ | ⟨dv, dv', h1, h2, h3⟩
  · rw [h1] at he
    rw [h2]
    exact he
  · rw [h1] at he
    rw [h2]
    simp only at he ⊢
    rw [shapeTo_dflt hs h3]
    split at he
    · rename_i hd
      rw [if_pos hd]
      exact he
    · rename_i hd
      rw [if_neg hd]
      split at he
      · rename_i hu
        rw [if_pos hu]
        split at he
        · rename_i e hel
          have hel' : ∃ e', (Γ.shape f'.ty.deref).elem? = some e' ∧ SamePtrs (R (fixedTag f)) e e' := by
            generalize Γ.shape f.ty.deref = s at hs hel
            generalize Γ.shape f'.ty.deref = s' at hs
            cases hs <;> simp_all [Shape.elem?]
          obtain ⟨e', hel', hpe⟩ := hel'
          rw [hel']
          exact encList_to hE hT hr hel hel' hpe ho hb h3 he
        · cases he
      · rename_i hu
        rw [if_neg hu]
        exact writeField_to hE hr hp.deref ho hb h3 he

theorem encFields_to (hE : Evolves Γ c c' D R) (hT : Γ.Typed) (hr : RecTo Γ c' D R rec rec') {fs fs' : List Field}
    {vs vs' : List Val} {num : Nat} {bz : Bytes} (hl : fs.length = fs'.length) (hlv : fs.length = vs.length)
    (hlv' : fs'.length = vs'.length) (hf : ∀ p ∈ fs.zip fs', FieldTo R p.1 p.2)
    (hv : ∀ p ∈ (fs.zip fs').zip (vs.zip vs'), p.1.1.visible = true →
      ValTo Γ c' D R (fixedTag p.1.1) p.1.1.ty p.1.2.ty p.2.1 p.2.2)
    (he : encFields Γ c rec num fs vs = .ok bz) :
    encFields Γ c' rec' num fs' vs' = .ok bz ∧ lastNum num fs' = lastNum num fs := by
  induction fs generalizing fs' vs vs' num bz with
  | nil =>
    cases fs' with
    | cons _ _ => simp at hl
    | nil =>
      cases vs with
      | cons _ _ => simp at hlv
      | nil =>
        cases vs' with
        | cons _ _ => simp at hlv'
        | nil => exact ⟨he, rfl⟩
  | cons f fs ih =>
    cases fs' with
    | nil => simp at hl
    | cons f' fs' =>
      cases vs with
      | nil => simp at hlv
      | cons v vs =>
        cases vs' with
        | nil => simp at hlv'
        | cons v' vs' =>
          have hff := hf (f, f') (by simp)
          simp only at hff
          have ih := fun num bz => @ih fs' vs vs' num bz (by simpa using hl) (by simpa using hlv) (by simpa using hlv')
            (fun p hp => hf p (by simp [hp])) (fun p hp => hv p (by simp [hp]))
          simp only [encFields, lastNum] at he ⊢
          rw [hff.visible]
          by_cases hvis : f.visible = true
          · simp only [hvis, Bool.not_true, Bool.false_eq_true, if_false, if_true] at he ⊢
            obtain ⟨x, hx, he⟩ := Res.bind_eq_ok he
            obtain ⟨y, hy, he⟩ := Res.bind_eq_ok he
            obtain ⟨i1, i2⟩ := ih _ _ hy
            rw [encField_to hE hT hr hff hvis (hv ((f, f'), (v, v')) (by simp) hvis) hx, Res.bind_ok, i1]
            exact ⟨he, i2⟩
          · simp only [hvis, Bool.not_false, if_true, Bool.false_eq_true, if_false] at he ⊢
            exact ih _ _ he

theorem encFields_snoc {c : Codec} {rec : TId → Val → FOpts → Bool → Res Bytes} {fs gs : List Field} {vs us : List Val}
    {num : Nat} {b1 b2 : Bytes} (hlen : fs.length = vs.length) (h1 : encFields Γ c rec num fs vs = .ok b1)
    (h2 : encFields Γ c rec (lastNum num fs) gs us = .ok b2) :
    encFields Γ c rec num (fs ++ gs) (vs ++ us) = .ok (b1 ++ b2) := by
  induction fs generalizing num vs b1 with
  | nil =>
    cases vs with
    | nil =>
      simp only [encFields, Res.ok.injEq] at h1
      subst h1
      exact h2
    | cons _ _ => simp at hlen
  | cons f fs ih =>
    cases vs with
    | nil => simp at hlen
    | cons v vs =>
      simp only [List.cons_append, encFields, lastNum] at h1 h2 ⊢
      by_cases hvis : f.visible = true
      · simp only [hvis, Bool.not_true, Bool.false_eq_true, if_false, if_true] at h1 h2 ⊢
        obtain ⟨x, hx, h1⟩ := Res.bind_eq_ok h1
        obtain ⟨y, hy, h1⟩ := Res.bind_eq_ok h1
        cases h1
        rw [hx, Res.bind_ok, ih (by simpa using hlen) hy h2]
        simp
      · simp only [hvis, Bool.not_false, if_true, Bool.false_eq_true, if_false] at h1 h2 ⊢
        exact ih (by simpa using hlen) h1 h2

end

/-! ## Unsent values -/

theorem lastNum_le (num : Nat) (fs : List Field) : lastNum num fs ≤ num + fs.length := by
  induction fs generalizing num with
  | nil => simp [lastNum]
  | cons f fs ih =>
    simp only [lastNum, List.length_cons]
    cases f.visible
    · have := ih num
      simp only [Bool.false_eq_true, if_false]
      omega
    · have := ih (num + 1)
      simp only [if_true]
      omega

theorem encFields_unsent {rec : TId → Val → FOpts → Bool → Res Bytes} {gs : List Field} {us : List Val} {num : Nat}
    (hn : num + gs.length < 2 ^ 29) (hl : gs.length = us.length)
    (h : ∀ p ∈ gs.zip us, p.1.visible = true → ∀ num, num < 2 ^ 29 → encField Γ c' rec p.1 num p.2 = .ok []) :
    encFields Γ c' rec num gs us = .ok [] := by
  induction gs generalizing us num with
  | nil =>
    cases us with
    | nil => rfl
    | cons _ _ => simp at hl
  | cons g gs ih =>
    cases us with
    | nil => simp at hl
    | cons u us =>
      simp only [List.length_cons] at hn
      rw [encFields]
      by_cases hvis : g.visible = true
      · rw [if_neg (by simp [hvis]), h (g, u) (by simp) hvis (num + 1) (by omega), Res.bind_ok,
          ih (by omega) (by simpa using hl) fun p hp => h p (by simp [hp])]
        rfl
      · rw [if_pos (by simpa using hvis)]
        exact ih (by omega) (by simpa using hl) fun p hp => h p (by simp [hp])

theorem encField_lone {rec : TId → Val → FOpts → Bool → Res Bytes} {f : Field} {id : TId} {u : Val} {num : Nat}
    (ht : f.ty = .base id) (hw : f.opts.writeEmpty = false) (hn : num < 2 ^ 29) (hi : getInfo Γ c' id = .ok ())
    (hu : Γ.unpackedList f = false) (hr : ∀ fo, rec id u fo false = .ok [0]) :
    encField Γ c' rec f num u = .ok [] := by
  unfold encField
  simp only [ht, Ty.deref, hi, Res.bind_ok, derefVal, hw, hu, Ty.isPtr, writeField,
    encodeKey_eq num _ hn (typ3_lt _ _ _), hr]
  split <;> rfl

theorem encField_unsent {n : Nat} {t : Ty} {u : Val} (h : Unsent Γ c' n t u) {k : Nat} (hk : n ≤ k) {f : Field}
    (ht : f.ty = t) (hw : f.opts.writeEmpty = false) {num : Nat} (hn : num < 2 ^ 29) :
    encField Γ c' (enc Γ c' k) f num u = .ok [] := by
  induction h generalizing k f num with
  | nilPtr hi =>
    unfold encField
    rw [ht]
    simp only [Ty.deref, hi, Res.bind_ok, derefVal, hw]
    rfl
  | zero hi hd =>
    unfold encField
    rw [ht]
    simp only [Ty.deref, hi, Res.bind_ok, derefVal, hw]
    have : ∀ {s : Shape} {v : Val}, dflt s v = true → isDefaultBase s v = true := by
      intro s v h
      cases s <;> cases v <;> simp_all [dflt, isDefaultBase]
    rw [this hd]
    rfl
  | bool hm hs =>
    obtain ⟨k, rfl⟩ : ∃ j, k = j + 1 := ⟨k - 1, by omega⟩
    refine encField_lone ht hw hn (by simp [getInfo, hs]) (by simp [Prog.unpackedList, ht, hs]) fun fo => ?_
    simp only [enc, encBody, hm, encShape, hs]
    decide
  | time hm hs =>
    obtain ⟨k, rfl⟩ : ∃ j, k = j + 1 := ⟨k - 1, by omega⟩
    refine encField_lone ht hw hn (by simp [getInfo, hs]) (by simp [Prog.unpackedList, ht, hs]) fun fo => ?_
    simp only [enc, encBody, hm, encShape, hs]
    decide
  | struct hm hs hi hlt hl hwe _ ih =>
    obtain ⟨k, rfl⟩ : ∃ j, k = j + 1 := ⟨k - 1, by omega⟩
    refine encField_lone ht hw hn hi (by simp [Prog.unpackedList, ht, hs]) fun fo => ?_
    have hfs := encFields_unsent (Γ := Γ) (c' := c') (rec := enc Γ c' k) (num := 0) (by omega) hl
      fun p hp hvis num hn => ih p hp hvis (by omega) rfl (hwe p hp hvis) hn
    simp only [enc, encBody, hm, encShape, hs, hfs, Res.bind_ok, framed]
    decide

/-! ## The main induction -/

theorem encIface_to (hE : Evolves Γ c c' D R) {rec rec' : TId → Val → FOpts → Bool → Res Bytes}
    (hr : RecTo Γ c' D R rec rec') {b : Bool} {id id' : TId} (hR : R b id id') (hs : Γ.shape id = .iface)
    {fo fo' : FOpts} (ho : SameOpts fo fo') (hb : TagOk b fo) {v v' : Val}
    (hv : ValTo Γ c' D R b (.base id) (.base id') v v') {bare : Bool} {bz : Bytes}
    (he : encIface Γ c rec id v fo bare = .ok bz) : encIface Γ c' rec' id' v' fo' bare = .ok bz := by
  cases hv with
  | same h1 h2 h3 =>
    cases v with
    | iface t w => exact absurd rfl (h3 t w)
    | nil => exact he
    | _ => cases he
  | list => cases he
  | struct => cases he
  | iface hp hv =>
    rename_i t t' w w'
    have hst := hE.shape hp.deref
    unfold encIface at he ⊢
    simp only at he ⊢
    rcases valTo_deref hp hv with ⟨h1, h2⟩ | ⟨dv, dv', h1, h2, h3⟩
    · rw [h1] at he
      cases he
    · rw [h1] at he
      rw [h2]
      simp only at he ⊢
      rw [hp.isPtr, shapeTo_isIface hst rfl rfl]
      split at he
      · cases he
      · rename_i hni
        rw [if_neg hni]
        obtain ⟨_, _, he⟩ := Res.bind_eq_ok he
        rw [hE.info hp.deref, Res.bind_ok]
        split at he
        · cases he
        · rename_i ci hci
          obtain ⟨ci', hci', e1, e2⟩ := hE.conc hp.deref hci
          rw [hci']
          simp only
          split at he
          · cases he
          · rename_i ii hii
            obtain ⟨ii', hii', hd⟩ := hE.iface hR hs hii
            rw [hii']
            simp only
            obtain ⟨x, hx, he⟩ := Res.bind_eq_ok he
            rw [hr b _ _ _ _ _ _ _ _ hp.deref h3 ho hb hx, Res.bind_ok, e1, e2]
            have hd := hd _ _ hci
            unfold disambiguates at hd
            have : (ii'.always || decide ((ii'.withPrefix ci.prefx).length > 1)) =
                (ii.always || decide ((ii.withPrefix ci.prefx).length > 1)) := hd
            rw [this]
            exact he

theorem encShape_to (hE : Evolves Γ c c' D R) (hT : Γ.Typed) {rec rec' : TId → Val → FOpts → Bool → Res Bytes}
    (hr : RecTo Γ c' D R rec rec') {k k' : Nat} (hk : ∀ {b : Bool} {e e' : Ty}, SamePtrs (R b) e e' → ∀ x,
      innerIsByte Γ k e = some x → innerIsByte Γ k' e' = some x)
    (hun : ∀ (gs : List Field) (us : List Val) (num : Nat), num + gs.length < 2 ^ 29 → gs.length = us.length →
      (∀ p ∈ gs.zip us, p.1.visible = true → p.1.opts.writeEmpty = false ∧ Unsent Γ c' D p.1.ty p.2) →
      encFields Γ c' rec' num gs us = .ok [])
    {b : Bool} {id id' : TId} (hR : R b id id') {fo fo' : FOpts} (ho : SameOpts fo fo') (hb : TagOk b fo) {v v' : Val}
    (hv : ValTo Γ c' D R b (.base id) (.base id') v v') {bare : Bool} {bz : Bytes}
    (he : encShape Γ c rec k id v fo bare = .ok bz) : encShape Γ c' rec' k' id' v' fo' bare = .ok bz := by
  have hs := hE.shape hR
  have hscalar : ∀ {w w' : Val}, ValTo Γ c' D R b (.base id) (.base id') w w' → (∀ vs, w ≠ .list vs) →
      (∀ vs, w ≠ .struct vs) → (∀ t x, w ≠ .iface t x) → w' = w := by
    intro w w' h h1 h2 h3
    cases h with
    | same => rfl
    | list => exact absurd rfl (h1 _)
    | struct => exact absurd rfl (h2 _)
    | iface => exact absurd rfl (h3 _ _)
  have hlist : ∀ {e e' : Ty}, SamePtrs (R b) e e' → (Γ.shape id).elem? = some e → (Γ.shape id').elem? = some e' →
      ∀ (B B' : Res Bytes), (B = .ok bz → B' = .ok bz) →
      (if Γ.isByteKind e then B
        else if Γ.isListKind e then
          match innerIsByte Γ k e with
          | none => .oof
          | some true => .ok []
          | some false => .err .multiDim
        else encList Γ c rec e v fo bare) = .ok bz →
      (if Γ.isByteKind e' then B'
        else if Γ.isListKind e' then
          match innerIsByte Γ k' e' with
          | none => .oof
          | some true => .ok []
          | some false => .err .multiDim
        else encList Γ c' rec' e' v' fo' bare) = .ok bz := by
    intro e e' hp he1 he2 B B' hB h
    rw [samePtrs_byteKind hE hp, samePtrs_listKind hE hp]
    split at h
    · rename_i h1
      rw [if_pos h1]
      exact hB h
    · rename_i h1
      rw [if_neg h1]
      split at h
      · rename_i h2
        rw [if_pos h2]
        cases hi : innerIsByte Γ k e with
        | none => rw [hi] at h; cases h
        | some x => rw [hi] at h; rw [hk hp x hi]; exact h
      · rename_i h2
        rw [if_neg h2]
        exact encList_to hE hT hr he1 he2 hp ho hb hv h
  unfold encShape at he ⊢
  generalize hg : Γ.shape id = s at hs he hlist
  generalize hg' : Γ.shape id' = s' at hs hlist
  cases hs with
  | bool => cases v <;> first | (cases he; done) | (rw [hscalar hv (by simp) (by simp) (by simp)]; exact he)
  | string => cases v <;> first | (cases he; done) | (rw [hscalar hv (by simp) (by simp) (by simp)]; exact he)
  | time => cases v <;> first | (cases he; done) | (rw [hscalar hv (by simp) (by simp) (by simp)]; exact he)
  | float32 =>
    simp only [ho.floatOk] at he ⊢
    split at he
    · cases he
    · rename_i hf
      rw [if_neg hf]
      cases v <;> first | (cases he; done) | (rw [hscalar hv (by simp) (by simp) (by simp)]; exact he)
  | float64 =>
    simp only [ho.floatOk] at he ⊢
    split at he
    · cases he
    · rename_i hf
      rw [if_neg hf]
      cases v <;> first | (cases he; done) | (rw [hscalar hv (by simp) (by simp) (by simp)]; exact he)
  | int =>
    rename_i k
    have : encInt k fo' = encInt k fo := by
      funext i
      cases k <;> simp [encInt, ho.fixed32, ho.fixed64]
    simp only [this]
    cases v <;> first | (cases he; done) | (rw [hscalar hv (by simp) (by simp) (by simp)]; exact he)
  | widen h1 h2 =>
    obtain ⟨h3, h4⟩ := hb h1
    cases v <;> first | (cases he; done) | (rw [hscalar hv (by simp) (by simp) (by simp)]; exact encInt_to h2 ho h3 h4 he)
  | iface => exact encIface_to hE hr hR hg ho hb hv he
  | slice hp =>
    refine hlist hp rfl rfl _ _ (fun h => ?_) he
    cases v <;> first | (cases h; done) | (rw [hscalar hv (by simp) (by simp) (by simp)]; exact h)
  | array hp =>
    refine hlist hp rfl rfl _ _ (fun h => ?_) he
    cases v <;> first | (cases h; done) | (rw [hscalar hv (by simp) (by simp) (by simp)]; exact h)
  | struct hl hf hlt hgs =>
    rename_i fs fs' gs
    cases hv with
    | same h1 h2 h3 =>
      cases v with
      | struct vs => exact absurd rfl (h2 vs)
      | _ => cases he
    | list => cases he
    | iface => cases he
    | struct e1 e2 l1 l2 l3 l4 hvs hus =>
      rename_i fs2 fs2' gs2 vs vs' us
      rw [hg] at e1
      cases e1
      rw [hg'] at e2
      simp only [Shape.struct.injEq] at e2
      obtain ⟨rfl, rfl⟩ := List.append_inj e2 (hl.symm.trans l1)
      simp only at he ⊢
      obtain ⟨x, hx, he⟩ := Res.bind_eq_ok he
      obtain ⟨i1, i2⟩ := encFields_to hE hT hr hl l2 l3 hf hvs hx
      have hlast := lastNum_le 0 fs'
      rw [List.length_append] at hlt
      have i3 := hun gs us (lastNum 0 fs') (by omega) l4 fun p hp hvis =>
        ⟨(hgs p.1 (List.of_mem_zip hp).1 hvis).1, hus p hp hvis⟩
      rw [encFields_snoc l3 i1 i3, List.append_nil]
      exact he

theorem innerIsByte_mono {k k' : Nat} (hk : k ≤ k') {t : Ty} {x : Bool} (h : innerIsByte Γ k t = some x) :
    innerIsByte Γ k' t = some x := by
  induction k generalizing k' t with
  | zero => cases h
  | succ k ih =>
    obtain ⟨k', rfl⟩ : ∃ j, k' = j + 1 := ⟨k' - 1, by omega⟩
    cases t with
    | ptr _ => exact h
    | base id =>
      simp only [innerIsByte] at h ⊢
      split <;> simp_all <;> exact ih (by omega) h

theorem enc_to (hE : Evolves Γ c c' D R) (hT : Γ.Typed) (f : Nat) : RecTo Γ c' D R (enc Γ c f) (enc Γ c' (f + D)) := by
  induction f with
  | zero => intro b id id' v v' fo fo' bare bz _ _ _ _ he; cases he
  | succ f ih =>
    intro b id id' v v' fo fo' bare bz hR hv ho hb he
    rw [show f + 1 + D = (f + D) + 1 by omega]
    rw [enc] at he ⊢
    unfold encBody at he ⊢
    cases hm : Γ.marsh id with
    | some rm =>
      obtain ⟨rid, m⟩ := rm
      rw [hm] at he
      obtain ⟨rid', m', hm', hR', hmm⟩ := hE.marsh hR hm
      rw [hm']
      simp only at he ⊢
      obtain ⟨r, hr, he⟩ := Res.bind_eq_ok he
      obtain ⟨_, _, he⟩ := Res.bind_eq_ok he
      obtain ⟨r', hr', hv'⟩ := hmm v v' r hv hr
      rw [hr', Res.bind_ok, hE.info hR', Res.bind_ok]
      exact ih b _ _ _ _ _ _ _ _ hR' hv' ho hb he
    | none =>
      rw [hm] at he
      rw [hE.noMarsh hR hm]
      refine encShape_to hE hT ih ?_ ?_ hR ho hb hv he
      · intro b e e' hp x hx
        rw [samePtrs_innerIsByte hE _ hp]
        exact innerIsByte_mono (by omega) hx
      · intro gs us num hn hl h
        refine encFields_unsent hn hl fun p hp hvis num hn => ?_
        obtain ⟨h1, h2⟩ := h p hp hvis
        exact encField_unsent h2 (by omega) rfl h1 hn

end Amino
