import Verif.RTMain

/-!
# Normalisation is total on encodable values and respects types
-/

namespace Amino
open Spec

variable {Γ : Prog} {c : Codec} {S : TId → FOpts → Prop}

theorem hasTy_refs {t : Ty} {v : Val} (h : HasTy Γ (.base t.deref) v) : HasTy Γ t (refs t v) := by
  rw [refs_eq]; exact hasTy_wrap h

theorem hasTy_absent (hz : ∀ id, HasTy Γ (.base id) (Γ.zero id)) (t : Ty) : HasTy Γ t (absent Γ t) := by
  rw [absent_eq]; exact hasTy_default hz t

section
variable {bl : TId → Val → FOpts → Bool} {nm : TId → Val → FOpts → Option Val}

/-- Normalisation one level down respects types. -/
def RecNT (Γ : Prog) (S : TId → FOpts → Prop) (nm : TId → Val → FOpts → Option Val) : Prop :=
  ∀ id v fo w, S id fo → HasTy Γ (.base id) v → nm id v fo = some w → HasTy Γ (.base id) w

theorem normPackedElem_typed (hz : ∀ id, HasTy Γ (.base id) (Γ.zero id)) (h : RecNT Γ S nm) {e : Ty} {fo : FOpts}
    {v w : Val} (hS : S e.deref fo) (ht : HasTy Γ e v) (hw : normPackedElem Γ nm e fo v = some w) : HasTy Γ e w := by
  unfold normPackedElem at hw
  simp only [Option.map_eq_some_iff] at hw
  obtain ⟨w1, hw1, hw⟩ := hw
  have h1 : HasTy Γ (.base e.deref) w1 := by
    refine h _ _ _ _ hS ?_ hw1
    rw [pointee_eq]
    cases hd : derefVal e v with
    | none => exact hz _
    | some dv => exact hasTy_derefVal ht hd
  rw [← hw]
  split
  · rename_i hc
    simp only [Bool.and_eq_true] at hc
    cases e with
    | base => simp [Ty.isPtr] at hc
    | ptr => exact .ptrNil
  · exact hasTy_refs h1

theorem normElem_typed (hz : ∀ id, HasTy Γ (.base id) (Γ.zero id)) (h : RecNT Γ S nm) {e : Ty} {fo : FOpts}
    {v w : Val} (hS : S e.deref { fo with fnum := 1 }) (ht : HasTy Γ e v)
    (hw : normElem Γ bl nm e fo v = some w) : HasTy Γ e w := by
  unfold normElem at hw
  rw [pointee_eq] at hw
  cases hd : derefVal e v with
  | none => rw [hd] at hw; simp at hw; subst hw; exact hasTy_absent hz e
  | some dv =>
    rw [hd] at hw
    simp only at hw
    split at hw
    · simp at hw; subst hw; exact hasTy_absent hz e
    · simp only [Option.map_eq_some_iff] at hw
      obtain ⟨w1, hw1, hw⟩ := hw
      rw [← hw]
      exact hasTy_refs (h _ _ _ _ hS (hasTy_derefVal ht hd) hw1)

theorem normElems_typed (hz : ∀ id, HasTy Γ (.base id) (Γ.zero id)) (h : RecNT Γ S nm) {e : Ty} {fo : FOpts}
    {vs ws : List Val} (hS : ElemOk Γ S e fo) (ht : ∀ v ∈ vs, HasTy Γ e v)
    (hw : normElems Γ bl nm e fo vs = some ws) : ws.length = vs.length ∧ ∀ w ∈ ws, HasTy Γ e w := by
  induction vs generalizing ws with
  | nil => simp [normElems] at hw; subst hw; simp
  | cons v vs ih =>
    unfold normElems at hw
    simp only [Option.bind_eq_some_iff, Option.map_eq_some_iff] at hw
    obtain ⟨w, hw1, ws', hw2, rfl⟩ := hw
    have h2 := ih (fun v hv => ht v (by simp [hv])) hw2
    have h1 : HasTy Γ e w := by
      have hS' := hS.2
      split at hw1
      · rename_i hl
        rw [if_pos hl] at hS'
        exact normElem_typed hz h hS' (ht v (by simp)) hw1
      · rename_i hl
        rw [if_neg hl] at hS'
        exact normPackedElem_typed hz h hS' (ht v (by simp)) hw1
    simp only [List.length_cons, List.mem_cons, forall_eq_or_imp]
    exact ⟨by omega, h1, h2.2⟩

theorem normList_typed (hz : ∀ id, HasTy Γ (.base id) (Γ.zero id)) (h : RecNT Γ S nm) {id : TId} {e : Ty}
    {fo : FOpts} {v w : Val} (he : (Γ.shape id).elem? = some e) (hb : Γ.isByteKind e = false)
    (hS : ElemOk Γ S e fo) (ht : HasTy Γ (.base id) v)
    (hw : normList Γ bl nm (Γ.shape id) fo v = some w) : HasTy Γ (.base id) w := by
  unfold normList at hw
  split at hw
  · rename_i e' vs hs
    rw [hs] at he
    simp [Shape.elem?] at he
    subst he
    simp only [Option.map_eq_some_iff] at hw
    obtain ⟨ws, hws, hw⟩ := hw
    have hts : ∀ v ∈ vs, HasTy Γ e' v := by
      cases ht with
      | slice h1 h2 h3 => rw [hs] at h1; cases h1; exact h3
      | array h1 => rw [hs] at h1; cases h1
    have := normElems_typed hz h hS hts hws
    split at hw
    · rw [← hw]; exact .sliceNil hs
    · rw [← hw]; exact .slice hs hb this.2
  · rename_i e' hs
    simp at hw; rw [← hw]; exact .sliceNil hs
  · rename_i n e' vs hs
    rw [hs] at he
    simp [Shape.elem?] at he
    subst he
    simp only [Option.map_eq_some_iff] at hw
    obtain ⟨ws, hws, hw⟩ := hw
    have hts : vs.length = n ∧ ∀ v ∈ vs, HasTy Γ e' v := by
      cases ht with
      | slice h1 => rw [hs] at h1; cases h1
      | array h1 h2 h3 h4 => rw [hs] at h1; cases h1; exact ⟨h3, h4⟩
    have := normElems_typed hz h hS hts.2 hws
    rw [← hw]; exact .array hs hb (by omega) this.2
  · cases hw

theorem normField_typed (hz : ∀ id, HasTy Γ (.base id) (Γ.zero id)) (h : RecNT Γ S nm) {f : Field} {num : Nat}
    {v w : Val} (hf : FieldOk Γ S f num) (ht : HasTy Γ f.ty v)
    (hw : normField Γ bl nm f num v = some w) : HasTy Γ f.ty w := by
  unfold normField at hw
  split at hw
  · simp at hw; subst hw; exact hasTy_absent hz _
  · simp only [Option.bind_eq_some_iff] at hw
    obtain ⟨dv, hdv, hw⟩ := hw
    rw [pointee_eq] at hdv
    have htd := hasTy_derefVal ht hdv
    split at hw
    · rename_i hr
      have := hf.rep hr
      rw [repeated_eq] at hr
      obtain ⟨id, e, hid, he, hb, hlk⟩ := unpackedList_inv hr
      rw [hid] at hw htd this ⊢
      exact normList_typed hz h he hb (this.2.2 e he) htd hw
    · rename_i hr
      simp only [Option.map_eq_some_iff] at hw
      obtain ⟨w1, hw1, hw⟩ := hw
      rw [← hw]
      exact hasTy_refs (h _ _ _ _ (hf.single (by simpa using hr)).1 htd hw1)

theorem normFields_typed (hz : ∀ id, HasTy Γ (.base id) (Γ.zero id)) (h : RecNT Γ S nm) {num : Nat}
    {fs : List Field} {vs ws : List Val} (hf : FieldsOk Γ S num fs) (ht : FieldsTy Γ fs vs)
    (hw : normFields Γ bl nm num fs vs = some ws) : FieldsTy Γ fs ws := by
  induction fs generalizing num vs ws with
  | nil =>
    cases vs with
    | nil => simp [normFields] at hw; subst hw; exact fieldsTy_nil
    | cons => simp [normFields] at hw
  | cons f fs ih =>
    cases vs with
    | nil => simp [normFields] at hw
    | cons v vs =>
      have ht' := fieldsTy_cons.mp ht
      unfold normFields at hw
      unfold FieldsOk at hf
      split at hw
      · rename_i hv
        rw [if_pos hv] at hf
        simp only [Option.bind_eq_some_iff, Option.map_eq_some_iff] at hw
        obtain ⟨w, hw1, ws', hw2, rfl⟩ := hw
        exact fieldsTy_cons.mpr ⟨normField_typed hz h hf.1 ht'.1 hw1, ih hf.2 ht'.2 hw2⟩
      · rename_i hv
        rw [if_neg hv] at hf
        simp only [Option.map_eq_some_iff] at hw
        obtain ⟨ws', hw2, rfl⟩ := hw
        exact fieldsTy_cons.mpr ⟨hasTy_zeroTy hz f.ty, ih hf ht'.2 hw2⟩

end

/-- The normalised value has the type of the original. -/
theorem norm_typed (hU : Universe Γ c S) (hT : Γ.Typed) (f : Nat) : RecNT Γ S (norm Γ c f) := by
  induction f with
  | zero => intro id v fo w _ _ h; simp [norm] at h
  | succ f ih =>
    intro id v fo w hS ht hw
    unfold norm at hw
    cases hm : Γ.marsh id with
    | some rm =>
      obtain ⟨rid, m⟩ := rm
      rw [hm] at hw
      simp only at hw
      split at hw
      · rename_i r rid' um hr hum
        obtain ⟨⟨um', hum'⟩, hSr, _, _, _⟩ := hU.marsh hS hm
        rw [hum'] at hum
        cases hum
        simp only [Option.bind_eq_some_iff] at hw
        obtain ⟨r', hr', hw⟩ := hw
        split at hw
        · rename_i w' hw'
          cases hw
          exact hT.unmarsh hum' (hT.zero id) (ih _ _ _ _ hSr (hT.marsh hm ht hr) hr') hw'
        · cases hw
      · cases hw
    | none =>
      rw [hm] at hw
      simp only at hw
      unfold normShape at hw
      split at hw
      · rename_i e b hs
        simp at hw
        cases ht with
        | sliceBytes h1 h2 =>
          split at hw
          · rw [← hw]; exact .sliceNil hs
          · rw [← hw]; exact .sliceBytes h1 h2
        | arrayBytes h1 => rw [hs] at h1; cases h1
      · rename_i e b hs
        simp at hw; rw [← hw]; exact ht
      · rename_i e hs hnb
        have hlo := hU.slice hS hs hm
        cases hb : Γ.isByteKind e with
        | false =>
          rw [← hs] at hw
          exact normList_typed hT.zero ih (by rw [hs]; rfl) hb (elemOk_of_list hlo (by simp [hb])).2 ht hw
        | true =>
          cases ht with
          | sliceNil => simp [normList] at hw; rw [← hw]; exact .sliceNil hs
          | slice h1 h2 => rw [hs] at h1; cases h1; simp_all
          | _ => simp_all
      · rename_i n e hs hnb
        have hlo := hU.array hS hs hm
        cases hb : Γ.isByteKind e with
        | false =>
          rw [← hs] at hw
          exact normList_typed hT.zero ih (by rw [hs]; rfl) hb (elemOk_of_list hlo (by simp [hb])).2 ht hw
        | true =>
          cases ht with
          | array h1 h2 => rw [hs] at h1; cases h1; simp_all
          | _ => simp_all
      · rename_i fs vs hs
        simp only [Option.map_eq_some_iff] at hw
        obtain ⟨ws, hws, hw⟩ := hw
        have hft : FieldsTy Γ fs vs := by
          cases ht with
          | struct h1 h2 h3 => rw [hs] at h1; cases h1; exact ⟨h2, h3⟩
        have := normFields_typed hT.zero ih (hU.struct hS hs hm) hft hws
        rw [← hw]; exact .struct hs this.1 this.2
      · rename_i t v hs
        split at hw
        · rename_i dv ci hdv hci
          simp only [Option.map_eq_some_iff] at hw
          obtain ⟨w1, hw1, hw⟩ := hw
          rw [pointee_eq] at hdv
          cases ht with
          | iface h1 h2 h3 =>
            have hreg := hU.registered hS hs
            cases hii : c.iface? id with
            | none => simp [hii] at hreg
            | some ii =>
              have hmem := (hU.iface hS hs hii).1 t ci h2 hci
              have hok := (hU.iface hS hs hii).2 ci hmem
              have hid := conc_mem hci
              have hw2 : HasTy Γ (.base ci.tid) w1 := by
                rw [hid]
                exact ih _ _ _ _ (by rw [← hid]; exact hok.type) (hasTy_derefVal h3 hdv) hw1
              have ha := hok.assignable
              cases hp : ci.ptrPref with
              | true =>
                rw [hp] at ha hw
                simp only [if_true] at ha hw
                rw [← hw]; exact .iface hs ha (.ptr hw2)
              | false =>
                rw [hp] at ha hw
                simp only [if_false, Bool.false_eq_true] at ha hw
                rw [← hw]; exact .iface hs ha hw2
        · cases hw
      all_goals first
        | cases hw; exact ht
        | cases hw

/-! ## Totality -/

section
variable {bl : TId → Val → FOpts → Bool} {nm : TId → Val → FOpts → Option Val}
  {rec : TId → Val → FOpts → Bool → Res Bytes}

/-- What the encoder one level down accepts, normalisation accepts. -/
def RecTot (Γ : Prog) (S : TId → FOpts → Prop) (nm : TId → Val → FOpts → Option Val)
    (rec : TId → Val → FOpts → Bool → Res Bytes) : Prop :=
  ∀ id v fo bare b, S id fo → HasTy Γ (.base id) v → (Γ.isIface id = true → v ≠ .nil) →
    rec id v fo bare = .ok b → ∃ w, nm id v fo = some w

theorem notIface_of_notLen {id : TId} (h : lenKind Γ id = false) : Γ.isIface id = false := by
  unfold lenKind at h; unfold Prog.isIface
  split at h <;> simp_all

theorem nonNil_of_notDflt {id : TId} {v : Val} (h : dflt (Γ.shape id) v = false) : Γ.isIface id = true → v ≠ .nil := by
  intro hi hv
  unfold Prog.isIface at hi
  split at hi
  · rename_i hs; rw [hs, hv] at h; simp [dflt] at h
  · simp at hi

theorem normElems_tot (hz : ∀ id, HasTy Γ (.base id) (Γ.zero id)) (h : RecTot Γ S nm rec) {e : Ty} {fo : FOpts}
    {vs : List Val} {buf : Bytes} (hS : ElemOk Γ S e fo) (ht : ∀ v ∈ vs, HasTy Γ e v)
    (he : (if Γ.typ3 e.deref fo ≠ typ3ByteLength then encPacked Γ rec e fo vs
     else encUnpacked Γ rec e fo vs) = .ok buf) : ∃ ws, normElems Γ bl nm e fo vs = some ws := by
  induction vs generalizing buf with
  | nil => exact ⟨[], by simp [normElems]⟩
  | cons v vs ih =>
    have hS' := hS.2
    unfold normElems
    split at he
    · rename_i h3
      have hlen : lenKind Γ e.deref = false := by
        rw [lenKind_eq, Bool.eq_false_iff]; intro hh; exact h3 (isLen_iff.mp hh)
      rw [hlen, if_neg (by simp)] at hS'
      unfold encPacked at he
      obtain ⟨b1, h1, he⟩ := Res.bind_eq_ok he
      obtain ⟨b2, h2, he⟩ := Res.bind_eq_ok he
      obtain ⟨ws, hws⟩ := ih (fun v hv => ht v (by simp [hv])) (by rw [if_pos h3]; exact h2)
      obtain ⟨w, hw⟩ := h _ _ _ _ _ hS' (hasTy_derefZero hz (ht v (by simp)))
        (by simp [notIface_of_notLen hlen]) h1
      have hd : (pointee e v).getD (Γ.zero e.deref) = Γ.derefZero e v := by
        rw [pointee_eq]; unfold Prog.derefZero; cases derefVal e v <;> rfl
      rw [hlen, if_neg (by simp), hws]
      unfold normPackedElem
      rw [hd, hw]
      exact ⟨_, rfl⟩
    · rename_i h3
      have hlen : lenKind Γ e.deref = true := by
        rw [lenKind_eq]; exact isLen_iff.mpr (Classical.not_not.mp h3)
      rw [if_pos hlen] at hS'
      unfold encUnpacked at he
      obtain ⟨_, _, he⟩ := Res.bind_eq_ok he
      obtain ⟨b1, h1, he⟩ := Res.bind_eq_ok he
      obtain ⟨b2, h2, he⟩ := Res.bind_eq_ok he
      obtain ⟨ws, hws⟩ := ih (fun v hv => ht v (by simp [hv])) (by rw [if_neg h3]; exact h2)
      rw [if_pos hlen, hws]
      suffices ∃ w, normElem Γ bl nm e fo v = some w by
        obtain ⟨w, hw⟩ := this
        rw [hw]; exact ⟨_, rfl⟩
      unfold normElem
      unfold encElem at h1
      rw [pointee_eq]
      cases hd : derefVal e v with
      | none => exact ⟨_, rfl⟩
      | some dv =>
        rw [hd] at h1
        simp only at h1 ⊢
        split
        · exact ⟨_, rfl⟩
        · rename_i hc
          have hdf : dflt (Γ.shape e.deref) dv = false := by
            rw [Bool.eq_false_iff]; intro hh; apply hc; simp [hh]
          rw [← dflt_eq, hdf, if_neg (by simp)] at h1
          obtain ⟨w, hw⟩ := h _ _ _ _ _ hS' (hasTy_derefVal (ht v (by simp)) hd) (nonNil_of_notDflt hdf) h1
          rw [hw]; exact ⟨_, rfl⟩

theorem normList_tot (hz : ∀ id, HasTy Γ (.base id) (Γ.zero id)) (h : RecTot Γ S nm rec) {id : TId} {e : Ty}
    {fo : FOpts} {v : Val} {bare : Bool} {b : Bytes} (he : (Γ.shape id).elem? = some e)
    (hb : Γ.isByteKind e = false) (hS : ElemOk Γ S e fo) (ht : HasTy Γ (.base id) v)
    (hw : encList Γ c rec e v fo bare = .ok b) : ∃ w, normList Γ bl nm (Γ.shape id) fo v = some w := by
  unfold encList at hw
  obtain ⟨_, _, hw⟩ := Res.bind_eq_ok hw
  unfold normList
  cases ht with
  | sliceNil h1 => rw [h1]; exact ⟨_, rfl⟩
  | slice h1 h2 h3 =>
    rw [h1] at he ⊢
    simp [Shape.elem?] at he
    subst he
    simp only at hw
    obtain ⟨buf, hbuf, hw⟩ := Res.bind_eq_ok hw
    obtain ⟨ws, hws⟩ := normElems_tot (bl := bl) hz h hS h3 hbuf
    simp only [hws]; exact ⟨_, rfl⟩
  | array h1 h2 h3 h4 =>
    rw [h1] at he ⊢
    simp [Shape.elem?] at he
    subst he
    simp only at hw
    obtain ⟨buf, hbuf, hw⟩ := Res.bind_eq_ok hw
    obtain ⟨ws, hws⟩ := normElems_tot (bl := bl) hz h hS h4 hbuf
    simp only [hws]; exact ⟨_, rfl⟩
  | sliceBytes h1 h2 => rw [h1] at he; simp [Shape.elem?] at he; simp_all
  | arrayBytes h1 h2 => rw [h1] at he; simp [Shape.elem?] at he; simp_all
  | bool h1 | int h1 | f32 h1 | f64 h1 | str h1 | time h1 | mapNil h1 | map h1 | ifaceNil h1 | iface h1 | struct h1 =>
    rw [h1] at he; simp [Shape.elem?] at he

theorem normField_tot (hz : ∀ id, HasTy Γ (.base id) (Γ.zero id)) (h : RecTot Γ S nm rec) {f : Field} {num : Nat}
    {v : Val} {b : Bytes} (hf : FieldOk Γ S f num) (ht : HasTy Γ f.ty v)
    (hw : encField Γ c rec f num v = .ok b) : ∃ w, normField Γ bl nm f num v = some w := by
  unfold normField
  split
  · exact ⟨_, rfl⟩
  · rename_i ho
    unfold encField at hw
    obtain ⟨_, _, hw⟩ := Res.bind_eq_ok hw
    unfold omits at ho
    rw [pointee_eq] at ho ⊢
    cases hd : derefVal f.ty v with
    | none => rw [hd] at ho; simp at ho
    | some dv =>
      rw [hd] at hw ho
      simp only [dflt_eq] at ho hw
      have htd := hasTy_derefVal ht hd
      have hnd : (isDefaultBase (Γ.shape f.ty.deref) dv && !f.opts.writeEmpty) = false := by
        rw [Bool.eq_false_iff]; intro hh; apply ho; rw [hh]; rfl
      rw [hnd, if_neg (by simp)] at hw
      simp only [Option.bind_some]
      cases hu : Γ.unpackedList f with
      | true =>
        rw [repeated_eq, hu]
        rw [hu, if_pos rfl] at hw
        have hrep := hf.rep (by rw [repeated_eq]; exact hu)
        obtain ⟨id, e, hid, he, hb, _⟩ := unpackedList_inv hu
        have he' := he
        rw [hid] at hw htd hrep ⊢
        simp only [Ty.deref] at hw htd hrep ⊢
        rw [he] at hw
        simp only [if_true]
        exact normList_tot hz h he hb (hrep.2.2 e he) htd hw
      | false =>
        rw [repeated_eq, hu, if_neg (by simp)]
        rw [hu, if_neg (by simp)] at hw
        have hs := hf.single (by rw [repeated_eq]; exact hu)
        unfold writeField at hw
        obtain ⟨_, _, hw⟩ := Res.bind_eq_ok hw
        obtain ⟨_, hb, hw⟩ := Res.bind_eq_ok hw
        have hni : Γ.isIface f.ty.deref = true → dv ≠ .nil := by
          intro hi hv
          have := hs.2 hi
          rw [this] at hnd
          unfold Prog.isIface at hi
          split at hi
          · rename_i hsh; rw [hsh, hv] at hnd; simp [isDefaultBase] at hnd
          · simp at hi
        obtain ⟨w, hw⟩ := h _ _ _ _ _ hs.1 htd hni hb
        rw [hw]; exact ⟨_, rfl⟩

theorem normFields_tot (hz : ∀ id, HasTy Γ (.base id) (Γ.zero id)) (h : RecTot Γ S nm rec) {num : Nat}
    {fs : List Field} {vs : List Val} {b : Bytes} (hf : FieldsOk Γ S num fs) (ht : FieldsTy Γ fs vs)
    (hw : encFields Γ c rec num fs vs = .ok b) : ∃ ws, normFields Γ bl nm num fs vs = some ws := by
  induction fs generalizing num vs b with
  | nil =>
    cases vs with
    | nil => exact ⟨_, rfl⟩
    | cons => simp [encFields] at hw
  | cons f fs ih =>
    cases vs with
    | nil => simp [encFields] at hw
    | cons v vs =>
      have ht' := fieldsTy_cons.mp ht
      unfold encFields at hw
      unfold FieldsOk at hf
      unfold normFields
      cases hv : f.visible with
      | false =>
        rw [hv] at hf hw
        simp only [Bool.not_false, if_true, Bool.false_eq_true, if_false] at hf hw ⊢
        obtain ⟨ws, hws⟩ := ih hf ht'.2 hw
        rw [hws]; exact ⟨_, rfl⟩
      | true =>
        rw [hv] at hf hw
        simp only [Bool.not_true, if_true, Bool.false_eq_true, if_false] at hf hw ⊢
        obtain ⟨b1, h1, hw⟩ := Res.bind_eq_ok hw
        obtain ⟨b2, h2, hw⟩ := Res.bind_eq_ok hw
        obtain ⟨ws, hws⟩ := ih hf.2 ht'.2 h2
        obtain ⟨w, hw⟩ := normField_tot (bl := bl) hz h hf.1 ht'.1 h1
        rw [hw, hws]; exact ⟨_, rfl⟩

end

/-- UnmarshalAmino never fails on values of the representation type. -/
def UserTotal (Γ : Prog) : Prop :=
  ∀ id rid um r, Γ.unmarsh id = some (rid, um) → HasTy Γ (.base rid) r → ∃ w, um (Γ.zero id) r = .ok w

/-- What the encoder accepts has a normalised form. -/
theorem norm_total (hU : Universe Γ c S) (hT : Γ.Typed) (hum : UserTotal Γ) (f : Nat) :
    RecTot Γ S (norm Γ c f) (enc Γ c f) := by
  induction f with
  | zero => intro id v fo bare b _ _ _ h; simp [enc] at h
  | succ f ih =>
    intro id v fo bare b hS ht hn hw
    unfold enc encBody at hw
    unfold norm
    cases hm : Γ.marsh id with
    | some rm =>
      obtain ⟨rid, m⟩ := rm
      rw [hm] at hw
      simp only at hw ⊢
      obtain ⟨r, hr, hw⟩ := Res.bind_eq_ok hw
      obtain ⟨_, _, hw⟩ := Res.bind_eq_ok hw
      obtain ⟨⟨um, hum'⟩, hSr, _, hri, _⟩ := hU.marsh hS hm
      obtain ⟨r', hr'⟩ := ih rid r fo bare b hSr (hT.marsh hm ht hr) (by simp [hri]) hw
      obtain ⟨w, hw⟩ := hum id rid um r' hum' (norm_typed hU hT f _ _ _ _ hSr (hT.marsh hm ht hr) hr')
      rw [hr, hum']
      simp only [hr', Option.bind_some, hw]
      exact ⟨_, rfl⟩
    | none =>
      rw [hm] at hw
      simp only at hw ⊢
      unfold encShape at hw
      unfold normShape
      cases ht with
      | sliceBytes h1 h2 => rw [h1]; exact ⟨_, rfl⟩
      | arrayBytes h1 h2 => rw [h1]; exact ⟨_, rfl⟩
      | sliceNil h1 => rw [h1]; exact ⟨_, rfl⟩
      | slice h1 h2 h3 =>
        rename_i e vs
        rw [h1] at hw ⊢
        simp only [h2, Bool.false_eq_true, if_false] at hw ⊢
        have hlo := hU.slice hS h1 hm
        have hlk : Γ.isListKind e = false := by
          unfold ListOk at hlo; rw [h2] at hlo; simp at hlo; exact hlo.1
        simp only [hlk, Bool.false_eq_true, if_false] at hw
        have := normList_tot (bl := blank Γ f) (c := c) (id := id) hT.zero ih (by rw [h1]; rfl) h2
          (elemOk_of_list hlo (by simp [h2])).2 (.slice h1 h2 h3) hw
        rw [h1] at this
        exact this
      | array h1 h2 h3 h4 =>
        rename_i n e vs
        rw [h1] at hw ⊢
        simp only [h2, Bool.false_eq_true, if_false] at hw ⊢
        have hlo := hU.array hS h1 hm
        have hlk : Γ.isListKind e = false := by
          unfold ListOk at hlo; rw [h2] at hlo; simp at hlo; exact hlo.1
        simp only [hlk, Bool.false_eq_true, if_false] at hw
        have := normList_tot (bl := blank Γ f) (c := c) (id := id) hT.zero ih (by rw [h1]; rfl) h2
          (elemOk_of_list hlo (by simp [h2])).2 (.array h1 h2 h3 h4) hw
        rw [h1] at this
        exact this
      | struct h1 h2 h3 =>
        rw [h1] at hw ⊢
        simp only at hw ⊢
        obtain ⟨buf, hbuf, hw⟩ := Res.bind_eq_ok hw
        obtain ⟨ws, hws⟩ := normFields_tot (bl := blank Γ f) hT.zero ih (hU.struct hS h1 hm) ⟨h2, h3⟩ hbuf
        rw [hws]; exact ⟨_, rfl⟩
      | ifaceNil h1 => exact absurd rfl (hn (by unfold Prog.isIface; rw [h1]))
      | iface h1 h2 h3 =>
        rename_i t v
        rw [h1] at hw ⊢
        simp only at hw ⊢
        unfold encIface at hw
        simp only at hw
        rw [pointee_eq]
        cases hd : derefVal t v with
        | none => rw [hd] at hw; simp at hw
        | some dv =>
          rw [hd] at hw
          simp only at hw
          split at hw
          · simp at hw
          · obtain ⟨_, _, hw⟩ := Res.bind_eq_ok hw
            cases hci : c.conc? t.deref with
            | none => rw [hci] at hw; simp at hw
            | some ci =>
              rw [hci] at hw
              cases hii : c.iface? id with
              | none => rw [hii] at hw; simp at hw
              | some ii =>
                rw [hii] at hw
                simp only at hw ⊢
                obtain ⟨b0, hb0, hw⟩ := Res.bind_eq_ok hw
                have hmem := (hU.iface hS h1 hii).1 t ci h2 hci
                have hok := (hU.iface hS h1 hii).2 ci hmem
                have hid := conc_mem hci
                have h5 := hok.type
                have h6 := hok.notIface
                rw [hid] at h5 h6
                obtain ⟨w, hw⟩ := ih _ _ _ _ _ h5 (hasTy_derefVal h3 hd) (by simp [h6]) hb0
                rw [hw]; exact ⟨_, rfl⟩
      | mapNil h1 => exact absurd h1 (hU.noMap hS)
      | map h1 => exact absurd h1 (hU.noMap hS)
      | bool h1 => rw [h1]; exact ⟨_, rfl⟩
      | int h1 => rw [h1]; exact ⟨_, rfl⟩
      | f32 h1 => rw [h1]; exact ⟨_, rfl⟩
      | f64 h1 => rw [h1]; exact ⟨_, rfl⟩
      | str h1 => rw [h1]; exact ⟨_, rfl⟩
      | time h1 => rw [h1]; exact ⟨_, rfl⟩

end Amino
