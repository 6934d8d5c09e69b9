import Verif.NormLemmas

/-!
# Re-encoding a normalised value gives the same bytes
-/

namespace Amino
open Spec

variable {Γ : Prog} {c : Codec} {S : TId → FOpts → Prop}

theorem derefZero_base {id : TId} {v : Val} : Γ.derefZero (.base id) v = v := rfl

section
variable {bl : TId → Val → FOpts → Bool} {nm : TId → Val → FOpts → Option Val}
  {rec : TId → Val → FOpts → Bool → Res Bytes}

theorem dflt_zero (hZ : ZeroOk Γ) {id : TId} {v : Val} (hm : ∀ e, Γ.shape id ≠ .map e)
    (h : dflt (Γ.shape id) v = true) : dflt (Γ.shape id) (Γ.zero id) = true := by
  cases hs : Γ.shape id with
  | int k => rw [hZ.int hs]; simp [dflt]
  | string => rw [hZ.string hs]; simp [dflt]
  | slice e => rw [hZ.slice hs]; simp [dflt]
  | iface => rw [hZ.iface hs]; simp [dflt]
  | map e => exact absurd hs (hm e)
  | _ => rw [hs] at h; simp [dflt] at h

/-- If a field contributes nothing, neither does the zero value of its type. -/
theorem steady_field {rec' : TId → Val → FOpts → Bool → Res Bytes} (hZ : ZeroOk Γ) {f : Field} {num : Nat} {v : Val}
    (hrec : ∀ i, f.ty = .base i → ∀ fo v, S i fo → HasTy Γ (.base i) v → rec i v fo false = .ok [0] →
      rec' i (Γ.zero i) fo false = .ok [0])
    (hnm : ∀ {id fo e}, S id fo → Γ.shape id ≠ .map e)
    (hf : FieldOk Γ S f num) (ht : HasTy Γ f.ty v)
    (h : encField Γ c rec f num v = .ok []) : encField Γ c rec' f num (Γ.zeroTy f.ty) = .ok [] := by
  unfold encField at h ⊢
  obtain ⟨_, hi, h⟩ := Res.bind_eq_ok h
  rw [hi, Res.bind_ok]
  cases hty : f.ty with
  | ptr t =>
    simp only [Prog.zeroTy, derefVal]
    suffices f.opts.writeEmpty = false by rw [this]; rfl
    rw [hty] at h
    cases hd : derefVal (.ptr t) v with
    | none =>
      rw [hd] at h
      simp only at h
      cases hw : f.opts.writeEmpty with
      | false => rfl
      | true => rw [hw] at h; simp at h
    | some dv =>
      rw [hd] at h
      simp only at h
      cases hw : f.opts.writeEmpty with
      | false => rfl
      | true =>
        exfalso
        rw [hw] at h
        have hu : Γ.unpackedList f = false := by unfold Prog.unpackedList; rw [hty]
        rw [hu] at h
        simp only [Bool.not_true, Bool.and_false, Bool.false_eq_true, if_false] at h
        unfold writeField at h
        obtain ⟨k, hk, h⟩ := Res.bind_eq_ok h
        obtain ⟨b', hb', h⟩ := Res.bind_eq_ok h
        have hk := (encodeKey_ok hk (typ3_lt _ _ _)).1
        simp at h
        rw [hk] at h
        exact varint_ne_nil _ h.1
  | base i =>
    have hu := hf.rep
    have hsg := hf.single
    rw [hty] at h ht hu hsg
    simp only [Prog.zeroTy, derefVal] at h hu hsg ⊢
    rw [show (Ty.base i).deref = i from rfl] at *
    by_cases hd : (isDefaultBase (Γ.shape i) (Γ.zero i) && !f.opts.writeEmpty) = true
    · rw [if_pos hd]
    · rw [if_neg hd]
      by_cases hdv : (isDefaultBase (Γ.shape i) v && !f.opts.writeEmpty) = true
      · exfalso
        simp only [Bool.and_eq_true] at hdv
        have hmap : ∀ e, Γ.shape i ≠ .map e := by
          intro e he
          have hr : repeated Γ f = false := by unfold repeated; rw [hty]; simp only; rw [he]
          exact hnm (hsg hr).1 he
        have := dflt_zero hZ hmap (by rw [dflt_eq]; exact hdv.1)
        rw [dflt_eq] at this
        simp [this, hdv.2] at hd
      · rw [if_neg hdv] at h
        cases hul : Γ.unpackedList f with
        | true =>
          rw [hul] at h
          simp only [if_true] at h ⊢
          obtain ⟨id, e, hid, he, hb, hlk⟩ := unpackedList_inv hul
          rw [hty] at hid
          cases hid
          rw [he] at h ⊢
          simp only at h ⊢
          unfold encList at h ⊢
          obtain ⟨_, hi2, h⟩ := Res.bind_eq_ok h
          rw [hi2, Res.bind_ok]
          cases hs : Γ.shape i with
          | slice e' => rw [hZ.slice hs]; simp [framed]
          | array n e' =>
            rw [hs] at he
            simp [Shape.elem?] at he
            subst he
            rw [hZ.array hs hb]
            cases ht with
            | array h1 h2 h3 h4 =>
              rw [hs] at h1
              cases h1
              simp only at h
              obtain ⟨buf, hbuf, h⟩ := Res.bind_eq_ok h
              simp [framed] at h
              subst h
              rw [if_neg (by rw [lenKind_eq] at hlk; simp [isLen_iff.mp hlk])] at hbuf
              have := encUnpacked_nil hbuf
              simp at this
              subst this
              simp at h3
              subst h3
              simp [encUnpacked, encPacked, framed]
            | arrayBytes h1 h2 => rw [hs] at h1; cases h1; simp_all
            | bool h1 | int h1 | f32 h1 | f64 h1 | str h1 | time h1 | mapNil h1 | map h1 | ifaceNil h1 | iface h1 | struct h1 | slice h1 | sliceNil h1 | sliceBytes h1 =>
              rw [hs] at h1; cases h1
          | _ => rw [hs] at he; simp [Shape.elem?] at he
        | false =>
          rw [hul] at h
          simp only [Bool.false_eq_true, if_false] at h ⊢
          have hS := (hsg (by rw [repeated_eq]; exact hul)).1
          generalize ({ f.opts with fnum := num } : FOpts) = fo at *
          unfold writeField at h ⊢
          obtain ⟨k, hk, h⟩ := Res.bind_eq_ok h
          obtain ⟨b', hb', h⟩ := Res.bind_eq_ok h
          have hkn := (encodeKey_ok hk (typ3_lt _ _ _)).1
          rw [hk, Res.bind_ok]
          split at h
          · rename_i hc
            simp only [Bool.and_eq_true, beq_iff_eq] at hc
            rw [hc.2] at hb'
            rw [hrec i hty fo v hS ht hb', Res.bind_ok, if_pos (by simp [hc.1])]
          · simp at h
            rw [hkn] at h
            exact absurd h.1 (varint_ne_nil _)

theorem steady_fields (hZ : ZeroOk Γ) {num : Nat} {fs : List Field} {vs : List Val}
    (hrec : ∀ f ∈ fs, f.visible = true → ∀ i, f.ty = .base i → ∀ fo v, S i fo → HasTy Γ (.base i) v →
      rec i v fo false = .ok [0] → rec i (Γ.zero i) fo false = .ok [0])
    (hnm : ∀ {id fo e}, S id fo → Γ.shape id ≠ .map e)
    (hf : FieldsOk Γ S num fs) (ht : FieldsTy Γ fs vs)
    (h : encFields Γ c rec num fs vs = .ok []) :
    encFields Γ c rec num fs (fs.map fun f => Γ.zeroTy f.ty) = .ok [] := by
  induction fs generalizing num vs with
  | nil => rfl
  | cons f fs ih =>
    cases vs with
    | nil => simp [encFields] at h
    | cons v vs =>
      have ht' := fieldsTy_cons.mp ht
      unfold encFields at h
      unfold FieldsOk at hf
      rw [List.map_cons]
      unfold encFields
      cases hv : f.visible with
      | false =>
        rw [hv] at hf h
        simp only [Bool.not_false, if_true, Bool.false_eq_true, if_false] at hf h ⊢
        exact ih (fun f hf => hrec f (by simp [hf])) hf ht'.2 h
      | true =>
        rw [hv] at hf h
        simp only [Bool.not_true, if_true, Bool.false_eq_true, if_false] at hf h ⊢
        obtain ⟨b1, h1, h⟩ := Res.bind_eq_ok h
        obtain ⟨b2, h2, h⟩ := Res.bind_eq_ok h
        simp at h
        obtain ⟨rfl, rfl⟩ := h
        rw [steady_field hZ (hrec f (by simp) hv) hnm hf.1 ht'.1 h1, Res.bind_ok,
          ih (fun f hf => hrec f (by simp [hf])) hf.2 ht'.2 h2]
        rfl

end

theorem framed_false_zero {p : Bytes} (h : framed false p = .ok [0]) : p = [] := by
  have := (framed_ok h (by decide)).1
  simp only [Bool.false_eq_true, if_false] at this
  have h2 := congrArg List.length this
  have := varint_length_pos p.length
  simp only [List.length_append, List.length_singleton] at h2
  apply List.eq_nil_of_length_eq_zero
  omega

/-- If a value of a steady type is written as the empty message, so is the zero value. -/
theorem steady_enc (hU : Universe Γ c S) (hT : Γ.Typed) (hZ : ZeroOk Γ) {id : TId} (hst : Steady Γ id) :
    ∀ f fo v, S id fo → HasTy Γ (.base id) v → enc Γ c f id v fo false = .ok [0] →
      enc Γ c f id (Γ.zero id) fo false = .ok [0] := by
  induction hst with
  | @leaf id hm hns =>
    intro f fo v hS ht h
    have hbl := (enc_lead hU hT f id v fo _ hS ht h (by decide)).blank.mp rfl
    cases f with
    | zero => simp [enc] at h
    | succ f =>
      unfold enc encBody at h ⊢
      unfold blank at hbl
      rw [hm] at h hbl ⊢
      simp only at h hbl ⊢
      unfold encShape at h ⊢
      unfold blankShape at hbl
      cases hs : Γ.shape id with
      | iface => rw [hZ.iface hs]; simp [encIface]
      | slice e =>
        rw [hZ.slice hs]
        have hlo := hU.slice hS hs hm
        unfold ListOk at hlo
        simp only
        split
        · simp [encodeByteSlice]; decide +kernel
        · rename_i hb
          rw [if_neg hb] at hlo
          rw [hlo.1]
          simp only [Bool.false_eq_true, if_false]
          unfold encList
          rw [hs] at h
          rw [getInfo_ok hU hlo.2.2]
          simp [framed, encodeByteSlice]; decide +kernel
      | array n e =>
        rw [hs] at h hbl
        suffices v = Γ.zero id by rw [← this]; exact h
        cases ht with
        | array h1 h2 h3 h4 =>
          rw [hs] at h1; cases h1
          simp at hbl
          subst hbl
          simp at h3
          subst h3
          rw [hZ.array hs h2]; rfl
        | arrayBytes h1 h2 h3 =>
          rw [hs] at h1; cases h1
          simp at hbl
          subst hbl
          simp at h3
          subst h3
          have := hT.zero id
          generalize Γ.zero id = z at *
          cases this with
          | arrayBytes h1 h2 h3 => rw [hs] at h1; cases h1; simp at h3; rw [h3]
          | array h1 h2 h3 => rw [hs] at h1; cases h1; simp_all
          | bool h1 | int h1 | f32 h1 | f64 h1 | str h1 | time h1 | mapNil h1 | map h1 | ifaceNil h1 | iface h1 | struct h1 | slice h1 | sliceNil h1 | sliceBytes h1 =>
              rw [hs] at h1; cases h1
        | bool h1 | int h1 | f32 h1 | f64 h1 | str h1 | time h1 | mapNil h1 | map h1 | ifaceNil h1 | iface h1 | struct h1 | slice h1 | sliceNil h1 | sliceBytes h1 =>
              rw [hs] at h1; cases h1
      | struct fs => simp [Prog.isStruct, hs] at hns
      | time => simp [Prog.isStruct, hs] at hns
      | map e => exact absurd hs (hU.noMap hS)
      | bool =>
        rw [hs] at h hbl
        rw [hZ.bool hs]
        cases v <;> simp_all
      | int k =>
        rw [hs] at h hbl
        rw [hZ.int hs]
        cases v <;> cases k <;> simp_all
      | string =>
        rw [hs] at h hbl
        rw [hZ.string hs]
        cases v <;> simp_all
      | float32 => rw [hs] at hbl; simp at hbl
      | float64 => rw [hs] at hbl; simp at hbl
  | @struct id fs hm hs hfs ih =>
    intro f fo v hS ht h
    cases f with
    | zero => simp [enc] at h
    | succ f =>
      unfold enc encBody at h ⊢
      rw [hm] at h ⊢
      simp only at h ⊢
      unfold encShape at h ⊢
      rw [hs] at h ⊢
      rw [hZ.struct hs]
      simp only at h ⊢
      cases ht with
      | struct h1 h2 h3 =>
        rw [hs] at h1; cases h1
        simp only at h
        obtain ⟨buf, hbuf, h⟩ := Res.bind_eq_ok h
        have hb := framed_false_zero h
        subst hb
        rw [steady_fields hZ (fun f' hf' hv i hi => ih f' hf' hv i hi f) hU.noMap
          (hU.struct hS hs hm) ⟨h2, h3⟩ hbuf]
        exact h
      | bool h1 | int h1 | f32 h1 | f64 h1 | str h1 | time h1 | mapNil h1 | map h1 | ifaceNil h1 | iface h1 | slice h1 | sliceNil h1 | sliceBytes h1 | array h1 | arrayBytes h1 =>
              rw [hs] at h1; cases h1
  | @marsh id rid m hm hz hst ih =>
    intro f fo v hS ht h
    cases f with
    | zero => simp [enc] at h
    | succ f =>
      unfold enc encBody at h ⊢
      rw [hm] at h ⊢
      simp only at h ⊢
      obtain ⟨r, hr, h⟩ := Res.bind_eq_ok h
      obtain ⟨_, hi, h⟩ := Res.bind_eq_ok h
      obtain ⟨_, hSr, _⟩ := hU.marsh hS hm
      rw [hz, Res.bind_ok, hi, Res.bind_ok]
      exact ih f fo r hSr (hT.marsh hm ht hr) h

/-! ## The encoder on normalised values -/

theorem derefVal_refs (t : Ty) (v : Val) : derefVal t (refs t v) = some v := by
  rw [refs_eq]; exact derefVal_wrap t v

section
variable {bl : TId → Val → FOpts → Bool} {nm : TId → Val → FOpts → Option Val}
  {rec : TId → Val → FOpts → Bool → Res Bytes}

/-- One level down, encoding the normalised value gives the same bytes (with one more level of fuel: a nil
`*time.Time` list element comes back as a pointer to 1970). -/
def RecRe (Γ : Prog) (S : TId → FOpts → Prop) (nm : TId → Val → FOpts → Option Val)
    (rec rec' : TId → Val → FOpts → Bool → Res Bytes) : Prop :=
  ∀ id v fo bare b w, S id fo → HasTy Γ (.base id) v → (Γ.isIface id = true → v ≠ .nil) →
    rec id v fo bare = .ok b → b.length < 2 ^ 63 → nm id v fo = some w → rec' id w fo bare = .ok b

/-- One level down, a normalised value is a default only if the original is. -/
def RecDf (Γ : Prog) (S : TId → FOpts → Prop) (nm : TId → Val → FOpts → Option Val) : Prop :=
  ∀ id v fo w, S id fo → HasTy Γ (.base id) v → nm id v fo = some w → dflt (Γ.shape id) w = true →
    dflt (Γ.shape id) v = true

/-- One level down, zero values of steady types are written like any blank value, and so is 1970. -/
structure RecSt (Γ : Prog) (S : TId → FOpts → Prop) (rec rec' : TId → Val → FOpts → Bool → Res Bytes) : Prop where
  zero : ∀ id fo v, Steady Γ id → S id fo → HasTy Γ (.base id) v → rec id v fo false = .ok [0] →
    rec' id (Γ.zero id) fo false = .ok [0]
  time : ∀ id fo, Γ.shape id = .time → Γ.marsh id = none → rec' id (.time 0 0) fo false = .ok [0]

theorem encPacked_re {rec' : TId → Val → FOpts → Bool → Res Bytes} (hZ : ZeroOk Γ)
    (hz : ∀ id, HasTy Γ (.base id) (Γ.zero id)) (h : RecRe Γ S nm rec rec')
    {e : Ty} {fo : FOpts} {vs ws : List Val} {buf : Bytes} (hlen : lenKind Γ e.deref = false)
    (hS : S e.deref fo) (ht : ∀ v ∈ vs, HasTy Γ e v)
    (he : encPacked Γ rec e fo vs = .ok buf) (hl : buf.length < 2 ^ 63)
    (hw : normElems Γ bl nm e fo vs = some ws) : encPacked Γ rec' e fo ws = .ok buf := by
  induction vs generalizing ws buf with
  | nil => simp [normElems] at hw; subst hw; simpa [encPacked] using he
  | cons v vs ih =>
    unfold normElems at hw
    rw [hlen, if_neg (by simp)] at hw
    simp only [Option.bind_eq_some_iff, Option.map_eq_some_iff] at hw
    obtain ⟨w, hw1, ws', hw2, rfl⟩ := hw
    unfold encPacked at he ⊢
    obtain ⟨b1, h1, he⟩ := Res.bind_eq_ok he
    obtain ⟨b2, h2, he⟩ := Res.bind_eq_ok he
    simp at he
    have hl1 : b1.length < 2 ^ 63 := by rw [← he] at hl; simp at hl; omega
    have hl2 : b2.length < 2 ^ 63 := by rw [← he] at hl; simp at hl; omega
    have hr2 := ih (fun v hv => ht v (by simp [hv])) h2 hl2 hw2
    suffices rec' e.deref (Γ.derefZero e w) fo false = .ok b1 by
      rw [this, Res.bind_ok, hr2, Res.bind_ok, he]
    have hd : (pointee e v).getD (Γ.zero e.deref) = Γ.derefZero e v := by
      rw [pointee_eq]; unfold Prog.derefZero; cases derefVal e v <;> rfl
    unfold normPackedElem at hw1
    rw [hd] at hw1
    simp only [Option.map_eq_some_iff] at hw1
    obtain ⟨w1, hw1, hw⟩ := hw1
    have := h _ _ _ _ _ _ hS (hasTy_derefZero hz (ht v (by simp))) (by simp [notIface_of_notLen hlen]) h1 hl1 hw1
    split at hw
    · rename_i hc
      simp only [Bool.and_eq_true] at hc
      have hzw : Γ.zero e.deref = w1 := by
        have hdf := hc.2
        unfold lenKind at hlen
        unfold dflt at hdf
        split at hdf <;> simp_all
        rename_i hs
        rw [hZ.int hs]
      subst hw
      have : Γ.derefZero e .nil = Γ.zero e.deref := by
        cases e with
        | base => simp [Ty.isPtr] at hc
        | ptr t => rfl
      rw [this, hzw]; assumption
    · subst hw
      unfold Prog.derefZero
      rw [derefVal_refs]
      exact this

/-- The value of an omitted element is written like the original: as a zero byte. -/
theorem encElem_absent {rec' : TId → Val → FOpts → Bool → Res Bytes} (hU : Universe Γ c S) (hZ : ZeroOk Γ)
    (hst : RecSt Γ S rec rec') {e : Ty} {fo : FOpts} {v : Val} (hv : ByValue Γ e)
    (hmt : Γ.shape e.deref = .time → Γ.marsh e.deref = none)
    (hS : S e.deref { fo with fnum := 1 }) (ht : HasTy Γ e v) (hk : keepEmpty Γ e fo = false)
    (he : encElem Γ rec e fo v = .ok [0]) : encElem Γ rec' e fo (absent Γ e) = .ok [0] := by
  have hk' : ((e.isPtr && Γ.isStruct e.deref) && fo.emptyElements) = false := by
    unfold keepEmpty at hk
    rw [← hk]
    cases fo.emptyElements <;> simp
  have hu0 : encodeUint8 0 = .ok [0] := by decide +kernel
  unfold encElem at he ⊢
  rw [hk'] at he ⊢
  simp only [Bool.false_eq_true, if_false, hu0] at he ⊢
  by_cases htm : Γ.shape e.deref = .time
  · have ha : absent Γ e = refs e (.time 0 0) := by unfold absent; rw [htm]
    rw [ha, derefVal_refs]
    simp only [htm, isDefaultBase]
    exact hst.time _ _ htm (hmt htm)
  · have ha : absent Γ e = Γ.zeroTy e := by
      unfold absent; split
      · contradiction
      · cases e <;> rfl
    rw [ha]
    cases e with
    | ptr t => rfl
    | base i =>
      simp only [derefVal] at he ⊢
      rw [show (Ty.base i).deref = i from rfl] at *
      split
      · rfl
      · rename_i hd
        by_cases hdv : isDefaultBase (Γ.shape i) v = true
        · exfalso
          rw [← dflt_eq] at hdv hd
          exact hd (dflt_zero hZ (fun e => hU.noMap hS) hdv)
        · rw [if_neg hdv] at he
          rcases hv i rfl with h1 | h1
          · exact absurd h1.1 htm
          · exact hst.zero _ _ _ h1 hS ht he

theorem encElem_re {rec' : TId → Val → FOpts → Bool → Res Bytes} (hU : Universe Γ c S) (hZ : ZeroOk Γ)
    (h : RecRe Γ S nm rec rec') (hst : RecSt Γ S rec rec') (hdf : RecDf Γ S nm) (hlead : RecLead Γ S bl rec)
    {e : Ty} {fo : FOpts} {v w : Val} {b : Bytes} (hv : ByValue Γ e)
    (hmt : Γ.shape e.deref = .time → Γ.marsh e.deref = none)
    (hS : S e.deref { fo with fnum := 1 }) (ht : HasTy Γ e v)
    (he : encElem Γ rec e fo v = .ok b) (hl : b.length < 2 ^ 63)
    (hw : normElem Γ bl nm e fo v = some w) : encElem Γ rec' e fo w = .ok b := by
  have hk' : ((e.isPtr && Γ.isStruct e.deref) && fo.emptyElements) = keepEmpty Γ e fo := by
    unfold keepEmpty
    cases fo.emptyElements <;> simp
  have hu0 : encodeUint8 0 = .ok [0] := by decide +kernel
  have he0 := he
  unfold encElem at he
  rw [hk', hu0] at he
  unfold normElem at hw
  rw [pointee_eq] at hw
  cases hd : derefVal e v with
  | none =>
    rw [hd] at he hw
    simp only at he hw
    cases hk : keepEmpty Γ e fo with
    | true => rw [hk] at he; simp at he
    | false =>
      rw [hk] at he
      simp at he hw
      subst he hw
      exact encElem_absent hU hZ hst hv hmt hS ht hk he0
  | some dv =>
    rw [hd] at he hw
    simp only at he hw
    have htd := hasTy_derefVal ht hd
    split at hw
    · rename_i hc
      simp at hw
      subst hw
      cases hk : keepEmpty Γ e fo with
      | true =>
        rw [hk] at he hc
        simp only [Bool.not_true, Bool.and_false, Bool.or_false, dflt_eq] at hc
        rw [hc] at he
        simp at he
      | false =>
        suffices b = [0] by subst this; exact encElem_absent hU hZ hst hv hmt hS ht hk he0
        rw [hk] at he hc
        simp only [Bool.not_false, Bool.and_true, dflt_eq, Bool.or_eq_true] at hc
        split at he
        · simp at he; exact he.symm
        · rename_i hnd
          rcases hc with hc | hc
          · contradiction
          · exact (hlead _ _ _ _ hS htd he hl).blank.mpr hc
    · rename_i hc
      simp only [Option.map_eq_some_iff] at hw
      obtain ⟨w1, hw1, hw⟩ := hw
      subst hw
      have hnd : dflt (Γ.shape e.deref) dv = false := by
        rw [Bool.eq_false_iff]; intro hh; apply hc; simp [hh]
      rw [← dflt_eq, hnd] at he
      simp only [Bool.false_eq_true, if_false] at he
      unfold encElem
      rw [derefVal_refs]
      simp only
      have hnw : dflt (Γ.shape e.deref) w1 = false := by
        rw [Bool.eq_false_iff]; intro hh
        have := hdf _ _ _ _ hS htd hw1 hh
        simp [hnd] at this
      rw [← dflt_eq, hnw, if_neg (by simp)]
      exact h _ _ _ _ _ _ hS htd (nonNil_of_notDflt hnd) he hl hw1

theorem encUnpacked_re {rec' : TId → Val → FOpts → Bool → Res Bytes} (hU : Universe Γ c S) (hZ : ZeroOk Γ)
    (h : RecRe Γ S nm rec rec') (hst : RecSt Γ S rec rec') (hdf : RecDf Γ S nm) (hlead : RecLead Γ S bl rec)
    {e : Ty} {fo : FOpts} {vs ws : List Val} {buf : Bytes} (hv : ByValue Γ e)
    (hmt : Γ.shape e.deref = .time → Γ.marsh e.deref = none)
    (hlen : lenKind Γ e.deref = true) (hS : S e.deref { fo with fnum := 1 }) (ht : ∀ v ∈ vs, HasTy Γ e v)
    (he : encUnpacked Γ rec e fo vs = .ok buf) (hl : buf.length < 2 ^ 63)
    (hw : normElems Γ bl nm e fo vs = some ws) : encUnpacked Γ rec' e fo ws = .ok buf := by
  induction vs generalizing ws buf with
  | nil => simp [normElems] at hw; subst hw; simpa [encUnpacked] using he
  | cons v vs ih =>
    unfold normElems at hw
    rw [if_pos hlen] at hw
    simp only [Option.bind_eq_some_iff, Option.map_eq_some_iff] at hw
    obtain ⟨w, hw1, ws', hw2, rfl⟩ := hw
    unfold encUnpacked at he ⊢
    obtain ⟨k, hk, he⟩ := Res.bind_eq_ok he
    obtain ⟨b1, h1, he⟩ := Res.bind_eq_ok he
    obtain ⟨b2, h2, he⟩ := Res.bind_eq_ok he
    simp at he
    have hl1 : b1.length < 2 ^ 63 := by rw [← he] at hl; simp at hl; omega
    have hl2 : b2.length < 2 ^ 63 := by rw [← he] at hl; simp at hl; omega
    rw [hk, Res.bind_ok, encElem_re hU hZ h hst hdf hlead hv hmt hS (ht v (by simp)) h1 hl1 hw1, Res.bind_ok,
      ih (fun v hv => ht v (by simp [hv])) h2 hl2 hw2, Res.bind_ok]
    simp [he]

theorem encList_re {rec' : TId → Val → FOpts → Bool → Res Bytes} (hU : Universe Γ c S) (hZ : ZeroOk Γ)
    (hz : ∀ id, HasTy Γ (.base id) (Γ.zero id))
    (h : RecRe Γ S nm rec rec') (hst : RecSt Γ S rec rec') (hdf : RecDf Γ S nm) (hlead : RecLead Γ S bl rec)
    {id : TId} {e : Ty} {fo : FOpts} {v w : Val} {b : Bytes} {bare : Bool} (hsh : (Γ.shape id).elem? = some e)
    (hb : Γ.isByteKind e = false) (hv : ByValue Γ e)
    (hmt : Γ.shape e.deref = .time → Γ.marsh e.deref = none)
    (hS : ElemOk Γ S e fo) (ht : HasTy Γ (.base id) v)
    (he : encList Γ c rec e v fo bare = .ok b) (hl : b.length < 2 ^ 63)
    (hw : normList Γ bl nm (Γ.shape id) fo v = some w) : encList Γ c rec' e w fo bare = .ok b := by
  unfold encList at he ⊢
  obtain ⟨_, hi, he⟩ := Res.bind_eq_ok he
  rw [hi, Res.bind_ok]
  have key : ∀ vs ws buf, (∀ v ∈ vs, HasTy Γ e v) → normElems Γ bl nm e fo vs = some ws → buf.length < 2 ^ 63 →
      (if Γ.typ3 e.deref fo ≠ typ3ByteLength then encPacked Γ rec e fo vs else encUnpacked Γ rec e fo vs) = .ok buf →
      (if Γ.typ3 e.deref fo ≠ typ3ByteLength then encPacked Γ rec' e fo ws else encUnpacked Γ rec' e fo ws) = .ok buf := by
    intro vs ws buf hts hn hlb hbuf
    have hS' := hS.2
    split at hbuf
    · rename_i h3
      have hlen : lenKind Γ e.deref = false := by
        rw [lenKind_eq, Bool.eq_false_iff]; intro hh; exact h3 (isLen_iff.mp hh)
      rw [hlen, if_neg (by simp)] at hS'
      rw [if_pos h3]
      exact encPacked_re hZ hz h hlen hS' hts hbuf hlb hn
    · rename_i h3
      have hlen : lenKind Γ e.deref = true := by
        rw [lenKind_eq]; exact isLen_iff.mpr (Classical.not_not.mp h3)
      rw [if_pos hlen] at hS'
      rw [if_neg h3]
      exact encUnpacked_re hU hZ h hst hdf hlead hv hmt hlen hS' hts hbuf hlb hn
  unfold normList at hw
  cases ht with
  | sliceNil h1 =>
    rw [h1] at hw
    simp at hw
    subst hw
    exact he
  | slice h1 h2 h3 =>
    rw [h1] at hsh hw
    simp [Shape.elem?] at hsh
    subst hsh
    simp only [Option.map_eq_some_iff] at he hw
    obtain ⟨buf, hbuf, he⟩ := Res.bind_eq_ok he
    obtain ⟨ws, hws, hw⟩ := hw
    have hk := key _ ws buf h3 hws (framed_ok he hl).2 hbuf
    split at hw
    · rename_i hn
      subst hw
      simp at hn
      subst hn
      simp [encPacked, encUnpacked] at hk
      subst hk
      exact he
    · subst hw
      simp only
      rw [hk]
      exact he
  | array h1 h2 h3 h4 =>
    rw [h1] at hsh hw
    simp [Shape.elem?] at hsh
    subst hsh
    simp only [Option.map_eq_some_iff] at he hw
    obtain ⟨buf, hbuf, he⟩ := Res.bind_eq_ok he
    obtain ⟨ws, hws, hw⟩ := hw
    have hk := key _ ws buf h4 hws (framed_ok he hl).2 hbuf
    subst hw
    simp only
    rw [hk]
    exact he
  | sliceBytes h1 h2 => rw [h1] at hsh; simp [Shape.elem?] at hsh; simp_all
  | arrayBytes h1 h2 => rw [h1] at hsh; simp [Shape.elem?] at hsh; simp_all
  | bool h1 | int h1 | f32 h1 | f64 h1 | str h1 | time h1 | mapNil h1 | map h1 | ifaceNil h1 | iface h1 | struct h1 =>
    rw [h1] at hsh; simp [Shape.elem?] at hsh

theorem normList_dflt {s : Shape} {fo : FOpts} {v w : Val} (hw : normList Γ bl nm s fo v = some w)
    (hd : dflt s w = true) : dflt s v = true := by
  unfold normList at hw
  split at hw
  · rename_i e vs
    simp only [Option.map_eq_some_iff] at hw
    obtain ⟨ws, hws, hw⟩ := hw
    cases vs with
    | nil => rfl
    | cons v vs =>
      unfold normElems at hws
      simp only [Option.bind_eq_some_iff, Option.map_eq_some_iff] at hws
      obtain ⟨w', _, ws', _, rfl⟩ := hws
      simp at hw
      subst hw
      simp [dflt] at hd
  · rfl
  · simp only [Option.map_eq_some_iff] at hw
    obtain ⟨ws, hws, hw⟩ := hw
    subst hw
    simp [dflt] at hd
  · cases hw

theorem encField_re {rec' : TId → Val → FOpts → Bool → Res Bytes} (hU : Universe Γ c S) (hZ : ZeroOk Γ)
    (hz : ∀ id, HasTy Γ (.base id) (Γ.zero id)) (hSt : Stable Γ S)
    (h : RecRe Γ S nm rec rec') (hst : RecSt Γ S rec rec') (hdf : RecDf Γ S nm) (hlead : RecLead Γ S bl rec)
    {f : Field} {num : Nat} {v w : Val} {b : Bytes} (hf : FieldOk Γ S f num) (ht : HasTy Γ f.ty v)
    (hp : Γ.shape f.ty.deref = .time → f.ty.isPtr = false) (hv : ByValue Γ f.ty)
    (hve : repeated Γ f = true → ∀ e, (Γ.shape f.ty.deref).elem? = some e → ByValue Γ e)
    (he : encField Γ c rec f num v = .ok b) (hl : b.length < 2 ^ 63)
    (hw : normField Γ bl nm f num v = some w) : encField Γ c rec' f num w = .ok b := by
  have hnil := encField_nil hlead hz hf ht he hl
  unfold normField at hw
  split at hw
  · rename_i ho
    have hb := hnil.mpr ho
    subst hb
    simp at hw
    subst hw
    by_cases htm : Γ.shape f.ty.deref = .time
    · have hnp := hp htm
      cases hty : f.ty with
      | ptr t => rw [hty] at hnp; simp [Ty.isPtr] at hnp
      | base i =>
        have hr : repeated Γ f = false := by
          unfold repeated; rw [hty] at htm ⊢; simp only [Ty.deref] at htm ⊢; rw [htm]
        have hS := (hf.single hr).1
        unfold omits at ho
        rw [hr] at ho
        rw [hty] at ho htm hS
        simp only [pointee] at ho
        rw [show (Ty.base i).deref = i from rfl] at *
        have ha : absent Γ (.base i) = .time 0 0 := by
          unfold absent; rw [show (Ty.base i).deref = i from rfl, htm]; rfl
        rw [ha]
        have hwe : f.opts.writeEmpty = false := by
          rw [htm] at ho
          simp [dflt] at ho
          exact ho.1.1
        rw [repeated_eq] at hr
        unfold encField at he ⊢
        rw [hty] at he ⊢
        rw [show (Ty.base i).deref = i from rfl] at *
        obtain ⟨_, hi, he⟩ := Res.bind_eq_ok he
        rw [hi, Res.bind_ok]
        simp only [derefVal] at he ⊢
        rw [htm] at he ⊢
        rw [hwe, hr] at he ⊢
        simp only [isDefaultBase, Bool.false_and, Bool.false_eq_true, if_false] at he ⊢
        unfold writeField at he ⊢
        obtain ⟨k, hk, he⟩ := Res.bind_eq_ok he
        rw [hk, Res.bind_ok, hst.time i _ htm (hSt.time hS htm), Res.bind_ok]
        simp [Ty.isPtr]
    · have ha : absent Γ f.ty = Γ.zeroTy f.ty := by
        unfold absent; split
        · contradiction
        · cases f.ty <;> rfl
      rw [ha]
      refine steady_field hZ ?_ hU.noMap hf ht he
      intro i hi fo v hS htv hr
      rcases hv i hi with h1 | h1
      · rw [hi] at htm; exact absurd h1.1 htm
      · exact hst.zero _ _ _ h1 hS htv hr
  · rename_i ho
    have he0 := he
    unfold encField at he ⊢
    obtain ⟨_, hi, he⟩ := Res.bind_eq_ok he
    rw [hi, Res.bind_ok]
    simp only [Option.bind_eq_some_iff] at hw
    obtain ⟨dv, hd, hw⟩ := hw
    unfold omits at ho
    rw [hd] at ho
    rw [pointee_eq] at hd
    rw [hd] at he
    simp only [dflt_eq] at ho he
    have htd := hasTy_derefVal ht hd
    have hnd : (isDefaultBase (Γ.shape f.ty.deref) dv && !f.opts.writeEmpty) = false := by
      rw [Bool.eq_false_iff]; intro hh; apply ho; rw [hh]; rfl
    rw [hnd, if_neg (by simp)] at he
    cases hu : Γ.unpackedList f with
    | true =>
      rw [hu, if_pos rfl] at he
      rw [repeated_eq, hu, if_pos rfl] at hw
      have hrep := hf.rep (by rw [repeated_eq]; exact hu)
      have hve := hve (by rw [repeated_eq]; exact hu)
      obtain ⟨id, e, hid, hel, hb, hlk⟩ := unpackedList_inv hu
      rw [hid] at he hw htd hrep hve hnd ⊢
      rw [show (Ty.base id).deref = id from rfl] at *
      rw [hel] at he
      simp only [derefVal] at he ⊢
      have hnw : (isDefaultBase (Γ.shape id) w && !f.opts.writeEmpty) = false := by
        rw [Bool.eq_false_iff]
        intro hh
        simp only [Bool.and_eq_true] at hh
        have := normList_dflt hw (by rw [dflt_eq]; exact hh.1)
        rw [dflt_eq] at this
        simp [this, hh.2] at hnd
      rw [hnw, if_neg (by simp), if_pos trivial, hel]
      simp only
      have hE := hrep.2.2 e hel
      refine encList_re hU hZ hz h hst hdf hlead hel hb (hve e hel) ?_ hE htd he hl hw
      intro htm
      exact hSt.time hE.2 htm
    | false =>
      rw [hu, if_neg (by simp)] at he
      rw [repeated_eq, hu, if_neg (by simp)] at hw
      simp only [Option.map_eq_some_iff] at hw
      obtain ⟨w1, hw1, hw⟩ := hw
      subst hw
      rw [derefVal_refs]
      simp only
      have hs := hf.single (by rw [repeated_eq]; exact hu)
      have hnw : (isDefaultBase (Γ.shape f.ty.deref) w1 && !f.opts.writeEmpty) = false := by
        rw [Bool.eq_false_iff]
        intro hh
        simp only [Bool.and_eq_true] at hh
        have := hdf _ _ _ _ hs.1 htd hw1 (by rw [dflt_eq]; exact hh.1)
        rw [dflt_eq] at this
        simp [this, hh.2] at hnd
      rw [hnw, if_neg (by simp), if_neg (by simp)]
      have hni : Γ.isIface f.ty.deref = true → dv ≠ .nil := by
        intro hi hv
        have := hs.2 hi
        rw [this] at hnd
        unfold Prog.isIface at hi
        split at hi
        · rename_i hsh; rw [hsh, hv] at hnd; simp [isDefaultBase] at hnd
        · simp at hi
      unfold writeField at he ⊢
      obtain ⟨k, hk, he⟩ := Res.bind_eq_ok he
      obtain ⟨b', hb', he⟩ := Res.bind_eq_ok he
      have hl' : b'.length < 2 ^ 63 := by
        split at he
        · rename_i hc
          simp only [Bool.and_eq_true, beq_iff_eq] at hc
          rw [hc.2]; decide
        · simp at he; rw [← he] at hl; simp at hl; omega
      rw [hk, Res.bind_ok, h _ _ _ _ _ _ hs.1 htd hni hb' hl' hw1, Res.bind_ok]
      exact he

theorem encFields_re {rec' : TId → Val → FOpts → Bool → Res Bytes} (hU : Universe Γ c S) (hZ : ZeroOk Γ)
    (hz : ∀ id, HasTy Γ (.base id) (Γ.zero id)) (hSt : Stable Γ S)
    (h : RecRe Γ S nm rec rec') (hst : RecSt Γ S rec rec') (hdf : RecDf Γ S nm) (hlead : RecLead Γ S bl rec)
    {num : Nat} {fs : List Field} {vs ws : List Val} {b : Bytes} (hf : FieldsOk Γ S num fs) (ht : FieldsTy Γ fs vs)
    (hv : ∀ f ∈ fs, f.visible = true → (Γ.shape f.ty.deref = .time → f.ty.isPtr = false) ∧ ByValue Γ f.ty ∧
      (repeated Γ f = true → ∀ e, (Γ.shape f.ty.deref).elem? = some e → ByValue Γ e))
    (he : encFields Γ c rec num fs vs = .ok b) (hl : b.length < 2 ^ 63)
    (hw : normFields Γ bl nm num fs vs = some ws) : encFields Γ c rec' num fs ws = .ok b := by
  induction fs generalizing num vs ws b with
  | nil =>
    cases vs with
    | nil => simp [normFields] at hw; subst hw; simpa [encFields] using he
    | cons => simp [encFields] at he
  | cons f fs ih =>
    cases vs with
    | nil => simp [encFields] at he
    | cons v vs =>
      have ht' := fieldsTy_cons.mp ht
      unfold encFields at he
      unfold FieldsOk at hf
      unfold normFields at hw
      cases hvis : f.visible with
      | false =>
        rw [hvis] at hf he hw
        simp only [Bool.not_false, if_true, Bool.false_eq_true, if_false, Option.map_eq_some_iff] at hf he hw
        obtain ⟨ws', hw2, rfl⟩ := hw
        unfold encFields
        rw [hvis]
        simp only [Bool.not_false, if_true]
        exact ih hf ht'.2 (fun f hf => hv f (by simp [hf])) he hl hw2
      | true =>
        rw [hvis] at hf he hw
        simp only [Bool.not_true, if_true, Bool.false_eq_true, if_false, Option.map_eq_some_iff,
          Option.bind_eq_some_iff] at hf he hw
        obtain ⟨w, hw1, ws', hw2, rfl⟩ := hw
        unfold encFields
        rw [hvis]
        simp only [Bool.not_true, Bool.false_eq_true, if_false]
        obtain ⟨b1, h1, he⟩ := Res.bind_eq_ok he
        obtain ⟨b2, h2, he⟩ := Res.bind_eq_ok he
        simp at he
        have hl1 : b1.length < 2 ^ 63 := by rw [← he] at hl; simp at hl; omega
        have hl2 : b2.length < 2 ^ 63 := by rw [← he] at hl; simp at hl; omega
        obtain ⟨p1, p2, p3⟩ := hv f (by simp) hvis
        rw [encField_re hU hZ hz hSt h hst hdf hlead hf.1 ht'.1 p1 p2 p3 h1 hl1 hw1, Res.bind_ok,
          ih hf.2 ht'.2 (fun f hf => hv f (by simp [hf])) h2 hl2 hw2, Res.bind_ok, he]

end

theorem norm_dflt (hU : Universe Γ c S) (hT : Γ.Typed) (hSt : Stable Γ S) (f : Nat) : RecDf Γ S (norm Γ c f) := by
  intro id v fo w hS ht hw hd
  have hwt := norm_typed hU hT f id v fo w hS ht hw
  cases f with
  | zero => simp [norm] at hw
  | succ f =>
    unfold norm at hw
    cases hm : Γ.marsh id with
    | some rm =>
      obtain ⟨rid, m⟩ := rm
      obtain ⟨⟨um, hum⟩, _⟩ := hU.marsh hS hm
      have := (hSt.lawful hS hm hum).2 w hwt
      simp [this] at hd
    | none =>
      rw [hm] at hw
      simp only at hw
      unfold normShape at hw
      split at hw
      · rename_i e b hs
        simp only [Option.some.injEq] at hw
        rw [hs]
        by_cases hb : (b == []) = true
        · simpa [dflt] using hb
        · rw [if_neg hb] at hw
          rw [← hw, hs] at hd
          exact hd
      · rename_i hs; cases hw; exact hd
      · rename_i e hs hnb
        rw [hs] at hd ⊢; exact normList_dflt hw hd
      · rename_i n e hs hnb
        rw [hs] at hd ⊢; exact normList_dflt hw hd
      · rename_i hs
        rw [hs] at hd; simp [dflt] at hd
      · rename_i hs
        split at hw
        · simp only [Option.map_eq_some_iff] at hw
          obtain ⟨w1, _, hw⟩ := hw
          rw [← hw, hs] at hd
          split at hd <;> simp [dflt] at hd
        · cases hw
      all_goals first
        | cases hw; exact hd
        | cases hw

theorem enc_time_epoch {f : Nat} {id : TId} {fo : FOpts} (hs : Γ.shape id = .time) (hm : Γ.marsh id = none) :
    enc Γ c (f + 1) id (.time 0 0) fo false = .ok [0] := by
  unfold enc encBody encShape
  rw [hm, hs]
  simp only
  decide +kernel

/-- Re-encoding: encodeReflectBinary of a normalised value writes the same bytes. -/
theorem enc_norm (hU : Universe Γ c S) (hZ : ZeroOk Γ) (hT : Γ.Typed) (hSt : Stable Γ S) (f : Nat) :
    RecRe Γ S (norm Γ c f) (enc Γ c f) (enc Γ c (f + 1)) := by
  induction f with
  | zero => intro id v fo bare b w _ _ _ he; simp [enc] at he
  | succ f ih =>
    intro id v fo bare b w hS ht hnn he hl hw
    have hlead := enc_lead hU hT f
    have hdf := norm_dflt hU hT hSt f
    have hst : RecSt Γ S (enc Γ c f) (enc Γ c (f + 1)) := by
      constructor
      · intro id fo v hs hS ht h
        have := steady_enc hU hT hZ hs f fo v hS ht h
        rcases enc_le_succ Γ c f id (Γ.zero id) fo false with h' | h'
        · rw [h'] at this; cases this
        · rw [h']; exact this
      · intro id fo hs hm; exact enc_time_epoch hs hm
    unfold enc encBody at he ⊢
    unfold norm at hw
    cases hm : Γ.marsh id with
    | some rm =>
      obtain ⟨rid, m⟩ := rm
      rw [hm] at he hw
      simp only at he hw ⊢
      obtain ⟨r, hr, he⟩ := Res.bind_eq_ok he
      obtain ⟨_, hi, he⟩ := Res.bind_eq_ok he
      obtain ⟨⟨um, hum⟩, hSr, _, hri, _⟩ := hU.marsh hS hm
      rw [hr, hum] at hw
      simp only [Option.bind_eq_some_iff] at hw
      obtain ⟨r', hr', hw⟩ := hw
      split at hw
      · rename_i w' hw'
        cases hw
        have htr := hT.marsh hm ht hr
        have := (hSt.lawful hS hm hum).1 r' w (norm_typed hU hT f _ _ _ _ hSr htr hr') hw'
        rw [this, Res.bind_ok, hi, Res.bind_ok]
        exact ih _ _ _ _ _ _ hSr htr (by simp [hri]) he hl hr'
      · cases hw
    | none =>
      rw [hm] at he hw
      simp only at he hw ⊢
      unfold encShape at he ⊢
      unfold normShape at hw
      cases ht with
      | @sliceBytes _ _ b0 h1 h2 =>
        rw [h1] at he hw ⊢
        simp only [h2, if_true] at he hw ⊢
        simp only [Option.some.injEq] at hw
        by_cases hb : (b0 == []) = true
        · rw [if_pos hb] at hw
          subst hw
          simp at hb
          subst hb
          exact he
        · rw [if_neg hb] at hw
          subst hw
          exact he
      | arrayBytes h1 h2 =>
        rw [h1] at he hw ⊢; cases hw
        simp only [h2, if_true] at he ⊢
        exact he
      | sliceNil h1 =>
        rename_i e
        rw [h1] at he hw ⊢
        cases hw
        simp only at he ⊢
        split at he
        · rename_i hb; rw [if_pos hb]; exact he
        · rename_i hb
          rw [if_neg hb]
          have hlo := elemOk_of_list (hU.slice hS h1 hm) hb
          rw [hlo.1] at he ⊢
          simp only [Bool.false_eq_true, if_false] at he ⊢
          unfold encList at he ⊢
          obtain ⟨_, hi, he⟩ := Res.bind_eq_ok he
          rw [hi]
          exact he
      | slice h1 h2 h3 =>
        rename_i e vs
        have hlo := elemOk_of_list (hU.slice hS h1 hm) (by simp [h2])
        have hw' : normList Γ (blank Γ f) (norm Γ c f) (Γ.shape id) fo (.list vs) = some w := by
          rw [h1] at hw ⊢; exact hw
        rw [h1] at he ⊢
        simp only [h2, hlo.1, Bool.false_eq_true, if_false] at he ⊢
        exact encList_re hU hZ hT.zero ih hst hdf hlead (by rw [h1]; rfl) h2
          (hSt.elem hS hm (by rw [h1]; rfl) h2) (fun htm => hSt.time hlo.2.2 htm) hlo.2 (.slice h1 h2 h3) he hl hw'
      | array h1 h2 h3 h4 =>
        rename_i n e vs
        have hlo := elemOk_of_list (hU.array hS h1 hm) (by simp [h2])
        have hw' : normList Γ (blank Γ f) (norm Γ c f) (Γ.shape id) fo (.list vs) = some w := by
          rw [h1] at hw ⊢; exact hw
        rw [h1] at he ⊢
        simp only [h2, hlo.1, Bool.false_eq_true, if_false] at he ⊢
        exact encList_re hU hZ hT.zero ih hst hdf hlead (by rw [h1]; rfl) h2
          (hSt.elem hS hm (by rw [h1]; rfl) h2) (fun htm => hSt.time hlo.2.2 htm) hlo.2 (.array h1 h2 h3 h4) he hl hw'
      | struct h1 h2 h3 =>
        rename_i fs vs
        rw [h1] at he hw ⊢
        simp only [Option.map_eq_some_iff] at he hw ⊢
        obtain ⟨ws, hws, hw⟩ := hw
        subst hw
        obtain ⟨buf, hbuf, he⟩ := Res.bind_eq_ok he
        simp only
        rw [encFields_re hU hZ hT.zero hSt ih hst hdf hlead (hU.struct hS h1 hm) ⟨h2, h3⟩
          (fun f hf hv => hSt.field hS h1 hm hf hv) hbuf (framed_ok he hl).2 hws]
        exact he
      | ifaceNil h1 => exact absurd rfl (hnn (by unfold Prog.isIface; rw [h1]))
      | iface h1 h2 h3 =>
        rename_i t v
        rw [h1] at he hw ⊢
        simp only at he hw ⊢
        unfold encIface at he
        simp only at he
        rw [pointee_eq] at hw
        cases hd : derefVal t v with
        | none => rw [hd] at he; simp at he
        | some dv =>
          rw [hd] at he hw
          simp only at he
          split at he
          · simp at he
          · obtain ⟨_, hi, he⟩ := Res.bind_eq_ok he
            cases hci : c.conc? t.deref with
            | none => rw [hci] at he; simp at he
            | some ci =>
              rw [hci] at he hw
              cases hii : c.iface? id with
              | none => rw [hii] at he; simp at he
              | some ii =>
                rw [hii] at he
                simp only [Option.map_eq_some_iff] at he hw
                obtain ⟨w1, hw1, hw⟩ := hw
                obtain ⟨b0, hb0, he⟩ := Res.bind_eq_ok he
                have hmem := (hU.iface hS h1 hii).1 t ci h2 hci
                have hok := (hU.iface hS h1 hii).2 ci hmem
                have hid := conc_mem hci
                have h5 := hok.type
                have h6 := hok.notIface
                have hci' := hci
                rw [← hid] at hb0 hw1 hci' hi
                have htd := hasTy_derefVal h3 hd
                rw [← hid] at htd
                have hre := ih _ _ _ _ _ _ h5 htd (by simp [h6]) hb0
                  (by have := (framed_ok he hl).2; simp at this; omega) hw1
                unfold encIface
                cases hp : ci.ptrPref with
                | true =>
                  rw [hp] at hw
                  simp only [if_true] at hw
                  subst hw
                  simp only [derefVal, Ty.deref, h6, Bool.and_false, Bool.false_eq_true, if_false, hi, Res.bind_ok,
                    hci', hii, hre]
                  exact he
                | false =>
                  rw [hp] at hw
                  simp only [Bool.false_eq_true, if_false] at hw
                  subst hw
                  simp only [derefVal, Ty.deref, h6, Bool.and_false, Bool.false_eq_true, if_false, hi, Res.bind_ok,
                    hci', hii, hre]
                  exact he
      | mapNil h1 => exact absurd h1 (hU.noMap hS)
      | map h1 => exact absurd h1 (hU.noMap hS)
      | bool h1 => rw [h1] at he hw ⊢; cases hw; exact he
      | int h1 => rw [h1] at he hw ⊢; cases hw; exact he
      | f32 h1 => rw [h1] at he hw ⊢; cases hw; exact he
      | f64 h1 => rw [h1] at he hw ⊢; cases hw; exact he
      | str h1 => rw [h1] at he hw ⊢; cases hw; exact he
      | time h1 => rw [h1] at he hw ⊢; cases hw; exact he

end Amino
