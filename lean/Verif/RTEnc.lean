import Verif.SpecUniv
import Verif.BinEncode
import Verif.TypedLemmas
import Verif.PrimLemmas2
import Verif.DecFuel

/-!
# Facts about encodings used by the round trip: non-empty, when they are a lone zero byte
-/

namespace Amino
open Spec

/-! ## The specification's notions and the model's agree -/

theorem dflt_eq (s : Shape) (v : Val) : dflt s v = isDefaultBase s v := by
  have hl : ∀ {α : Type} (l : List α), (l.length == 0) = l.isEmpty := by intro α l; cases l <;> rfl
  have hb : ∀ l : Bytes, (l == []) = l.isEmpty := by intro l; cases l <;> rfl
  cases s <;> cases v <;> simp only [dflt, isDefaultBase, hl, hb]

theorem pointee_eq (t : Ty) (v : Val) : pointee t v = derefVal t v := by
  induction t generalizing v with
  | base => rfl
  | ptr t ih => cases v <;> simp [pointee, derefVal, ih]

theorem refs_eq (t : Ty) (v : Val) : refs t v = wrapTy t v := by
  induction t generalizing v with
  | base => rfl
  | ptr t ih => simp [refs, wrapTy, ih]

theorem lenKind_eq (Γ : Prog) (id : TId) : lenKind Γ id = Γ.isLen id := rfl

theorem absent_eq (Γ : Prog) (t : Ty) : absent Γ t = Γ.defaultValue t := by
  unfold absent Prog.defaultValue Prog.zeroTy
  split <;> rename_i h
  · rw [h, refs_eq]
  · cases h' : Γ.shape t.deref <;> first | rfl | exact absurd h' h

theorem isByteKind_len {Γ : Prog} {e : Ty} (h : Γ.isByteKind e = true) : Γ.isLen e.deref = false := by
  unfold Prog.isByteKind at h
  cases e with
  | ptr => simp at h
  | base id =>
    simp only at h
    split at h
    · rename_i hs; simp [Prog.isLen, Ty.deref, hs]
    · simp at h

theorem repeated_eq (Γ : Prog) (f : Field) : repeated Γ f = Γ.unpackedList f := by
  have aux : ∀ e : Ty, lenKind Γ e.deref = (!Γ.isByteKind e && Γ.typ3 e.deref f.opts == typ3ByteLength) := by
    intro e
    rw [lenKind_eq]
    have h := isLen_iff (Γ := Γ) (id := e.deref) (fo := f.opts)
    by_cases hb : Γ.isByteKind e = true
    · simp [isByteKind_len hb, hb]
    · simp only [Bool.not_eq_true] at hb
      rw [hb]
      simp only [Bool.not_false, Bool.true_and]
      rw [Bool.eq_iff_iff, h]
      simp
  unfold repeated Prog.unpackedList
  cases f.ty with
  | ptr => rfl
  | base id =>
    simp only
    split <;> simp [*]

/-! ## Varints and frames -/

theorem varint_head_zero {n : Nat} (h : (varint n).head? = some 0) : n = 0 := by
  unfold varint at h
  split at h
  · simp at h
    have : (UInt8.ofNat n).toNat = 0 := by rw [h]; rfl
    simp at this
    omega
  · simp only [List.head?_cons, Option.some.injEq] at h
    have : (UInt8.ofNat (n % 128 + 128)).toNat = 0 := by rw [h]; rfl
    rw [UInt8.toNat_ofNat'] at this
    omega

theorem varint_eq_zero {n : Nat} : varint n = [0] ↔ n = 0 := by
  constructor
  · intro h; exact varint_head_zero (by rw [h]; rfl)
  · rintro rfl; unfold varint; rfl

/-- `b` is a varint-like string: non-empty, blank iff `z`, starts with zero only if blank. -/
structure Lead (z : Bool) (fixed : Bool) (b : Bytes) : Prop where
  ne : b ≠ []
  blank : b = [0] ↔ z = true
  head : fixed = false → b.head? = some 0 → b = [0]

theorem lead_varint {n : Nat} {z : Bool} (fx : Bool) (hz : n = 0 ↔ z = true) : Lead z fx (varint n) where
  ne := varint_ne_nil n
  blank := varint_eq_zero.trans hz
  head := fun _ h => varint_eq_zero.mpr (varint_head_zero h)

theorem encodeByteSlice_ok {p b : Bytes} (h : encodeByteSlice p = .ok b) (hl : b.length < 2 ^ 63) :
    b = varint p.length ++ p ∧ p.length < 2 ^ 63 := by
  unfold encodeByteSlice at h
  rw [encodeUvarint_eq] at h
  simp at h
  have : p.length ≤ b.length := by rw [← h]; simp
  rw [Nat.mod_eq_of_lt (by omega)] at h
  exact ⟨h.symm, by omega⟩

theorem lead_framed {p : Bytes} {z : Bool} (fx : Bool) (hz : p = [] ↔ z = true) :
    Lead z fx (varint p.length ++ p) where
  ne := by have := varint_ne_nil p.length; simp [this]
  blank := by
    rw [← hz]
    constructor
    · intro h
      have hp := varint_length_pos p.length
      have : (varint p.length ++ p).length = 1 := by rw [h]; rfl
      rw [List.length_append] at this
      exact List.length_eq_zero_iff.mp (by omega)
    · rintro rfl; unfold varint; rfl
  head := by
    intro _ h
    have hne := varint_ne_nil p.length
    have h : (varint p.length).head? = some 0 := by
      cases hv : varint p.length with
      | nil => exact absurd hv hne
      | cons a l => rw [hv] at h; exact h
    have := List.length_eq_zero_iff.mp (varint_head_zero h)
    subst this
    unfold varint; rfl

theorem encodeKey_ok {num typ : Nat} {k : Bytes} (h : encodeKey num typ = .ok k) (ht : typ < 8) :
    k = varint (8 * num + typ) ∧ num < 2 ^ 29 := by
  have hn : num < 2 ^ 29 := by
    unfold encodeKey at h
    split at h
    · simp at h
    split at h
    · simp at h
    · omega
  rw [encodeKey_eq num typ hn ht] at h
  simp at h
  exact ⟨h.symm, hn⟩

theorem typ3_lt (Γ : Prog) (id : TId) (fo : FOpts) : Γ.typ3 id fo < 8 := by
  unfold Prog.typ3 typ3ByteLength typ3Varint typ38Byte typ34Byte
  split <;> (try split) <;> omega

/-! ## Integers -/

theorem zig_eq_zero (i : Int) : zig i = 0 ↔ i = 0 := by unfold zig; split <;> omega

theorem u64_zero {i : Int} (h1 : -(2 ^ 63) ≤ i) (h2 : i < 2 ^ 64) : (u64OfInt i).toNat = 0 ↔ i = 0 := by
  rw [u64OfInt_toNat]; omega

theorem lead_le {k : Nat} {u : UInt64} (hk : 2 ≤ k) : Lead false true (putLE k u) where
  ne := by
    intro h
    have := putLE_length k u
    rw [h] at this; simp at this; omega
  blank := by
    constructor
    · intro h
      have := putLE_length k u
      rw [h] at this; simp at this; omega
    · simp
  head := by simp

theorem encInt_lead {k : IntKind} {fo : FOpts} {i : Int} {b : Bytes} (hr : k.inRange i)
    (h : encInt k fo i = .ok b) {id : TId} {Γ : Prog} (hs : Γ.shape id = .int k)
    (bl : TId → Val → FOpts → Bool) :
    Lead (blankShape Γ bl id (.int i) fo) (fixedKind Γ id fo) b := by
  have uv : ∀ {z : Bool} {fx : Bool}, (i = 0 ↔ z = true) → -(2 ^ 63) ≤ i → i < 2 ^ 64 →
      encodeUvarint (u64OfInt i) = .ok b → Lead z fx b := by
    intro z fx hz h1 h2 he
    rw [encodeUvarint_eq] at he
    simp at he
    rw [← he]
    exact lead_varint _ ((u64_zero h1 h2).trans hz)
  have zv : ∀ {z : Bool} {fx : Bool}, (i = 0 ↔ z = true) → -(2 ^ 63) ≤ i → i < 2 ^ 63 →
      encodeVarint i = .ok b → Lead z fx b := by
    intro z fx hz h1 h2 he
    rw [encodeVarint_eq i h1 h2] at he
    simp at he
    rw [← he]
    exact lead_varint _ ((zig_eq_zero i).trans hz)
  unfold blankShape fixedKind
  cases k <;> simp only [hs, IntKind.inRange, IntKind.signed, IntKind.bits, if_true, if_false, Bool.false_eq_true] at hr h ⊢ <;>
    unfold encInt at h
  · exact zv (by simp) (by omega) (by omega) h
  · exact zv (by simp) (by omega) (by omega) h
  · cases hf : fo.fixed32 <;> simp only [hf, if_true, if_false, Bool.false_eq_true] at h
    · exact uv (by simp) (by omega) (by omega) h
    · simp [encodeInt32] at h; rw [← h]; exact lead_le (by omega)
  · cases hf : fo.fixed64 <;> simp only [hf, if_true, if_false, Bool.false_eq_true] at h
    · exact uv (by simp) (by omega) (by omega) h
    · simp [encodeInt64] at h; rw [← h]; exact lead_le (by omega)
  · exact uv (by simp) (by omega) (by omega) h
  · exact uv (by simp) (by omega) (by omega) h
  · exact uv (by simp) (by omega) (by omega) h
  · cases hf : fo.fixed32 <;> simp only [hf, if_true, if_false, Bool.false_eq_true] at h
    · exact uv (by simp) (by omega) (by omega) h
    · simp [encodeUint32] at h; rw [← h]; exact lead_le (by omega)
  · cases hf : fo.fixed64 <;> simp only [hf, if_true, if_false, Bool.false_eq_true] at h
    · exact uv (by simp) (by omega) (by omega) h
    · simp [encodeUint64] at h; rw [← h]; exact lead_le (by omega)
  · exact uv (by simp) (by omega) (by omega) h

/-! ## Composite values -/

section
variable {Γ : Prog} {c : Codec} {S : TId → FOpts → Prop}
  {rec : TId → Val → FOpts → Bool → Res Bytes} {bl : TId → Val → FOpts → Bool}

/-- What is known about the non-bare encodings one level down. -/
def RecLead (Γ : Prog) (S : TId → FOpts → Prop) (bl : TId → Val → FOpts → Bool)
    (rec : TId → Val → FOpts → Bool → Res Bytes) : Prop :=
  ∀ id v fo b, S id fo → HasTy Γ (.base id) v → rec id v fo false = .ok b → b.length < 2 ^ 63 →
    Lead (bl id v fo) (fixedKind Γ id fo) b

theorem encUnpacked_nil {e : Ty} {fo : FOpts} {vs : List Val} {buf : Bytes}
    (h : encUnpacked Γ rec e fo vs = .ok buf) : buf = [] ↔ vs = [] := by
  cases vs with
  | nil => simp [encUnpacked] at h; simp [← h]
  | cons v vs =>
    unfold encUnpacked at h
    obtain ⟨k, hk, h⟩ := Res.bind_eq_ok h
    obtain ⟨b, _, h⟩ := Res.bind_eq_ok h
    obtain ⟨bs, _, h⟩ := Res.bind_eq_ok h
    simp at h
    have hk := (encodeKey_ok hk (by decide)).1
    have := varint_ne_nil (8 * fo.fnum + typ3ByteLength)
    rw [← hk] at this
    rw [← h]
    simp [this]

theorem encPacked_nil (hr : RecLead Γ S bl rec) (hz : ∀ id, HasTy Γ (.base id) (Γ.zero id)) {e : Ty} {fo : FOpts}
    {vs : List Val} {buf : Bytes} (hS : S e.deref fo) (ht : ∀ v ∈ vs, HasTy Γ e v)
    (h : encPacked Γ rec e fo vs = .ok buf) (hl : buf.length < 2 ^ 63) : buf = [] ↔ vs = [] := by
  cases vs with
  | nil => simp [encPacked] at h; simp [← h]
  | cons v vs =>
    unfold encPacked at h
    obtain ⟨b, hb, h⟩ := Res.bind_eq_ok h
    obtain ⟨bs, _, h⟩ := Res.bind_eq_ok h
    simp at h
    have := (hr _ _ _ _ hS (hasTy_derefZero hz (ht v (by simp))) hb
      (by rw [← h] at hl; simp at hl; omega)).ne
    rw [← h]
    simp [this]

/-- A list in bare form is empty iff the list is. -/
theorem encList_bare_nil (hr : RecLead Γ S bl rec) (hz : ∀ id, HasTy Γ (.base id) (Γ.zero id)) {e : Ty}
    {fo : FOpts} {v : Val} {buf : Bytes} (hS : ElemOk Γ S e fo)
    (ht : ∀ vs, v = .list vs → ∀ w ∈ vs, HasTy Γ e w)
    (h : encList Γ c rec e v fo true = .ok buf) (hl : buf.length < 2 ^ 63) :
    buf = [] ↔ (v = .nil ∨ v = .list []) := by
  unfold encList at h
  obtain ⟨_, _, h⟩ := Res.bind_eq_ok h
  split at h
  · simp [framed] at h; simp [← h]
  · rename_i _ vs _
    obtain ⟨b, hb, h⟩ := Res.bind_eq_ok h
    simp [framed] at h
    subst h
    split at hb
    · rename_i h3
      have hlen : lenKind Γ e.deref = false := by
        rw [lenKind_eq, Bool.eq_false_iff]; intro hh; exact h3 (isLen_iff.mp hh)
      have hS' := hS.2
      rw [hlen] at hS'
      rw [encPacked_nil hr hz hS' (ht vs rfl) hb hl]
      simp
    · rw [encUnpacked_nil hb]
      simp
  · simp at h

/-- The same, framed. -/
theorem encList_framed {e : Ty} {fo : FOpts} {v : Val} {b : Bytes}
    (h : encList Γ c rec e v fo false = .ok b) (hl : b.length < 2 ^ 63) :
    ∃ p, encList Γ c rec e v fo true = .ok p ∧ b = varint p.length ++ p ∧ p.length < 2 ^ 63 := by
  unfold encList at h ⊢
  obtain ⟨_, hi, h⟩ := Res.bind_eq_ok h
  rw [hi, Res.bind_ok]
  split at h
  · simp only [framed] at h
    have := encodeByteSlice_ok h hl
    exact ⟨[], rfl, this⟩
  · obtain ⟨p, hp, h⟩ := Res.bind_eq_ok h
    simp only [framed] at h
    have := encodeByteSlice_ok h hl
    exact ⟨p, by rw [hp]; rfl, this⟩
  · simp at h

/-- A field contributes nothing exactly if it is omitted by the stated rule. -/
theorem encField_nil (hr : RecLead Γ S bl rec) (hz : ∀ id, HasTy Γ (.base id) (Γ.zero id)) {f : Field}
    {num : Nat} {v : Val} {b : Bytes} (hf : FieldOk Γ S f num) (ht : HasTy Γ f.ty v)
    (h : encField Γ c rec f num v = .ok b) (hl : b.length < 2 ^ 63) :
    b = [] ↔ omits Γ bl f num v = true := by
  unfold encField at h
  obtain ⟨_, _, h⟩ := Res.bind_eq_ok h
  unfold omits
  rw [pointee_eq]
  cases hd : derefVal f.ty v with
  | none =>
    rw [hd] at h
    simp only at h ⊢
    split at h
    · simp at h
    · simp at h; simp [h]
  | some dv =>
    rw [hd] at h
    simp only [dflt_eq, repeated_eq] at h ⊢
    have htd := hasTy_derefVal ht hd
    by_cases hdef : (isDefaultBase (Γ.shape f.ty.deref) dv && !f.opts.writeEmpty) = true
    · rw [if_pos hdef] at h
      simp at h
      simp [hdef, h]
    · rw [if_neg hdef] at h
      rw [Bool.not_eq_true] at hdef
      rw [hdef, Bool.false_or]
      cases hu : Γ.unpackedList f with
      | true =>
        rw [hu] at h
        simp only [if_true] at h ⊢
        have hrep := hf.rep (by rw [repeated_eq]; exact hu)
        split at h
        · rename_i e he
          rw [encList_bare_nil hr hz (hrep.2.2 e he) ?_ h (by omega)]
          · cases dv <;> simp
          · intro vs hvs w hw
            subst hvs
            cases htd with
            | slice hs _ h3 => rw [hs] at he; simp [Shape.elem?] at he; subst he; exact h3 w hw
            | array hs _ _ h3 => rw [hs] at he; simp [Shape.elem?] at he; subst he; exact h3 w hw
        · simp at h
      | false =>
        rw [hu] at h
        simp only [Bool.false_eq_true, if_false] at h ⊢
        have hs := (hf.single (by rw [repeated_eq]; exact hu)).1
        generalize ({ f.opts with fnum := num } : FOpts) = fo at *
        unfold writeField at h
        obtain ⟨k, hk, h⟩ := Res.bind_eq_ok h
        obtain ⟨b', hb', h⟩ := Res.bind_eq_ok h
        have hk := (encodeKey_ok hk (typ3_lt _ _ _)).1
        have hkn := varint_ne_nil (8 * num + Γ.typ3 f.ty.deref fo)
        rw [← hk] at hkn
        by_cases hw : (f.opts.writeEmpty || f.ty.isPtr) = true
        · rw [hw] at h
          simp at h
          have : (!f.opts.writeEmpty && !f.ty.isPtr && bl f.ty.deref dv fo) = false := by
            cases h1 : f.opts.writeEmpty <;> cases h2 : f.ty.isPtr <;> simp_all
          rw [this, ← h]
          simp [hkn]
        · rw [Bool.not_eq_true] at hw
          rw [hw] at h
          have e1 : f.opts.writeEmpty = false := by cases h1 : f.opts.writeEmpty <;> simp_all
          have e2 : f.ty.isPtr = false := by cases h1 : f.ty.isPtr <;> simp_all
          rw [e1, e2]
          simp only [Bool.not_false, Bool.true_and, beq_iff_eq] at h ⊢
          by_cases hb0 : b' = [0]
          · rw [if_pos hb0] at h
            simp at h
            have := (hr _ _ _ _ hs htd hb' (by rw [hb0]; decide)).blank.mp hb0
            simp [h, this]
          · rw [if_neg hb0] at h
            simp at h
            have := (hr _ _ _ _ hs htd hb' (by rw [← h] at hl; simp at hl; omega)).blank
            have hne : bl f.ty.deref dv fo = false := by
              rw [Bool.eq_false_iff]; exact fun hh => hb0 (this.mpr hh)
            rw [hne, ← h]
            simp [hkn]

theorem encFields_nil (hr : RecLead Γ S bl rec) (hz : ∀ id, HasTy Γ (.base id) (Γ.zero id)) {num : Nat}
    {fs : List Field} {vs : List Val} {b : Bytes} (hf : FieldsOk Γ S num fs) (ht : FieldsTy Γ fs vs)
    (h : encFields Γ c rec num fs vs = .ok b) (hl : b.length < 2 ^ 63) :
    b = [] ↔ allOmitted Γ bl num fs vs = true := by
  induction fs generalizing num vs b with
  | nil =>
    cases vs with
    | nil => simp [encFields] at h; simp [allOmitted, h]
    | cons => simp [encFields] at h
  | cons f fs ih =>
    cases vs with
    | nil => simp [encFields] at h
    | cons v vs =>
      have ht' := fieldsTy_cons.mp ht
      unfold encFields at h
      unfold allOmitted
      unfold FieldsOk at hf
      cases hv : f.visible with
      | false =>
        rw [hv] at h hf
        simp at h hf ⊢
        exact ih hf ht'.2 h hl
      | true =>
        rw [hv] at h hf
        simp at h hf ⊢
        obtain ⟨b1, h1, h⟩ := Res.bind_eq_ok h
        obtain ⟨b2, h2, h⟩ := Res.bind_eq_ok h
        simp at h
        have hl1 : b1.length < 2 ^ 63 := by rw [← h] at hl; simp at hl; omega
        have hl2 : b2.length < 2 ^ 63 := by rw [← h] at hl; simp at hl; omega
        rw [← encField_nil hr hz hf.1 ht'.1 h1 hl1, ← ih hf.2 ht'.2 h2 hl2, ← h]
        simp

end

/-! ## The encoder -/

theorem lead_fix {k : Nat} {u : UInt64} (fx : Bool) (hfx : fx = true) (hk : 2 ≤ k) : Lead false fx (putLE k u) := by
  subst hfx; exact lead_le hk

theorem framed_ok {bare : Bool} {p b : Bytes} (h : framed bare p = .ok b) (hl : b.length < 2 ^ 63) :
    b = (if bare then [] else varint p.length) ++ p ∧ p.length < 2 ^ 63 := by
  unfold framed at h
  cases bare with
  | true => simp at h; subst h; simpa using hl
  | false => simpa using encodeByteSlice_ok (by simpa using h) hl

theorem encodeTime_nil {s ns : Int} {p : Bytes} (h : encodeTime s ns = .ok p) (hns : 0 ≤ ns) :
    p = [] ↔ s = 0 ∧ ns = 0 := by
  have hr := encodeTime_ok_range h hns
  rw [encodeTime_eq s ns ⟨hr.1, hr.2.1⟩ ⟨hns, hr.2.2⟩] at h
  simp only [Res.ok.injEq] at h
  rw [← h]
  by_cases h1 : s = 0 <;> by_cases h2 : ns = 0 <;> simp [h1, h2]

section
variable {Γ : Prog} {c : Codec} {S : TId → FOpts → Prop}

theorem getInfo_ok (hU : Universe Γ c S) {id : TId} {fo : FOpts} (h : S id fo) : getInfo Γ c id = .ok () := by
  unfold getInfo
  split
  · rename_i hs; rw [if_pos (hU.registered h hs)]
  · rename_i fs hs
    rw [if_neg]
    intro hany
    obtain ⟨f, hf, hb⟩ := List.any_eq_true.mp hany
    rw [hU.floats h hs f hf] at hb
    cases hb
  · rfl

theorem conc_mem {id : TId} {ci : ConcInfo} (h : c.conc? id = some ci) : ci.tid = id := by
  have := List.find?_some h
  simpa using this

theorem encIface_lead {rec : TId → Val → FOpts → Bool → Res Bytes} (hU : Universe Γ c S) {id : TId} {v : Val}
    {fo : FOpts} {b : Bytes} (hS : S id fo) (hs : Γ.shape id = .iface) (ht : HasTy Γ (.base id) v)
    (h : encIface Γ c rec id v fo false = .ok b) (hl : b.length < 2 ^ 63)
    (bl : TId → Val → FOpts → Bool) : Lead (blankShape Γ bl id v fo) (fixedKind Γ id fo) b := by
  unfold encIface at h
  split at h
  · simp at h
    subst h
    unfold blankShape
    rw [hs]
    exact ⟨by simp, by simp, by simp⟩
  · rename_i t cv
    split at h
    · simp at h
    · split at h
      · simp at h
      obtain ⟨_, _, h⟩ := Res.bind_eq_ok h
      split at h
      · simp at h
      rename_i ci hci
      split at h
      · simp at h
      rename_i ii hii
      obtain ⟨b0, _, h⟩ := Res.bind_eq_ok h
      obtain ⟨h, _⟩ := framed_ok h hl
      have himp : Γ.implements t id = true := by
        cases ht with
        | iface _ h2 _ => exact h2
      have hmem := (hU.iface hS hs hii).1 t ci himp hci
      have hp := ((hU.iface hS hs hii).2 ci hmem).prefixLen
      rw [h]
      have : blankShape Γ bl id (.iface t cv) fo = false := by unfold blankShape; rw [hs]
      rw [this]
      refine lead_framed _ ?_
      constructor
      · intro h0
        have := congrArg List.length h0
        simp only [List.length_append, hp] at this
        simp at this
      · simp
  · simp at h

/-- Non-bare encodings: non-empty, a lone zero byte iff the value is blank; variable length kinds start with a
zero byte only if blank. -/
theorem enc_lead (hU : Universe Γ c S) (hT : Γ.Typed) (f : Nat) : RecLead Γ S (blank Γ f) (enc Γ c f) := by
  induction f with
  | zero => intro id v fo b _ _ h; simp [enc] at h
  | succ f ih =>
    intro id v fo b hS ht h hl
    unfold enc encBody at h
    unfold blank
    cases hm : Γ.marsh id with
    | some rm =>
      obtain ⟨rid, m⟩ := rm
      rw [hm] at h
      simp only at h ⊢
      obtain ⟨r, hr, h⟩ := Res.bind_eq_ok h
      obtain ⟨_, _, h⟩ := Res.bind_eq_ok h
      obtain ⟨_, hSr, _, _, hfx⟩ := hU.marsh hS hm
      have := ih rid r fo b hSr (hT.marsh hm ht hr) h hl
      rw [hr]
      exact ⟨this.ne, this.blank, fun hf => this.head (hfx hf)⟩
    | none =>
      rw [hm] at h
      simp only at h ⊢
      unfold encShape at h
      split at h
      · rename_i hs
        exact encIface_lead hU hS hs ht h hl _
      · rename_i e hs
        have hlo := hU.slice hS hs hm
        unfold ListOk at hlo
        have hfx : fixedKind Γ id fo = false := by unfold fixedKind; rw [hs]
        split at h
        · split at h
          · obtain ⟨h, _⟩ := encodeByteSlice_ok h hl
            rw [h]
            exact lead_framed _ (by simp [blankShape, hs])
          · rename_i bz
            obtain ⟨h, _⟩ := encodeByteSlice_ok h hl
            rw [h]
            exact lead_framed _ (by simp [blankShape, hs])
          · simp at h
        · rename_i hb
          rw [if_neg hb] at hlo
          rw [if_neg (by simp [hlo.1])] at h
          obtain ⟨p, hp, h, hpl⟩ := encList_framed h hl
          rw [h]
          refine lead_framed _ ?_
          rw [encList_bare_nil ih hT.zero hlo.2 ?_ hp hpl]
          · cases ht with
            | sliceNil => simp [blankShape, hs]
            | slice => simp [blankShape, hs]
            | sliceBytes hs' hb' => rw [hs] at hs'; cases hs'; exact absurd hb' hb
            | _ => simp_all
          · intro vs hvs w hw
            subst hvs
            cases ht with
            | slice hs' _ h3 => rw [hs] at hs'; cases hs'; exact h3 w hw
            | array hs' => rw [hs] at hs'; cases hs'
      · rename_i n e hs
        have hlo := hU.array hS hs hm
        unfold ListOk at hlo
        split at h
        · split at h
          · rename_i bz
            obtain ⟨h, _⟩ := encodeByteSlice_ok h hl
            rw [h]
            exact lead_framed _ (by simp [blankShape, hs])
          · simp at h
        · rename_i hb
          rw [if_neg hb] at hlo
          rw [if_neg (by simp [hlo.1])] at h
          obtain ⟨p, hp, h, hpl⟩ := encList_framed h hl
          rw [h]
          refine lead_framed _ ?_
          rw [encList_bare_nil ih hT.zero hlo.2 ?_ hp hpl]
          · cases ht with
            | array => simp [blankShape, hs]
            | arrayBytes hs' hb' => rw [hs] at hs'; cases hs'; exact absurd hb' hb
            | _ => simp_all
          · intro vs hvs w hw
            subst hvs
            cases ht with
            | slice hs' => rw [hs] at hs'; cases hs'
            | array hs' _ _ h3 => rw [hs] at hs'; cases hs'; exact h3 w hw
      · rename_i fs hs
        split at h
        · rename_i vs
          obtain ⟨p, hp, h⟩ := Res.bind_eq_ok h
          obtain ⟨h, hpl⟩ := framed_ok h hl
          have hft : FieldsTy Γ fs vs := by
            cases ht with
            | struct hs' h1 h2 => rw [hs] at hs'; cases hs'; exact ⟨h1, h2⟩
          rw [h]
          refine lead_framed _ ?_
          rw [encFields_nil ih hT.zero (hU.struct hS hs hm) hft hp hpl]
          simp [blankShape, hs]
        · simp at h
      · rename_i hs
        split at h
        · rename_i s ns
          obtain ⟨p, hp, h⟩ := Res.bind_eq_ok h
          obtain ⟨h, hpl⟩ := framed_ok h hl
          have hns : 0 ≤ ns := by
            cases ht with
            | time _ _ _ h _ => exact h
          rw [h]
          refine lead_framed _ ?_
          rw [encodeTime_nil hp hns]
          simp [blankShape, hs]
        · simp at h
      · rename_i k hs
        split at h
        · cases ht with
          | int hs' hr =>
            rw [hs] at hs'; cases hs'
            exact encInt_lead hr h hs _
        · simp at h
      · rename_i hs
        split at h
        · rename_i bb
          cases bb <;> simp [encodeBool, encodeUint8, encodeUvarint_eq] at h <;> rw [← h] <;>
            exact lead_varint _ (by simp [blankShape, hs])
        · simp at h
      · rename_i hs
        split at h
        · simp at h
        split at h
        · simp [encodeUint64] at h
          rw [← h]
          have : ∀ x, blankShape Γ (blank Γ f) id (.f64 x) fo = false := by intro x; unfold blankShape; rw [hs]
          rw [this]
          exact lead_fix _ (by simp [fixedKind, hs]) (by omega)
        · simp at h
      · rename_i hs
        split at h
        · simp at h
        split at h
        · simp [encodeUint32] at h
          rw [← h]
          have : ∀ x, blankShape Γ (blank Γ f) id (.f32 x) fo = false := by intro x; unfold blankShape; rw [hs]
          rw [this]
          exact lead_fix _ (by simp [fixedKind, hs]) (by omega)
        · simp at h
      · rename_i hs
        split at h
        · unfold encodeString at h
          obtain ⟨h, _⟩ := encodeByteSlice_ok h hl
          rw [h]
          exact lead_framed _ (by simp [blankShape, hs])
        · simp at h
      · simp at h

end

end Amino
