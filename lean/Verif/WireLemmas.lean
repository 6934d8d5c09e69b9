import Verif.SpecWire
import Verif.NormLemmas

/-!
# Encodings in protobuf wire format
-/

namespace Amino
open Spec

theorem wireType_eq (Γ : Prog) (id : TId) (fo : FOpts) : wireType Γ id fo = Γ.typ3 id fo := by
  unfold wireType Prog.typ3
  cases h : Γ.shape id <;> simp [typ3ByteLength, typ3Varint, typ38Byte, typ34Byte]
  rename_i k
  cases k <;> simp

theorem payload_uvarint {u : UInt64} {b : Bytes} (h : encodeUvarint u = .ok b) : Payload 0 b := by
  rw [encodeUvarint_eq] at h
  simp at h
  rw [← h]
  exact .varint u.toNat_lt

theorem payload_varint {i : Int} {b : Bytes} (h1 : -(2 ^ 63) ≤ i) (h2 : i < 2 ^ 63) (h : encodeVarint i = .ok b) :
    Payload 0 b := by
  rw [encodeVarint_eq i h1 h2] at h
  simp at h
  rw [← h]
  exact .varint (by unfold zig; split <;> omega)

theorem payload_bytes {p b : Bytes} (h : encodeByteSlice p = .ok b) (hl : b.length < 2 ^ 63) : Payload 2 b := by
  obtain ⟨rfl, h'⟩ := encodeByteSlice_ok h hl
  exact .bytes h'

theorem payload_empty : Payload 2 [0] := by
  have := Payload.bytes (b := []) (by simp)
  rwa [show varint ([] : Bytes).length ++ [] = [0] by unfold varint; rfl] at this

theorem payload_framed {p b : Bytes} (h : framed false p = .ok b) (hl : b.length < 2 ^ 63) : Payload 2 b := by
  obtain ⟨rfl, h'⟩ := framed_ok h hl
  exact .bytes h'

theorem encInt_payload {k : IntKind} {fo : FOpts} {i : Int} {b : Bytes} (hr : k.inRange i)
    (h : encInt k fo i = .ok b) {id : TId} {Γ : Prog} (hs : Γ.shape id = .int k) : Payload (wireType Γ id fo) b := by
  unfold wireType
  cases k <;> simp only [hs, IntKind.inRange, IntKind.signed, IntKind.bits, if_true, if_false, Bool.false_eq_true] at hr h ⊢ <;>
    unfold encInt at h
  · exact payload_varint (by omega) (by omega) h
  · exact payload_varint (by omega) (by omega) h
  · cases hf : fo.fixed32 <;> simp only [hf, if_true, if_false, Bool.false_eq_true] at h ⊢
    · exact payload_uvarint h
    · simp [encodeInt32] at h; rw [← h]; exact .fixed32 (putLE_length _ _)
  · cases hf : fo.fixed64 <;> simp only [hf, if_true, if_false, Bool.false_eq_true] at h ⊢
    · exact payload_uvarint h
    · simp [encodeInt64] at h; rw [← h]; exact .fixed64 (putLE_length _ _)
  · exact payload_uvarint h
  · exact payload_uvarint h
  · exact payload_uvarint h
  · cases hf : fo.fixed32 <;> simp only [hf, if_true, if_false, Bool.false_eq_true] at h ⊢
    · exact payload_uvarint h
    · simp [encodeUint32] at h; rw [← h]; exact .fixed32 (putLE_length _ _)
  · cases hf : fo.fixed64 <;> simp only [hf, if_true, if_false, Bool.false_eq_true] at h ⊢
    · exact payload_uvarint h
    · simp [encodeUint64] at h; rw [← h]; exact .fixed64 (putLE_length _ _)
  · exact payload_uvarint h

section
variable {Γ : Prog} {c : Codec} {S : TId → FOpts → Prop}

theorem encList_payload {rec : TId → Val → FOpts → Bool → Res Bytes} {e : Ty} {v : Val} {fo : FOpts} {b : Bytes}
    (h : encList Γ c rec e v fo false = .ok b) (hl : b.length < 2 ^ 63) : Payload 2 b := by
  unfold encList at h
  obtain ⟨_, _, h⟩ := Res.bind_eq_ok h
  split at h
  · exact payload_framed h hl
  · obtain ⟨p, _, h⟩ := Res.bind_eq_ok h
    exact payload_framed h hl
  · simp at h

theorem enc_payload (hU : Universe Γ c S) (hT : Γ.Typed) (hM : SameWire Γ S) (f : Nat) {id : TId} {v : Val} {fo : FOpts}
    {b : Bytes} (hS : S id fo) (ht : HasTy Γ (.base id) v) (h : enc Γ c f id v fo false = .ok b)
    (hl : b.length < 2 ^ 63) : Payload (wireType Γ id fo) b := by
  induction f generalizing id v with
  | zero => simp [enc] at h
  | succ f ih =>
    unfold enc encBody at h
    cases hm : Γ.marsh id with
    | some rm =>
      obtain ⟨rid, m⟩ := rm
      rw [hm] at h
      simp only at h
      obtain ⟨r, hr, h⟩ := Res.bind_eq_ok h
      obtain ⟨_, _, h⟩ := Res.bind_eq_ok h
      obtain ⟨_, hSr, _, _, _⟩ := hU.marsh hS hm
      rw [← hM hS hm]
      exact ih hSr (hT.marsh hm ht hr) h
    | none =>
      rw [hm] at h
      simp only at h
      unfold encShape at h
      split at h
      · rename_i hs
        have hw : wireType Γ id fo = 2 := by unfold wireType; rw [hs]
        rw [hw]
        unfold encIface at h
        split at h
        · simp at h; subst h
          exact payload_empty
        · split at h
          · simp at h
          split at h
          · simp at h
          obtain ⟨_, _, h⟩ := Res.bind_eq_ok h
          split at h
          · simp at h
          split at h
          · simp at h
          obtain ⟨_, _, h⟩ := Res.bind_eq_ok h
          exact payload_framed h hl
        · simp at h
      · rename_i e hs
        have hw : wireType Γ id fo = 2 := by unfold wireType; rw [hs]
        rw [hw]
        have hlo := hU.slice hS hs hm
        unfold ListOk at hlo
        split at h
        · split at h
          · exact payload_bytes h hl
          · exact payload_bytes h hl
          · simp at h
        · rename_i hb
          rw [if_neg hb] at hlo
          rw [if_neg (by simp [hlo.1])] at h
          exact encList_payload h hl
      · rename_i n e hs
        have hw : wireType Γ id fo = 2 := by unfold wireType; rw [hs]
        rw [hw]
        have hlo := hU.array hS hs hm
        unfold ListOk at hlo
        split at h
        · split at h
          · exact payload_bytes h hl
          · simp at h
        · rename_i hb
          rw [if_neg hb] at hlo
          rw [if_neg (by simp [hlo.1])] at h
          exact encList_payload h hl
      · rename_i fs hs
        have hw : wireType Γ id fo = 2 := by unfold wireType; rw [hs]
        rw [hw]
        split at h
        · obtain ⟨p, hp, h⟩ := Res.bind_eq_ok h
          exact payload_framed h hl
        · simp at h
      · rename_i hs
        have hw : wireType Γ id fo = 2 := by unfold wireType; rw [hs]
        rw [hw]
        split at h
        · obtain ⟨p, hp, h⟩ := Res.bind_eq_ok h
          exact payload_framed h hl
        · simp at h
      · rename_i k hs
        split at h
        · cases ht with
          | int hs' hr =>
            rw [hs] at hs'; cases hs'
            exact encInt_payload hr h hs
        · simp at h
      · rename_i hs
        have hw : wireType Γ id fo = 0 := by unfold wireType; rw [hs]
        rw [hw]
        split at h
        · rename_i bb
          cases bb <;> simp only [encodeBool, Bool.false_eq_true, if_false, if_true, encodeUint8] at h <;> exact payload_uvarint h
        · simp at h
      · rename_i hs
        have hw : wireType Γ id fo = 1 := by unfold wireType; rw [hs]
        rw [hw]
        split at h
        · simp at h
        split at h
        · simp [encodeUint64] at h
          rw [← h]
          exact .fixed64 (putLE_length _ _)
        · simp at h
      · rename_i hs
        have hw : wireType Γ id fo = 5 := by unfold wireType; rw [hs]
        rw [hw]
        split at h
        · simp at h
        split at h
        · simp [encodeUint32] at h
          rw [← h]
          exact .fixed32 (putLE_length _ _)
        · simp at h
      · rename_i hs
        have hw : wireType Γ id fo = 2 := by unfold wireType; rw [hs]
        rw [hw]
        split at h
        · exact payload_bytes h hl
        · simp at h
      · simp at h

theorem Spec.Wire.append {ws ws' : List WField} {b b' : Bytes} (h : Wire ws b) (h' : Wire ws' b') : Wire (ws ++ ws') (b ++ b') := by
  induction h with
  | nil => exact h'
  | cons h1 h2 h3 _ ih =>
    simp only [List.cons_append, List.append_assoc]
    rw [← List.append_assoc (varint _)]
    exact .cons h1 h2 h3 ih

theorem Spec.Wire.single {num typ : Nat} {p : Bytes} (h1 : 1 ≤ num) (h2 : num < 2 ^ 29) (h : Payload typ p) :
    Wire [⟨num, typ, p⟩] (varint (8 * num + typ) ++ p) := by
  have := Wire.cons (w := ⟨num, typ, p⟩) h1 h2 h .nil
  simpa using this

/-- The elements of a repeated field, on the wire. -/
theorem encUnpacked_wire (hU : Universe Γ c S) (hT : Γ.Typed) (hM : SameWire Γ S) {f : Nat} {e : Ty} {fo : FOpts}
    {vs : List Val} {b : Bytes} (hok : ElemOk Γ S e fo) (hlk : lenKind Γ e.deref = true)
    (hnum : 1 ≤ fo.fnum) (ht : ∀ v ∈ vs, HasTy Γ e v) (h : encUnpacked Γ (enc Γ c f) e fo vs = .ok b)
    (hl : b.length < 2 ^ 63) : ∃ ws, Wire ws b ∧ ws.length = vs.length ∧ ∀ w ∈ ws, w.num = fo.fnum := by
  induction vs generalizing b with
  | nil => simp [encUnpacked] at h; subst h; exact ⟨[], .nil, rfl, by simp⟩
  | cons v vs ih =>
    unfold encUnpacked at h
    obtain ⟨k, hk, h⟩ := Res.bind_eq_ok h
    obtain ⟨b1, hb1, h⟩ := Res.bind_eq_ok h
    obtain ⟨b2, hb2, h⟩ := Res.bind_eq_ok h
    simp only [Res.ok.injEq] at h
    subst h
    simp only [List.length_append] at hl
    obtain ⟨rfl, hn⟩ := encodeKey_ok hk (by decide)
    obtain ⟨ws, hw, hlen, hnums⟩ := ih (fun v hv => ht v (by simp [hv])) hb2 (by omega)
    have hp : Payload 2 b1 := by
      have h0 : encodeUint8 0 = .ok b1 → Payload 2 b1 := by
        intro h
        simp [encodeUint8, encodeUvarint_eq] at h
        rw [← h, show varint 0 = [0] by unfold varint; rfl]
        exact payload_empty
      unfold encElem at hb1
      split at hb1
      · split at hb1
        · simp at hb1
        · exact h0 hb1
      · rename_i dv hd
        split at hb1
        · split at hb1
          · simp at hb1
          · exact h0 hb1
        · have hS := hok.2
          rw [if_pos hlk] at hS
          have := enc_payload hU hT hM f hS (hasTy_derefVal (ht v (by simp)) hd) hb1 (by omega)
          rwa [wireType_eq, isLen_iff.mp (by rwa [lenKind_eq] at hlk)] at this
    exact ⟨_, Wire.append (Wire.single hnum hn hp) hw, by simp [hlen], by
      intro w hw; simp at hw; rcases hw with rfl | hw
      · rfl
      · exact hnums w hw⟩

/-- A field on the wire. -/
theorem encField_wire (hU : Universe Γ c S) (hT : Γ.Typed) (hM : SameWire Γ S) {f : Nat} {fld : Field} {num : Nat} {v : Val}
    {b : Bytes} (hf : FieldOk Γ S fld num) (hnum : 1 ≤ num) (ht : HasTy Γ fld.ty v)
    (h : encField Γ c (enc Γ c f) fld num v = .ok b) (hl : b.length < 2 ^ 63) :
    ∃ ws, Wire ws b ∧ (∀ w ∈ ws, w.num = num) ∧ (repeated Γ fld = false → ws.length ≤ 1) := by
  unfold encField at h
  obtain ⟨_, _, h⟩ := Res.bind_eq_ok h
  split at h
  · split at h <;> simp at h
    subst h; exact ⟨[], .nil, by simp, by simp⟩
  · rename_i dv hd
    have htd := hasTy_derefVal ht hd
    split at h
    · simp at h; subst h; exact ⟨[], .nil, by simp, by simp⟩
    · split at h
      · rename_i hu
        obtain ⟨id, e, hid, he, hbk, hlk⟩ := unpackedList_inv hu
        have hel' : (Γ.shape fld.ty.deref).elem? = some e := by rw [hid]; exact he
        rw [hel'] at h
        simp only at h
        have hrep : repeated Γ fld = true := by rw [repeated_eq]; exact hu
        have hok := (hf.rep hrep).2.2 e hel'
        unfold encList at h
        obtain ⟨_, _, h⟩ := Res.bind_eq_ok h
        split at h
        · simp [framed] at h; subst h; exact ⟨[], .nil, by simp, by simp⟩
        · rename_i vs _ _
          obtain ⟨buf, hb, h⟩ := Res.bind_eq_ok h
          simp [framed] at h
          subst h
          rw [if_neg (by simpa using isLen_iff.mp (by rwa [lenKind_eq] at hlk))] at hb
          have helt : ∀ v ∈ vs, HasTy Γ e v := by
            rw [hid] at htd
            simp only [Ty.deref] at htd
            cases htd with
            | slice hs' _ h3 => rw [hs'] at he; simp [Shape.elem?] at he; subst he; exact h3
            | array hs' _ _ h3 => rw [hs'] at he; simp [Shape.elem?] at he; subst he; exact h3
          obtain ⟨ws, hw, _, hn⟩ := encUnpacked_wire hU hT hM hok hlk hnum helt hb hl
          exact ⟨ws, hw, hn, by simp [hrep]⟩
        · simp at h
      · rename_i hu
        unfold writeField at h
        obtain ⟨k, hk, h⟩ := Res.bind_eq_ok h
        obtain ⟨b1, hb1, h⟩ := Res.bind_eq_ok h
        obtain ⟨rfl, hn⟩ := encodeKey_ok hk (typ3_lt _ _ _)
        have hrep : repeated Γ fld = false := by rw [repeated_eq]; simpa using hu
        have hS := (hf.single hrep).1
        split at h
        · simp at h; subst h; exact ⟨[], .nil, by simp, by simp⟩
        · simp only [Res.ok.injEq] at h
          subst h
          rw [List.length_append] at hl
          have := enc_payload hU hT hM f hS htd hb1 (by omega)
          rw [← wireType_eq]
          exact ⟨_, Wire.single hnum hn this, by simp, by simp⟩

theorem lastNum_count (num : Nat) (fs : List Field) : lastNum num fs = num + fieldCount fs := by
  induction fs generalizing num with
  | nil => rfl
  | cons f fs ih =>
    unfold lastNum
    rw [ih]
    cases hv : f.visible <;> simp [fieldCount, hv]
    omega

/-- The fields of a struct, on the wire. -/
theorem encFields_wire (hU : Universe Γ c S) (hT : Γ.Typed) (hM : SameWire Γ S) {f : Nat} {fs : List Field} {num : Nat}
    {vs : List Val} {b : Bytes} (hf : FieldsOk Γ S num fs) (ht : FieldsTy Γ fs vs)
    (h : encFields Γ c (enc Γ c f) num fs vs = .ok b) (hl : b.length < 2 ^ 63) :
    ∃ ws, Wire ws b ∧ (ws.map WField.num).Pairwise (· ≤ ·) ∧
      (∀ w ∈ ws, num < w.num ∧ w.num ≤ num + fieldCount fs) ∧
      ((∀ fld ∈ fs, repeated Γ fld = false) → (ws.map WField.num).Pairwise (· < ·)) := by
  induction fs generalizing num vs b with
  | nil =>
    cases vs with
    | nil => simp [encFields] at h; subst h; exact ⟨[], .nil, by simp, by simp, by simp⟩
    | cons => simp [encFields] at h
  | cons fld fs ih =>
    cases vs with
    | nil => simp [encFields] at h
    | cons v vs =>
      have ht' := fieldsTy_cons.mp ht
      unfold encFields at h
      unfold FieldsOk at hf
      cases hv : fld.visible with
      | false =>
        rw [hv] at h hf
        simp at h hf
        obtain ⟨ws, h1, h2, h3, h4⟩ := ih hf ht'.2 h hl
        refine ⟨ws, h1, h2, ?_, fun hh => h4 fun fld hfl => hh fld (by simp [hfl])⟩
        simpa [fieldCount, hv] using h3
      | true =>
        rw [hv] at h hf
        simp only [Bool.not_true, Bool.false_eq_true, if_false, if_true] at h hf
        obtain ⟨b1, hb1, h⟩ := Res.bind_eq_ok h
        obtain ⟨b2, hb2, h⟩ := Res.bind_eq_ok h
        simp only [Res.ok.injEq] at h
        subst h
        rw [List.length_append] at hl
        obtain ⟨ws, h1, h2, h3, h4⟩ := ih hf.2 ht'.2 hb2 (by omega)
        obtain ⟨us, g1, g2, g3⟩ := encField_wire hU hT hM hf.1 (by omega) ht'.1 hb1 (by omega)
        have hc : fieldCount (fld :: fs) = fieldCount fs + 1 := by simp [fieldCount, hv]
        refine ⟨us ++ ws, g1.append h1, ?_, ?_, ?_⟩
        · rw [List.map_append, List.pairwise_append]
          refine ⟨?_, h2, ?_⟩
          · rw [List.pairwise_map]
            apply List.pairwise_of_forall_mem_list
            intro a ha b hb
            rw [g2 a ha, g2 b hb]
            exact Nat.le_refl _
          · intro a ha b hb
            simp only [List.mem_map] at ha hb
            obtain ⟨x, hx, rfl⟩ := ha
            obtain ⟨y, hy, rfl⟩ := hb
            rw [g2 x hx]
            have := h3 y hy
            omega
        · intro w hw
          rw [hc]
          rcases List.mem_append.mp hw with hw | hw
          · rw [g2 w hw]; omega
          · have := h3 w hw; omega
        · intro hh
          have hlen := g3 (hh fld (by simp))
          rw [List.map_append, List.pairwise_append]
          refine ⟨?_, h4 (fun fld hfl => hh fld (by simp [hfl])), ?_⟩
          · match us, hlen with
            | [], _ => simp
            | [a], _ => simp
          · intro a ha b hb
            simp only [List.mem_map] at ha hb
            obtain ⟨x, hx, rfl⟩ := ha
            obtain ⟨y, hy, rfl⟩ := hb
            rw [g2 x hx]
            have := h3 y hy
            omega

end

/-! ## Unknown fields -/

theorem skipped_ok {α : Type} {p rest : Bytes} {a : α} {r : DRes α} (h : r = .ok p.length a) :
    skipped r (p ++ rest) = .ok p.length () := by
  subst h
  simp [skipped, slideThen]

theorem consumeAny_payload {typ : Nat} {p : Bytes} (h : Payload typ p) (rest : Bytes) :
    consumeAny typ (p ++ rest) = .ok p.length () := by
  unfold consumeAny
  cases h with
  | @varint nn hn =>
    rw [if_pos (by decide)]
    refine skipped_ok (a := zag nn) ?_
    rw [decodeVarint_eq, readVarint_varint]
    simp only
    rw [if_pos ⟨varint_u64_length _ hn, hn⟩]
  | fixed64 hb =>
    rw [if_neg (by decide), if_pos (by decide)]
    refine skipped_ok (a := intOfU64 (getLE ((p ++ rest).take 8))) ?_
    unfold decodeInt64
    rw [if_neg (by rw [List.length_append]; omega), hb]
  | bytes hb =>
    rename_i b
    rw [if_neg (by decide), if_neg (by decide), if_pos (by decide)]
    refine skipped_ok (a := b) ?_
    rw [List.append_assoc, decodeByteSlice_varint _ _ hb, List.length_append]
  | fixed32 hb =>
    rw [if_neg (by decide), if_neg (by decide), if_neg (by decide), if_pos (by decide)]
    refine skipped_ok (a := intOfU32 (getLE ((p ++ rest).take 4))) ?_
    unfold decodeInt32
    rw [if_neg (by rw [List.length_append]; omega), hb]

theorem payload_inj {typ : Nat} {p p' r r' : Bytes} (h : Payload typ p) (h' : Payload typ p') (he : p ++ r = p' ++ r') :
    p = p' ∧ r = r' := by
  have h1 := consumeAny_payload h r
  have h2 := consumeAny_payload h' r'
  rw [he, h2] at h1
  injection h1 with h1 _
  exact List.append_inj he h1.symm

theorem payload_typ {typ : Nat} {p : Bytes} (h : Payload typ p) : typ < 8 := by
  cases h <;> omega

/-- A byte string is a sequence of fields in at most one way. -/
theorem wire_unique {ws ws' : List WField} {bz : Bytes} (h : Wire ws bz) (h' : Wire ws' bz) : ws = ws' := by
  induction h generalizing ws' with
  | nil =>
    generalize hb : ([] : Bytes) = b at h'
    cases h' with
    | nil => rfl
    | cons _ _ _ _ =>
      have := congrArg List.length hb
      simp only [List.length_append, List.length_nil] at this
      have := varint_length_pos (8 * (WField.num ‹_›) + (WField.typ ‹_›))
      omega
  | @cons w ws bz h1 h2 h3 h4 ih =>
    generalize hb : varint (8 * w.num + w.typ) ++ w.payload ++ bz = b at h'
    cases h' with
    | nil =>
      have := congrArg List.length hb
      simp only [List.length_append, List.length_nil] at this
      have := varint_length_pos (8 * w.num + w.typ)
      omega
    | @cons w' ws' bz' g1 g2 g3 g4 =>
      rw [List.append_assoc, List.append_assoc] at hb
      have k1 := decodeKey_varint _ _ h2 (payload_typ h3) (w.payload ++ bz)
      have k2 := decodeKey_varint _ _ g2 (payload_typ g3) (w'.payload ++ bz')
      rw [hb, k2] at k1
      simp only [DRes.ok.injEq, Prod.mk.injEq] at k1
      obtain ⟨_, hn, ht⟩ := k1
      rw [hn, ht] at hb
      have hb := List.append_cancel_left hb
      rw [ht] at g3
      obtain ⟨hp, hr⟩ := payload_inj h3 g3 hb
      rw [ih (hr ▸ g4)]
      cases w; cases w'; simp_all

theorem consumeRest_succ {k last n : Nat} {bz : Bytes} (h : bz ≠ []) :
    consumeRest (k + 1) last bz n =
      (decodeKey bz).andSlide bz n fun ft bz n =>
      if ft.1 ≤ last then .err n .fieldOrder
      else (consumeAny ft.2 bz).andSlide bz n fun _ bz n => consumeRest k ft.1 bz n := by
  cases bz with
  | nil => exact absurd rfl h
  | cons => rfl

theorem consumeRest_wire {ws : List WField} {bz : Bytes} (h : Wire ws bz) (hs : (ws.map WField.num).Pairwise (· < ·))
    {last k n : Nat} (hlast : ∀ w ∈ ws, last < w.num) (hk : bz.length ≤ k) :
    consumeRest k last bz n = .ok (n + bz.length) () := by
  induction h generalizing last k n with
  | nil => cases k <;> simp [consumeRest]
  | @cons w ws bz h1 h2 h3 h4 ih =>
    simp only [List.map_cons, List.pairwise_cons] at hs
    have hv := varint_length_pos (8 * w.num + w.typ)
    rw [List.append_assoc] at hk ⊢
    simp only [List.length_append] at hk
    cases k with
    | zero => omega
    | succ k =>
      rw [consumeRest_succ (by intro hh; have := congrArg List.length hh; simp only [List.length_append, List.length_nil] at this; omega)]
      rw [decodeKey_varint _ _ h2 (payload_typ h3), andSlide_append]
      have := hlast w (by simp)
      rw [if_neg (by simp; omega)]
      simp only
      rw [consumeAny_payload h3, andSlide_append, ih hs.2]
      · simp; omega
      · intro w' hw'
        exact hs.1 _ (by simp; exact ⟨w', hw', rfl⟩)
      · omega

/-- Well-formed fields with increasing numbers above those of the struct may follow its fields. -/
theorem tailOk_wire {ws : List WField} {bz : Bytes} {N : Nat} (h : Wire ws bz)
    (hs : (ws.map WField.num).Pairwise (· < ·)) (hN : ∀ w ∈ ws, N < w.num) : TailOk N bz where
  starts := by
    cases h with
    | nil => exact .inl rfl
    | @cons w ws bz h1 h2 h3 h4 =>
      refine .inr ⟨(varint (8 * w.num + w.typ)).length, w.num, w.typ, ?_, hN w (by simp)⟩
      rw [List.append_assoc]
      exact decodeKey_varint _ _ h2 (payload_typ h3) _
  consume := by
    intro last n hl
    exact consumeRest_wire h hs (fun w hw => by have := hN w hw; omega) (Nat.le_refl _)

/-! ## Structs followed by unknown fields -/

section
variable {Γ : Prog} {c : Codec} {S : TId → FOpts → Prop}

theorem dec_listRT (hU : Universe Γ c S) (hZ : ZeroOk Γ) (hT : Γ.Typed) {f g : Nat} (hg : 2 * f + 1 ≤ g) :
    ListRT Γ c S (blank Γ f) (norm Γ c f) (enc Γ c f) (dec Γ c g) := by
  obtain ⟨g, rfl⟩ : ∃ k, g = k + 1 := ⟨g - 1, by omega⟩
  have hp : RecPtr Γ (dec Γ c g) := by
    intro t fo bare bz hn
    cases g with
    | zero => simp [dec]
    | succ g => exact decBody_ptr hn fo bare bz
  exact decBody_list (enc_dec hU hZ hT f g (by omega)) hp (enc_lead hU hT f) hT.zero hU hZ

theorem norm_struct {id : TId} {fs : List Field} {vs : List Val} {fo : FOpts} {w : Val} {f : Nat}
    (hs : Γ.shape id = .struct fs) (hm : Γ.marsh id = none) (hw : norm Γ c (f + 1) id (.struct vs) fo = some w) :
    ∃ ws, normFields Γ (blank Γ f) (norm Γ c f) 0 fs vs = some ws ∧ w = .struct ws := by
  unfold norm at hw
  rw [hm] at hw
  simp only at hw
  unfold normShape at hw
  rw [hs] at hw
  simp only [Option.map_eq_some_iff] at hw
  obtain ⟨ws, h1, h2⟩ := hw
  exact ⟨ws, h1, h2.symm⟩

theorem enc_struct {id : TId} {fs : List Field} {v : Val} {fo : FOpts} {b : Bytes} {f : Nat}
    (hs : Γ.shape id = .struct fs) (hm : Γ.marsh id = none) (ht : HasTy Γ (.base id) v)
    (h : enc Γ c f id v fo true = .ok b) :
    ∃ k vs, f = k + 1 ∧ v = .struct vs ∧ FieldsTy Γ fs vs ∧ encFields Γ c (enc Γ c k) 0 fs vs = .ok b := by
  cases f with
  | zero => simp [enc] at h
  | succ k =>
    unfold enc encBody at h
    rw [hm] at h
    simp only at h
    unfold encShape at h
    rw [hs] at h
    simp only at h
    cases ht with
    | @struct _ fs' vs hs' h1 h2 =>
      rw [hs] at hs'; cases hs'
      obtain ⟨p, hp, h⟩ := Res.bind_eq_ok h
      simp [framed] at h
      subst h
      exact ⟨k, vs, rfl, rfl, ⟨h1, h2⟩, hp⟩
    | _ => simp_all

/-- A struct followed by unknown fields. -/
theorem dec_fields_tail (hU : Universe Γ c S) (hZ : ZeroOk Γ) (hT : Γ.Typed) {id : TId} {fs : List Field}
    {vs ws : List Val} {fo : FOpts} {b tail : Bytes} {f g : Nat} (hS : S id fo) (hs : Γ.shape id = .struct fs)
    (hm : Γ.marsh id = none) (ht : FieldsTy Γ fs vs) (he : encFields Γ c (enc Γ c f) 0 fs vs = .ok b)
    (hl : b.length < 2 ^ 63) (htail : TailOk (lastNum 0 fs) tail)
    (hw : normFields Γ (blank Γ f) (norm Γ c f) 0 fs vs = some ws) (hg : 2 * f + 2 ≤ g) :
    dec Γ c g (.base id) (Γ.zero id) fo true (b ++ tail) = .ok (b.length + tail.length) (.struct ws) := by
  obtain ⟨g, rfl⟩ : ∃ k, g = k + 1 := ⟨g - 1, by omega⟩
  unfold dec decBody
  rw [if_neg (by simp [Ty.isPtr])]
  simp only [Ty.deref, Prog.derefPrior, hU.noMarsh hS hm]
  unfold decShape
  rw [hs]
  simp only [unframe, if_true]
  rw [hZ.struct hs]
  simp only
  have hp : RecPtr Γ (dec Γ c g) := by
    intro t fo bare bz hn
    cases g with
    | zero => simp [dec]
    | succ g => exact decBody_ptr hn fo bare bz
  rw [decFields_rt (enc_dec hU hZ hT f g (by omega)) hp (enc_lead hU hT f) (dec_listRT hU hZ hT (by omega)) hT.zero hU hZ
    (hU.struct hS hs hm) ht he hl (Nat.le_refl _) htail hw]
  simp [wrapTy]

theorem encFields_append {rec : TId → Val → FOpts → Bool → Res Bytes} {fs gs : List Field} {vs us : List Val} {num : Nat}
    {b : Bytes} (hlen : fs.length = vs.length) (h : encFields Γ c rec num (fs ++ gs) (vs ++ us) = .ok b) :
    ∃ b1 b2, encFields Γ c rec num fs vs = .ok b1 ∧ encFields Γ c rec (lastNum num fs) gs us = .ok b2 ∧ b = b1 ++ b2 := by
  induction fs generalizing num vs b with
  | nil =>
    cases vs with
    | nil => exact ⟨[], b, rfl, h, rfl⟩
    | cons => simp at hlen
  | cons f fs ih =>
    cases vs with
    | nil => simp at hlen
    | cons v vs =>
      simp only [List.length_cons, Nat.add_right_cancel_iff] at hlen
      simp only [List.cons_append, encFields] at h
      simp only [encFields, lastNum]
      cases hv : f.visible with
      | false =>
        rw [hv] at h
        simp only [Bool.not_false, if_true, Bool.false_eq_true, if_false] at h ⊢
        exact ih hlen h
      | true =>
        rw [hv] at h
        simp only [Bool.not_true, Bool.false_eq_true, if_false, if_true] at h ⊢
        obtain ⟨b0, hb0, h⟩ := Res.bind_eq_ok h
        obtain ⟨b', hb', h⟩ := Res.bind_eq_ok h
        simp only [Res.ok.injEq] at h
        obtain ⟨b1, b2, h1, h2, h3⟩ := ih hlen hb'
        exact ⟨b0 ++ b1, b2, by rw [hb0, h1]; rfl, h2, by rw [← h, h3, List.append_assoc]⟩

theorem fieldsOk_append {fs gs : List Field} {num : Nat} (h : FieldsOk Γ S num (fs ++ gs)) :
    FieldsOk Γ S num fs ∧ FieldsOk Γ S (lastNum num fs) gs := by
  induction fs generalizing num with
  | nil => exact ⟨trivial, h⟩
  | cons f fs ih =>
    simp only [List.cons_append, FieldsOk] at h
    simp only [FieldsOk, lastNum]
    cases hv : f.visible with
    | false => rw [hv] at h; simp at h ⊢; exact ih h
    | true => rw [hv] at h; simp at h ⊢; exact ⟨⟨h.1, (ih h.2).1⟩, (ih h.2).2⟩

end

/-! ## Chunks -/

section
variable {Γ : Prog} {c : Codec} {S : TId → FOpts → Prop}
  {rec : TId → Val → FOpts → Bool → Res Bytes} {bl : TId → Val → FOpts → Bool}

theorem encFields_chunks (hr : RecLead Γ S bl rec) (hz : ∀ id, HasTy Γ (.base id) (Γ.zero id)) {num : Nat}
    {fs : List Field} {vs : List Val} {b : Bytes} (hf : FieldsOk Γ S num fs) (ht : FieldsTy Γ fs vs)
    (h : encFields Γ c rec num fs vs = .ok b) (hl : b.length < 2 ^ 63) :
    ∃ cs, Chunks Γ bl num fs vs cs ∧ b = cs.flatten := by
  induction fs generalizing num vs b with
  | nil =>
    cases vs with
    | nil => simp [encFields] at h; subst h; exact ⟨[], .nil, rfl⟩
    | cons => simp [encFields] at h
  | cons f fs ih =>
    cases vs with
    | nil => simp [encFields] at h
    | cons v vs =>
      have ht' := fieldsTy_cons.mp ht
      unfold encFields at h
      unfold FieldsOk at hf
      cases hv : f.visible with
      | false =>
        rw [hv] at h hf
        simp at h hf
        obtain ⟨cs, h1, h2⟩ := ih hf ht'.2 h hl
        exact ⟨cs, .hidden hv h1, h2⟩
      | true =>
        rw [hv] at h hf
        simp only [Bool.not_true, Bool.false_eq_true, if_false, if_true] at h hf
        obtain ⟨b1, hb1, h⟩ := Res.bind_eq_ok h
        obtain ⟨b2, hb2, h⟩ := Res.bind_eq_ok h
        simp only [Res.ok.injEq] at h
        subst h
        rw [List.length_append] at hl
        obtain ⟨cs, h1, h2⟩ := ih hf.2 ht'.2 hb2 (by omega)
        have hom := encField_nil hr hz hf.1 ht'.1 hb1 (by omega)
        cases ho : omits Γ bl f (num + 1) v with
        | true =>
          have := hom.mpr ho
          subst this
          exact ⟨_, .omitted hv ho h1, by simp [h2]⟩
        | false =>
          rcases encField_form hb1 with rfl | ⟨ty, p, rfl, hty, _⟩
          · rw [hom.mp rfl] at ho; cases ho
          · exact ⟨_, .present (p := p) hv ho hty h1, by simp [h2]⟩

end

end Amino
