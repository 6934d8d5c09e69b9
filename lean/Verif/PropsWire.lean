import Verif.WireLemmas
import Verif.PropsRT

/-! # Properties C22, C24, C41: what is on the wire -/

namespace Amino
open Spec

variable {Γ : Prog} {c : Codec} {S : TId → FOpts → Prop}

/-- The prefix bytes of a type: those of its registration, if any. -/
def Spec.prefixOf (c : Codec) (id : TId) : Bytes :=
  match c.conc? id with
  | some ci => ci.prefx
  | none => []

theorem structOrRep_struct {id : TId} {fs : List Field} (hs : Γ.shape id = .struct fs) : Γ.structOrRep id = true := by
  unfold Prog.structOrRep; rw [hs]

/-- The parts of a successful MarshalBinaryBare of a struct. -/
theorem marshalBare_fields {f : Nat} {t : Ty} {v : Val} {bz : Bytes} {fs : List Field} (hs : Γ.shape t.deref = .struct fs)
    (hm : Γ.marsh t.deref = none) (ht : HasTy Γ t v) (h : marshalBare Γ c f t v = .ok bz) :
    ∃ k vs b, f = k + 1 ∧ pointee t v = some (.struct vs) ∧ FieldsTy Γ fs vs ∧ getInfo Γ c t.deref = .ok () ∧
      encFields Γ c (enc Γ c k) 0 fs vs = .ok b ∧ bz = prefixOf c t.deref ++ b := by
  obtain ⟨dv, b, hd, hi, he, rfl⟩ := marshalBare_struct (structOrRep_struct hs) h
  obtain ⟨k, vs, rfl, rfl, hft, he⟩ := enc_struct hs hm (hasTy_derefVal ht hd) he
  exact ⟨k, vs, b, rfl, by rw [pointee_eq, hd], hft, hi, he, rfl⟩

/-- C24: the encoding of a struct is the prefix bytes followed by one chunk per encoded field; the chunk of a
field is empty exactly if the field is omitted by the rule `omits`. -/
theorem C24_chunks (hU : Universe Γ c S) (hT : Γ.Typed) {f : Nat} {t : Ty} {v : Val} {bz : Bytes} {fs : List Field}
    (hs : Γ.shape t.deref = .struct fs) (hm : Γ.marsh t.deref = none) (hS : S t.deref { fnum := 1 }) (ht : HasTy Γ t v)
    (h : marshalBare Γ c f t v = .ok bz) (hl : bz.length < 2 ^ 63) :
    ∃ vs cs, pointee t v = some (.struct vs) ∧ Chunks Γ (blank Γ (f - 1)) 0 fs vs cs ∧
      bz = prefixOf c t.deref ++ cs.flatten := by
  obtain ⟨k, vs, b, rfl, hp, hft, _, he, rfl⟩ := marshalBare_fields hs hm ht h
  rw [List.length_append] at hl
  obtain ⟨cs, h1, h2⟩ := encFields_chunks (enc_lead hU hT k) hT.zero (hU.struct hS hs hm) hft he (by omega)
  exact ⟨vs, cs, hp, h1, by rw [h2]⟩

/-- C24: nothing but the prefix bytes is written exactly if every field is omitted. -/
theorem C24_empty (hU : Universe Γ c S) (hT : Γ.Typed) {f : Nat} {t : Ty} {v : Val} {bz : Bytes} {fs : List Field}
    {vs : List Val} (hs : Γ.shape t.deref = .struct fs) (hm : Γ.marsh t.deref = none) (hS : S t.deref { fnum := 1 })
    (ht : HasTy Γ t v) (hp : pointee t v = some (.struct vs)) (h : marshalBare Γ c f t v = .ok bz)
    (hl : bz.length < 2 ^ 63) :
    bz = prefixOf c t.deref ↔ allOmitted Γ (blank Γ (f - 1)) 0 fs vs = true := by
  obtain ⟨k, vs', b, rfl, hp', hft, _, he, rfl⟩ := marshalBare_fields hs hm ht h
  rw [hp] at hp'; cases hp'
  rw [List.length_append] at hl
  rw [Nat.add_sub_cancel, ← encFields_nil (enc_lead hU hT k) hT.zero (hU.struct hS hs hm) hft he (by omega)]
  simp

/-- `Sub{0, false}` is written as nothing, `Sub{0, true}` is not. -/
example : allOmitted Demo.prog (blank Demo.prog 4) 0 [{ ty := .base Demo.int32T }, { ty := .base Demo.boolT }]
      [.int 0, .bool false] = true ∧
    marshalBare Demo.prog Demo.codecFoo 5 (.base Demo.subT) (.struct [.int 0, .bool false]) = .ok [] ∧
    marshalBare Demo.prog Demo.codecFoo 5 (.base Demo.subT) (.struct [.int 0, .bool true]) = .ok [16, 1] := by
  decide +kernel

example : ∃ vs cs, pointee (.base Demo.msgT) Demo.msg = some (.struct vs) ∧
    Chunks Demo.prog (blank Demo.prog 4) 0 Demo.msgFields vs cs ∧ Demo.msgBytes = cs.flatten :=
  C24_chunks Demo.univ_foo Demo.prog_typed rfl rfl Demo.S_msg Demo.msg_typed Demo.msg_marshal (by decide)

/-- C41: after the prefix bytes, the encoding of a struct is a sequence of well-formed protobuf fields with
non-decreasing numbers between 1 and the number of encoded fields.  Overrides are allowed if they keep the
wire type. -/
theorem C41_wire (hU : Universe Γ c S) (hT : Γ.Typed) (hM : SameWire Γ S) {f : Nat} {t : Ty} {v : Val} {bz : Bytes}
    {fs : List Field} (hs : Γ.shape t.deref = .struct fs) (hm : Γ.marsh t.deref = none) (hS : S t.deref { fnum := 1 })
    (ht : HasTy Γ t v) (h : marshalBare Γ c f t v = .ok bz) (hl : bz.length < 2 ^ 63) :
    ∃ ws b, bz = prefixOf c t.deref ++ b ∧ Wire ws b ∧ (ws.map WField.num).Pairwise (· ≤ ·) ∧
      ∀ w ∈ ws, 1 ≤ w.num ∧ w.num ≤ fieldCount fs := by
  obtain ⟨k, vs, b, rfl, hp, hft, _, he, rfl⟩ := marshalBare_fields hs hm ht h
  rw [List.length_append] at hl
  obtain ⟨ws, h1, h2, h3, _⟩ := encFields_wire hU hT hM (hU.struct hS hs hm) hft he (by omega)
  exact ⟨ws, b, rfl, h1, h2, by intro w hw; have := h3 w hw; omega⟩

/-- C41: such a byte string is a sequence of fields in one way only, without any schema. -/
theorem C41_split_unique {ws ws' : List WField} {bz : Bytes} (h : Wire ws bz) (h' : Wire ws' bz) : ws = ws' :=
  wire_unique h h'

theorem Demo.sameWire : SameWire Demo.prog Demo.S := by
  intro id fo rid m _ h
  simp [Demo.prog] at h

example : ∃ ws b, Demo.msgBytes = b ∧ Wire ws b ∧ (ws.map WField.num).Pairwise (· ≤ ·) ∧
    ∀ w ∈ ws, 1 ≤ w.num ∧ w.num ≤ 7 :=
  C41_wire Demo.univ_foo Demo.prog_typed Demo.sameWire (fs := Demo.msgFields) rfl rfl Demo.S_msg Demo.msg_typed
    Demo.msg_marshal (by decide)

/-- C22 for encoded messages: well-formed fields with strictly increasing numbers above those of the struct
may be appended to its encoding; the decoder skips them.

Missing for the full statement: messages `bz` that were not written by the encoder; there the claim is
false, see `C22_acceptedBytes_refuted`. -/
theorem C22_extraFields_partial (hU : Universe Γ c S) (hZ : ZeroOk Γ) (hT : Γ.Typed) (hum : UserTotal Γ) (hp4 : Prefix4 c)
    {t t' : Ty} {v : Val} {bz extra : Bytes} {ws : List WField} {f g : Nat} {fs : List Field}
    (hs : Γ.shape t.deref = .struct fs) (hm : Γ.marsh t.deref = none)
    (hS : S t.deref { fnum := 1 }) (ht : HasTy Γ t v) (h : marshalBare Γ c f t v = .ok bz)
    (hl : bz.length < 2 ^ 63) (hg : 2 * f ≤ g) (htt : t'.deref = t.deref)
    (hx : Wire ws extra) (hinc : (ws.map WField.num).Pairwise (· < ·)) (habove : ∀ w ∈ ws, fieldCount fs < w.num) :
    ∃ w, roundTrip Γ c f t v = some w ∧
      unmarshalBare Γ c g t' (Γ.zeroTy t') bz = .ok (refs t' w) ∧
      unmarshalBare Γ c g t' (Γ.zeroTy t') (bz ++ extra) = .ok (refs t' w) := by
  have hst := structOrRep_struct hs
  obtain ⟨w, hw, _, hu⟩ := C11_roundTrip hU hZ hT hum hp4 hst hS ht h hl hg htt
  refine ⟨w, hw, hu, ?_⟩
  obtain ⟨k, vs, b, rfl, hp, hft, hi, he, rfl⟩ := marshalBare_fields hs hm ht h
  rw [List.length_append] at hl
  unfold roundTrip at hw
  rw [hp] at hw
  obtain ⟨ws', hn, rfl⟩ := norm_struct hs hm hw
  have htail : TailOk (lastNum 0 fs) extra := tailOk_wire hx hinc (by rw [lastNum_count]; simpa using habove)
  have hd := dec_fields_tail hU hZ hT hS hs hm hft he (by omega) htail hn (by omega : 2 * k + 2 ≤ g)
  have hni := structOrRep_notIface hst
  rw [← htt] at hi hst hni hd ⊢
  have := unmarshalBare_struct (g := g) (p := Γ.zeroTy t') (b := b ++ extra) hst hp4 hi
  rw [List.append_assoc]
  unfold prefixOf
  refine this.trans ?_
  unfold decodeAll
  rw [dec_ptr (by omega) _ _ _ _ (noIfacePtr_of hni), hd]
  simp [refs_eq]

/-- `Demo.msg` followed by an unknown string field 9 and an unknown fixed32 field 20. -/
example : unmarshalBare Demo.prog Demo.codecFoo 10 (.base Demo.msgT) (Demo.prog.zero Demo.msgT)
    (Demo.msgBytes ++ [74, 2, 5, 6, 165, 1, 1, 2, 3, 4]) = .ok Demo.msgBack := by
  have hx : Wire [⟨9, 2, [2, 5, 6]⟩, ⟨20, 5, [1, 2, 3, 4]⟩] [74, 2, 5, 6, 165, 1, 1, 2, 3, 4] := by
    have h1 := Spec.Wire.single (num := 20) (by omega) (by omega) (Payload.fixed32 (b := [1, 2, 3, 4]) rfl)
    have h2 := Spec.Wire.single (num := 9) (by omega) (by omega) (Payload.bytes (b := [5, 6]) (by simp))
    have := h2.append h1
    simpa [varint] using this
  obtain ⟨w, hw, _, hu⟩ := C22_extraFields_partial Demo.univ_foo Demo.prog_zero Demo.prog_typed Demo.user_total
    Demo.prefix4_foo (t' := .base Demo.msgT) rfl rfl Demo.S_msg Demo.msg_typed Demo.msg_marshal (by decide) (g := 10) (by omega)
    rfl hx (by simp) (by simp [fieldCount, Demo.msgFields])
  rw [show roundTrip Demo.prog Demo.codecFoo 5 (.base Demo.msgT) Demo.msg = some Demo.msgBack by decide +kernel] at hw
  cases hw
  exact hu

/-- C22, schema evolution: a message written by a newer version of an (unregistered) struct type, with fields
appended that are not repeated lists, is read by the older version as if the appended fields did not exist. -/
theorem C22_appendedFields (hU : Universe Γ c S) (hZ : ZeroOk Γ) (hT : Γ.Typed) (hum : UserTotal Γ) (hp4 : Prefix4 c)
    (hM : SameWire Γ S) {old new : TId} {fs gs : List Field} {vs us : List Val} {bz : Bytes} {f g : Nat}
    (hso : Γ.shape old = .struct fs) (hsn : Γ.shape new = .struct (fs ++ gs)) (hmo : Γ.marsh old = none)
    (hmn : Γ.marsh new = none) (hSo : S old { fnum := 1 }) (hSn : S new { fnum := 1 }) (hco : c.conc? old = none)
    (hcn : c.conc? new = none) (hgs : ∀ fld ∈ gs, repeated Γ fld = false) (hlen : fs.length = vs.length)
    (ht : HasTy Γ (.base new) (.struct (vs ++ us))) (h : marshalBare Γ c f (.base new) (.struct (vs ++ us)) = .ok bz)
    (hl : bz.length < 2 ^ 63) (hg : 2 * f ≤ g) :
    ∃ w, roundTrip Γ c f (.base old) (.struct vs) = some w ∧ unmarshalBare Γ c g (.base old) (Γ.zero old) bz = .ok w := by
  obtain ⟨k, vs', b, rfl, hp, hft, hi, he, rfl⟩ := marshalBare_fields hsn hmn ht h
  simp only [pointee, Option.some.injEq, Val.struct.injEq] at hp
  subst hp
  have hp0 : prefixOf c (Ty.base new).deref = [] := by unfold prefixOf; simp only [Ty.deref, hcn]
  rw [hp0, List.nil_append] at hl ⊢
  obtain ⟨b1, b2, he1, he2, rfl⟩ := encFields_append hlen he
  rw [List.length_append] at hl
  have hfo : FieldsTy Γ fs vs ∧ FieldsTy Γ gs us := by
    obtain ⟨hl1, h2⟩ := hft
    rw [List.zip_append hlen] at h2
    simp only [List.length_append] at hl1
    exact ⟨⟨hlen, fun p hp => h2 p (by simp [hp])⟩, ⟨by omega, fun p hp => h2 p (by simp [hp])⟩⟩
  obtain ⟨_, hok2⟩ := fieldsOk_append (hU.struct hSn hsn hmn)
  obtain ⟨ws, hw1, _, hw3, hw4⟩ := encFields_wire hU hT hM hok2 hfo.2 he2 (by omega)
  have htail : TailOk (lastNum 0 fs) b2 := tailOk_wire hw1 (hw4 hgs) (fun w hw => (hw3 w hw).1)
  have hto : HasTy Γ (.base old) (.struct vs) := .struct hso hfo.1.1 hfo.1.2
  have hmo' : marshalBare Γ c (k + 1) (.base old) (.struct vs) = .ok b1 := by
    unfold marshalBare
    simp only [derefVal, Ty.deref, structOrRep_struct hso, Bool.not_true, Bool.false_eq_true, if_false, hco,
      getInfo_ok hU hSo, Res.bind_ok]
    unfold enc encBody
    rw [hmo]
    simp only
    unfold encShape
    rw [hso]
    simp only [he1, Res.bind_ok, framed, if_true]
  obtain ⟨w, hw, _, _⟩ := C11_roundTrip hU hZ hT hum hp4 (t := .base old) (t' := .base old) (structOrRep_struct hso) hSo hto hmo' (by omega) hg rfl
  refine ⟨w, hw, ?_⟩
  unfold roundTrip at hw
  simp only [pointee, Option.bind_some, Ty.deref] at hw
  obtain ⟨ws', hn, rfl⟩ := norm_struct hso hmo hw
  have hd := dec_fields_tail hU hZ hT hSo hso hmo hfo.1 he1 (by omega) htail hn (by omega : 2 * k + 2 ≤ g)
  have := unmarshalBare_struct (g := g) (t := .base old) (p := Γ.zero old) (b := b1 ++ b2) (structOrRep_struct hso) hp4
    (getInfo_ok hU hSo)
  simp only [Ty.deref, hco, List.nil_append] at this
  rw [this]
  unfold decodeAll
  rw [hd]
  simp

/-- `Sub2{5, true, "hi"}` read as `Sub`. -/
example : ∃ w, roundTrip Demo.prog Demo.codecFoo 5 (.base Demo.subT) (.struct [.int 5, .bool true]) = some w ∧
    unmarshalBare Demo.prog Demo.codecFoo 10 (.base Demo.subT) (Demo.prog.zero Demo.subT) [8, 5, 16, 1, 26, 2, 104, 105] =
      .ok w := by
  have ht : HasTy Demo.prog (.base Demo.sub2T) (.struct ([.int 5, .bool true] ++ [.str [104, 105]])) := by
    refine .struct (fs := _) rfl rfl ?_
    simp
    exact ⟨.int rfl (by decide), .bool rfl, .str rfl⟩
  exact C22_appendedFields Demo.univ_foo Demo.prog_zero Demo.prog_typed Demo.user_total Demo.prefix4_foo Demo.sameWire
    (fs := [{ ty := .base Demo.int32T }, { ty := .base Demo.boolT }]) (gs := [{ ty := .base Demo.stringT }]) (new := Demo.sub2T)
    rfl rfl rfl rfl (show Demo.supported Demo.subT = true by decide) (show Demo.supported Demo.sub2T = true by decide)
    (by decide) (by decide) (by decide) rfl ht (by decide +kernel) (by decide) (by omega)

/-- C22 is false for repeated fields appended to a struct: an older reader rejects a list with two entries
(`Sub` has two fields; field 3 occurs twice). -/
theorem C22_repeatedExtra_rejected :
    Wire [⟨3, 2, [1, 5]⟩, ⟨3, 2, [1, 6]⟩] [26, 1, 5, 26, 1, 6] ∧
    unmarshalBare Demo.prog Demo.codecFoo 10 (.base Demo.subT) (Demo.prog.zero Demo.subT) [8, 3] =
      .ok (.struct [.int 3, .bool false]) ∧
    unmarshalBare Demo.prog Demo.codecFoo 10 (.base Demo.subT) (Demo.prog.zero Demo.subT)
      ([8, 3] ++ [26, 1, 5, 26, 1, 6]) = .err .fieldOrder := by
  refine ⟨?_, by decide +kernel, by decide +kernel⟩
  have h1 := Spec.Wire.single (num := 3) (by omega) (by omega) (Payload.bytes (b := [5]) (by simp))
  have h2 := Spec.Wire.single (num := 3) (by omega) (by omega) (Payload.bytes (b := [6]) (by simp))
  have := h1.append h2
  simpa [varint] using this

/-- C22 is false for arbitrary accepted messages: the lone key of a `[]byte` field is accepted (as nil), but
with an unknown field appended it is not. -/
theorem C22_acceptedBytes_refuted :
    Wire [⟨8, 0, [1]⟩] [64, 1] ∧
    unmarshalBare Demo.prog Demo.codecFoo 10 (.base Demo.msgT) (Demo.prog.zero Demo.msgT) [26] =
      .ok (.struct [.int 0, .str [], .nil, .nil, .nil, .nil, .time 0 0]) ∧
    unmarshalBare Demo.prog Demo.codecFoo 10 (.base Demo.msgT) (Demo.prog.zero Demo.msgT) ([26] ++ [64, 1]) =
      .err .insufficient := by
  refine ⟨?_, by decide +kernel, by decide +kernel⟩
  have h1 := Spec.Wire.single (num := 8) (by omega) (by omega) (Payload.varint (n := 1) (by omega))
  simpa [varint] using h1

end Amino
