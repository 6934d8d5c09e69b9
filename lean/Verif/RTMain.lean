import Verif.RTFields
import Verif.FuelMono

/-!
# The binary round trip: interfaces and the main induction
-/

namespace Amino
open Spec

section
variable {Γ : Prog} {c : Codec} {S : TId → FOpts → Prop}
  {rec : TId → Val → FOpts → Bool → Res Bytes} {bl : TId → Val → FOpts → Bool}
  {nm : TId → Val → FOpts → Option Val} {rd : Ty → Val → FOpts → Bool → Bytes → DRes Val}

theorem decodeDisambPrefix_long {d p b : Bytes} (hd : d.length = 3) (hp : p.length = 4) :
    decodeDisambPrefix (0 :: d ++ p ++ b) = .ok 8 (some d, p) := by
  match d, p, hd, hp with
  | [d1, d2, d3], [p1, p2, p3, p4], _, _ =>
    simp [decodeDisambPrefix]
    rw [if_neg (by omega), if_neg (by omega)]

theorem decodeDisambPrefix_short {p b : Bytes} (hp : p.length = 4) (h0 : p.head? ≠ some 0) :
    decodeDisambPrefix (p ++ b) = .ok 4 (none, p) := by
  match p, hp with
  | [p1, p2, p3, p4], _ =>
    simp at h0
    simp [decodeDisambPrefix, h0]

theorem mem_filter_single {l : List ConcInfo} {ci : ConcInfo} (hm : ci ∈ l) (hl : ¬ l.length > 1) : l = [ci] := by
  match l, hm with
  | [x], hm => simp at hm; rw [hm]
  | _ :: _ :: _, _ => simp at hl

theorem unframe_framed_all {bare : Bool} {p b rest : Bytes} (h : framed bare p = .ok b) (hl : b.length < 2 ^ 63) :
    ∃ n, n + p.length = b.length ∧ p.length < 2 ^ 63 ∧
      ∀ k : Bytes → Nat → DRes Val, unframe bare (b ++ rest) k = k (if bare then p ++ rest else p) n := by
  obtain ⟨n, h1, h2, _⟩ := unframe_framed (rest := rest) (k := fun _ _ => (DRes.oof : DRes Val)) h hl
  refine ⟨n, h1, h2, fun k => ?_⟩
  obtain ⟨n', h1', _, h3⟩ := unframe_framed (rest := rest) (k := k) h hl
  rw [h3, show n' = n by omega]

theorem decIface_rt (h : RecRT Γ S nm rec rd) (hU : Universe Γ c S) {id : TId} {v w : Val} {fo : FOpts} {bare : Bool}
    {b rest : Bytes} (hS : S id fo) (hs : Γ.shape id = .iface) (ht : HasTy Γ (.base id) v) (hnn : v ≠ .nil)
    (he : encIface Γ c rec id v fo bare = .ok b) (hl : b.length < 2 ^ 63) (hr : bare = true → rest = [])
    (hw : normShape Γ c bl nm id v fo = some w) :
    decIface Γ c rd id .nil fo bare (b ++ rest) = .ok b.length w := by
  unfold encIface at he
  split at he
  · exact absurd rfl hnn
  · rename_i t cv
    split at he
    · simp at he
    · rename_i crv hcrv
      split at he
      · simp at he
      obtain ⟨_, _, he⟩ := Res.bind_eq_ok he
      split at he
      · simp at he
      rename_i ci hci
      split at he
      · simp at he
      rename_i ii hii
      obtain ⟨b0, hb0, he⟩ := Res.bind_eq_ok he
      have himp : Γ.implements t id = true ∧ HasTy Γ t cv := by
        cases ht with
        | iface _ h2 h3 => exact ⟨h2, h3⟩
      have hmem := (hU.iface hS hs hii).1 t ci himp.1 hci
      have hok := (hU.iface hS hs hii).2 ci hmem
      have htid := conc_mem hci
      unfold normShape at hw
      rw [hs] at hw
      simp only [pointee_eq, hcrv, hci, Option.map_eq_some_iff] at hw
      obtain ⟨w0, hw0, hw⟩ := hw
      have hdt := hasTy_derefVal himp.2 hcrv
      unfold decIface
      rw [hii]
      simp only
      obtain ⟨n, hn1, hpl, hun⟩ := unframe_framed_all (rest := rest) he hl
      rw [hun]
      have hin : ∀ p : Bytes, (if bare = true then p ++ rest else p) = p := by
        intro p
        cases bare with
        | false => rfl
        | true => simp [hr rfl]
      rw [hin]
      have hbl : b0.length < 2 ^ 63 := by
        rw [List.length_append] at hpl; omega
      have hrd := h t.deref crv fo true b0 [] w0 (htid ▸ hok.type) hdt
        (by rw [← htid, hok.notIface]; simp) hb0 hbl (by simp) hw0
      rw [List.append_nil, ← htid] at hrd
      have hck : ∀ {α : Type} (n : Nat) (k : Bytes → Nat → DRes α), concKey Γ ci.tid fo b0 n k = k b0 n := by
        intro α n k
        unfold concKey
        rw [if_neg]
        intro hh
        simp only [Bool.and_eq_true, Bool.not_eq_true', beq_iff_eq] at hh
        rw [hok.shape hh.2] at hh
        exact absurd hh.1.1.1.1 (by simp)
      have hfin : (Val.iface ci.dynTy (wrapTy ci.dynTy w0)) = w := by
        rw [← hw]
        unfold ConcInfo.dynTy
        split <;> rfl
      have hass : Γ.implements ci.dynTy id = true := by unfold ConcInfo.dynTy; exact hok.assignable
      have hpre : ∃ dp pre, decodeDisambPrefix ((if (ii.always || decide ((ii.withPrefix ci.prefx).length > 1)) = true then
            0 :: ci.disamb else []) ++ ci.prefx ++ b0) = .ok (List.length pre) dp ∧
          pre = (if (ii.always || decide ((ii.withPrefix ci.prefx).length > 1)) = true then
            0 :: ci.disamb else []) ++ ci.prefx ∧ lookupConc c ii dp = .ok ci := by
        by_cases hc : (ii.always || decide ((ii.withPrefix ci.prefx).length > 1)) = true
        · rw [if_pos hc]
          refine ⟨(some ci.disamb, ci.prefx), 0 :: ci.disamb ++ ci.prefx, ?_, rfl, ?_⟩
          · rw [decodeDisambPrefix_long hok.disambLen hok.prefixLen]
            simp [hok.disambLen, hok.prefixLen]
          · unfold lookupConc
            simp only
            rw [hok.disfix]
        · rw [if_neg hc]
          refine ⟨(none, ci.prefx), ci.prefx, ?_, rfl, ?_⟩
          · rw [List.nil_append, decodeDisambPrefix_short hok.prefixLen hok.prefixHead, hok.prefixLen]
          · unfold lookupConc
            simp only
            have : ii.withPrefix ci.prefx = [ci] := by
              refine mem_filter_single ?_ ?_
              · unfold IfaceInfo.withPrefix; simp [hmem]
              · intro hh; apply hc; simp [hh]
            rw [this]
      obtain ⟨dp, pre, hdp, hpre, hlk⟩ := hpre
      rw [hdp, ← hpre, andSlide_append, hlk]
      simp only
      rw [hck, hrd]
      simp only [Nat.le_refl, if_true, List.drop_length, List.length_nil, Nat.lt_irrefl, if_false]
      rw [if_pos hass, hfin]
      rw [← hpre, List.length_append] at hn1
      congr 1
      omega
  · simp at he

/-! ## Primitive kinds -/

theorem encInt_rt {k : IntKind} {fo : FOpts} {i : Int} {b : Bytes} (hr : k.inRange i) (h : encInt k fo i = .ok b)
    (rest : Bytes) : decInt k fo (b ++ rest) = .ok b.length i := by
  have uv : encodeUvarint (u64OfInt i) = .ok b → decodeUvarint (b ++ rest) = .ok b.length (u64OfInt i) := by
    intro he
    rw [encodeUvarint_eq] at he
    simp at he
    rw [← he, decodeUvarint_varint _ (u64OfInt i).toNat_lt]
    simp
  have hnat : 0 ≤ i → i < 2 ^ 64 → ((u64OfInt i).toNat : Int) = i := by
    intro h1 h2
    rw [u64OfInt_toNat]; omega
  cases k <;> simp only [IntKind.inRange, IntKind.signed, IntKind.bits, if_true, if_false, Bool.false_eq_true] at hr <;>
    unfold encInt at h <;> unfold decInt <;> simp only at h ⊢
  · obtain ⟨b', h1, h2⟩ := C02_int8_roundtrip i (by omega) rest
    rw [h] at h1; cases h1
    rw [h2, andSlide_append]; simp
  · obtain ⟨b', h1, h2⟩ := C02_int16_roundtrip i (by omega) rest
    rw [h] at h1; cases h1
    rw [h2, andSlide_append]; simp
  · cases hf : fo.fixed32 <;> simp only [hf, if_true, if_false, Bool.false_eq_true] at h ⊢
    · rw [uv h, andSlide_append, intOfU64_u64OfInt _ (by omega) (by omega), if_neg (by omega)]; simp
    · obtain ⟨b', h1, h3, h2⟩ := C05_int32_roundtrip i (by omega) rest
      rw [h] at h1; cases h1
      rw [← h3] at h2
      rw [h2, andSlide_append]; simp
  · cases hf : fo.fixed64 <;> simp only [hf, if_true, if_false, Bool.false_eq_true] at h ⊢
    · rw [uv h, andSlide_append, intOfU64_u64OfInt _ (by omega) (by omega)]; simp
    · obtain ⟨b', h1, h3, h2⟩ := C05_int64_roundtrip i (by omega) rest
      rw [h] at h1; cases h1
      rw [← h3] at h2
      rw [h2, andSlide_append]; simp
  · rw [uv h, andSlide_append, intOfU64_u64OfInt _ (by omega) (by omega), if_neg (by omega)]; simp
  · have := uv h
    have hn := hnat (by omega) (by omega)
    unfold decodeUint8
    rw [this]
    simp only
    rw [if_neg (by rw [gt_iff_lt, UInt64.lt_iff_toNat_lt, show (255 : UInt64).toNat = 255 from rfl]; omega), andSlide_append, hn]; simp
  · have := uv h
    have hn := hnat (by omega) (by omega)
    unfold decodeUint16
    rw [this]
    simp only
    rw [if_neg (by rw [gt_iff_lt, UInt64.lt_iff_toNat_lt, show (65535 : UInt64).toNat = 65535 from rfl]; omega), andSlide_append, hn]; simp
  · have hn := hnat (by omega) (by omega)
    cases hf : fo.fixed32 <;> simp only [hf, if_true, if_false, Bool.false_eq_true] at h ⊢
    · rw [uv h, andSlide_append]
      rw [Nat.zero_add]
      congr 1
      omega
    · obtain ⟨b', h1, _, h3, h2⟩ := C05_fixed32_roundtrip (u64OfInt i) (by omega) rest
      rw [h] at h1; cases h1
      rw [← h3] at h2
      rw [h2, andSlide_append, hn]; simp
  · have hn := hnat (by omega) (by omega)
    cases hf : fo.fixed64 <;> simp only [hf, if_true, if_false, Bool.false_eq_true] at h ⊢
    · rw [uv h, andSlide_append, hn]; simp
    · obtain ⟨b', h1, _, h3, h2⟩ := C05_fixed64_roundtrip (u64OfInt i) rest
      rw [h] at h1; cases h1
      rw [← h3] at h2
      rw [h2, andSlide_append, hn]; simp
  · rw [uv h, andSlide_append, hnat (by omega) (by omega)]; simp

/-! ## One step: the body of encodeReflectBinary against that of decodeReflectBinary -/

theorem decodeByteSlice_enc {p b rest : Bytes} (h : encodeByteSlice p = .ok b) (hl : b.length < 2 ^ 63) :
    decodeByteSlice (b ++ rest) = .ok b.length p ∧ p.length ≤ b.length ∧ b ≠ [] := by
  obtain ⟨hb, hpl⟩ := encodeByteSlice_ok h hl
  have := decodeByteSlice_varint p rest hpl
  rw [hb]
  refine ⟨?_, by simp, ?_⟩
  · rw [List.append_assoc, this]; simp
  · have := varint_ne_nil p.length; simp [this]

theorem elemOk_of_list {e : Ty} {fo : FOpts} (h : ListOk Γ S e fo) (hb : ¬ Γ.isByteKind e = true) :
    Γ.isListKind e = false ∧ ElemOk Γ S e fo := by
  unfold ListOk at h
  rwa [if_neg hb] at h

/-- Lists, as decoded by the body. -/
theorem decBody_list (h : RecRT Γ S nm rec rd) (hp : RecPtr Γ rd) (hlead : RecLead Γ S bl rec)
    (hz : ∀ id, HasTy Γ (.base id) (Γ.zero id)) (hU : Universe Γ c S) (hZ : ZeroOk Γ) :
    ListRT Γ c S bl nm rec (decBody Γ c rd) := by
  intro id e fo v b rest w he hbk hum hel hlk ht hen hl hst hw
  unfold decBody
  rw [if_neg (by simp [Ty.isPtr])]
  simp only [Ty.deref, hum, Prog.derefPrior]
  unfold decShape
  cases hs : Γ.shape id with
  | slice e' =>
    rw [hs] at he hw
    simp [Shape.elem?] at he
    subst he
    simp only [hbk, Bool.false_eq_true, if_false]
    rw [decSlice_rt h hp hlead hz hU hel ?_ hen hl (fun _ => ⟨hst, fun _ => hlk⟩) hw]
    · rfl
    · intro vs hvs u hu
      subst hvs
      cases ht with
      | slice hs' _ h3 => rw [hs] at hs'; cases hs'; exact h3 u hu
      | array hs' => rw [hs] at hs'; cases hs'
  | array n e' =>
    rw [hs] at he hw
    simp [Shape.elem?] at he
    subst he
    simp only [hbk, Bool.false_eq_true, if_false]
    rw [hZ.array hs hbk]
    cases ht with
    | array hs' _ hlen h3 =>
      rw [hs] at hs'; cases hs'
      rw [← hlen, decArray_rt h hp hlead hz hU hel h3 hen hl (fun _ => ⟨hst, fun _ => hlk⟩) hw]
      rfl
    | arrayBytes hs' hb' => rw [hs] at hs'; cases hs'; rw [hbk] at hb'; cases hb'
    | _ => simp_all
  | _ => rw [hs] at he; simp [Shape.elem?] at he

end

/-- The kinds, one step. -/
theorem decShape_rt {Γ : Prog} {c : Codec} {S : TId → FOpts → Prop}
    {rec : TId → Val → FOpts → Bool → Res Bytes} {bl : TId → Val → FOpts → Bool}
    {nm : TId → Val → FOpts → Option Val} {rd : Ty → Val → FOpts → Bool → Bytes → DRes Val}
    (h : RecRT Γ S nm rec rd) (hp : RecPtr Γ rd) (hlead : RecLead Γ S bl rec) (hlist : ListRT Γ c S bl nm rec rd)
    (hz : ∀ id, HasTy Γ (.base id) (Γ.zero id)) (hU : Universe Γ c S) (hZ : ZeroOk Γ) {k : Nat} {id : TId} {v w : Val}
    {fo : FOpts} {bare : Bool} {b rest : Bytes} (hS : S id fo) (hm : Γ.marsh id = none) (ht : HasTy Γ (.base id) v)
    (hnn : Γ.isIface id = true → v ≠ .nil) (he : encShape Γ c rec k id v fo bare = .ok b) (hl : b.length < 2 ^ 63)
    (hr : bare = true → rest = []) (hw : normShape Γ c bl nm id v fo = some w) :
    decShape Γ c rd id (Γ.zero id) fo bare (b ++ rest) = .ok b.length w := by
  have hstart : bare = true → Starts fo.fnum rest := fun hh => .inl (hr hh)
  cases hs : Γ.shape id with
  | iface =>
    unfold encShape at he
    unfold decShape
    rw [hs] at he ⊢
    simp only at he ⊢
    rw [hZ.iface hs]
    exact decIface_rt h hU hS hs ht (hnn (by unfold Prog.isIface; rw [hs])) he hl hr hw
  | slice e =>
    unfold encShape at he
    unfold decShape
    rw [hs] at he ⊢
    simp only at he ⊢
    have hlo := hU.slice hS hs hm
    unfold normShape at hw
    rw [hs] at hw
    by_cases hb : Γ.isByteKind e = true
    · rw [if_pos hb] at he ⊢
      have hid : e = .base Γ.byteId := by unfold ListOk at hlo; rwa [if_pos hb] at hlo
      have hbs : ∃ p, encodeByteSlice p = .ok b ∧ w = (if p == [] then .nil else .bytes p) := by
        split at he
        · simp [normList] at hw
          exact ⟨[], he, by rw [← hw]; rfl⟩
        · simp only [Option.some.injEq] at hw
          exact ⟨_, he, hw.symm⟩
        · simp at he
      obtain ⟨p, hpe, rfl⟩ := hbs
      obtain ⟨hd, _, hbne⟩ := decodeByteSlice_enc (rest := rest) hpe hl
      unfold decByteSlice
      rw [if_neg (by simp [hbne]), hd, andSlide_append]
      cases p with
      | nil => simp
      | cons x xs => simp [hid]
    · rw [if_neg hb] at he ⊢
      obtain ⟨hlk, hel⟩ := elemOk_of_list hlo hb
      rw [if_neg (by simp [hlk])] at he
      have hnb : ∀ x, v ≠ .bytes x := by
        rintro x rfl
        cases ht with
        | sliceBytes hs' hb' => rw [hs] at hs'; cases hs'; exact hb hb'
        | arrayBytes hs' => rw [hs] at hs'; cases hs'
      have hw' : normList Γ bl nm (.slice e) fo v = some w := by
        split at hw <;> simp_all
      refine decSlice_rt h hp hlead hz hU hel ?_ he hl
        (fun hh => ⟨hstart hh, fun hne => absurd (hr hh) hne⟩) hw'
      intro vs hvs u hu
      subst hvs
      cases ht with
      | slice hs' _ h3 => rw [hs] at hs'; cases hs'; exact h3 u hu
      | array hs' => rw [hs] at hs'; cases hs'
  | array n e =>
    unfold encShape at he
    unfold decShape
    rw [hs] at he ⊢
    simp only at he ⊢
    have hlo := hU.array hS hs hm
    unfold normShape at hw
    rw [hs] at hw
    by_cases hb : Γ.isByteKind e = true
    · rw [if_pos hb] at he ⊢
      have hid : e = .base Γ.byteId := by unfold ListOk at hlo; rwa [if_pos hb] at hlo
      split at he
      · rename_i p
        simp only [Option.some.injEq] at hw
        subst hw
        have hpn : p.length = n := by
          cases ht with
          | sliceBytes hs' => rw [hs] at hs'; cases hs'
          | arrayBytes hs' _ h3 => rw [hs] at hs'; cases hs'; exact h3
        obtain ⟨hd, hle, hbne⟩ := decodeByteSlice_enc (rest := rest) he hl
        unfold decByteArray
        rw [if_neg (by rw [List.length_append]; omega), hd, andSlide_append]
        simp [hpn, hid]
      · simp at he
    · rw [if_neg hb] at he ⊢
      obtain ⟨hlk, hel⟩ := elemOk_of_list hlo hb
      rw [if_neg (by simp [hlk])] at he
      rw [hZ.array hs (by simpa using hb)]
      cases ht with
      | array hs' _ hlen h3 =>
        rw [hs] at hs'; cases hs'
        simp only at hw
        rw [← hlen] at hw ⊢
        exact decArray_rt h hp hlead hz hU hel h3 he hl
          (fun hh => ⟨hstart hh, fun hne => absurd (hr hh) hne⟩) hw
      | arrayBytes hs' hb' => rw [hs] at hs'; cases hs'; exact absurd hb' hb
      | _ => simp_all
  | struct fs =>
    unfold encShape at he
    unfold decShape
    rw [hs] at he ⊢
    simp only at he ⊢
    unfold normShape at hw
    rw [hs] at hw
    split at he
    · rename_i vs
      obtain ⟨buf, hbuf, hf⟩ := Res.bind_eq_ok he
      simp only [Option.map_eq_some_iff] at hw
      obtain ⟨ws, hws, rfl⟩ := hw
      have hft : FieldsTy Γ fs vs := by
        cases ht with
        | struct hs' h1 h2 => rw [hs] at hs'; cases hs'; exact ⟨h1, h2⟩
      rw [hZ.struct hs]
      simp only
      obtain ⟨n, hn1, hpl, hun⟩ := unframe_framed (rest := rest)
        (k := fun bz n => (decFields Γ c rd fs (fs.map fun f => Γ.zeroTy f.ty) 0 0 bz n).map Val.struct) hf hl
      rw [hun]
      have hin : (if bare = true then buf ++ rest else buf) = buf ++ [] := by
        cases bare with
        | false => simp
        | true => simp [hr rfl]
      rw [hin, decFields_rt h hp hlead hlist hz hU hZ (hU.struct hS hs hm) hft hbuf hpl (Nat.le_refl _)
        (tailOk_nil _) hws]
      simp [hn1]
    · simp at he
  | time =>
    unfold encShape at he
    unfold decShape
    rw [hs] at he ⊢
    simp only at he ⊢
    unfold normShape at hw
    rw [hs] at hw
    split at he
    · rename_i s ns
      obtain ⟨buf, hbuf, hf⟩ := Res.bind_eq_ok he
      simp only [Option.some.injEq] at hw
      subst hw
      have hns : 0 ≤ ns := by
        cases ht with
        | time _ _ _ h _ => exact h
      have hrg := encodeTime_ok_range hbuf hns
      have hdt : decodeTime buf = .ok buf.length (s, ns) := by
        have := decodeTime_encoded s ns ⟨hrg.1, hrg.2.1⟩ ⟨hns, hrg.2.2⟩
        rw [encodeTime_eq s ns ⟨hrg.1, hrg.2.1⟩ ⟨hns, hrg.2.2⟩] at hbuf
        simp only [Res.ok.injEq] at hbuf
        simp only [hbuf] at this
        exact this
      obtain ⟨n, hn1, hpl, hun⟩ := unframe_framed (rest := rest)
        (k := fun bz n => (decodeTime bz).andSlide bz n fun t _ n => DRes.ok n (Val.time t.1 t.2)) hf hl
      rw [hun]
      have hin : (if bare = true then buf ++ rest else buf) = buf := by
        cases bare with
        | false => simp
        | true => simp [hr rfl]
      rw [hin, hdt]
      simp [DRes.andSlide, hn1]
    · simp at he
  | int k =>
    unfold encShape at he
    unfold decShape
    rw [hs] at he ⊢
    simp only at he ⊢
    unfold normShape at hw
    rw [hs] at hw
    cases ht with
    | int hs' hrg =>
      rw [hs] at hs'; cases hs'
      simp only [Option.some.injEq] at hw
      subst hw
      rw [encInt_rt hrg he rest]
      rfl
    | _ => simp_all
  | bool =>
    unfold encShape at he
    unfold decShape
    rw [hs] at he ⊢
    simp only at he ⊢
    unfold normShape at hw
    rw [hs] at hw
    cases ht with
    | bool hs' =>
      rename_i x
      simp only [Option.some.injEq] at hw
      subst hw
      have h0 : encodeUint8 0 = .ok [0] := by decide
      have h1 : encodeUint8 1 = .ok [1] := by decide
      cases x <;> simp [encodeBool, h0, h1] at he <;> subst he <;> simp [decodeBool, DRes.andSlide]
    | _ => simp_all
  | float64 =>
    unfold encShape at he
    unfold decShape
    rw [hs] at he ⊢
    simp only at he ⊢
    unfold normShape at hw
    rw [hs] at hw
    cases ht with
    | f64 hs' =>
      rename_i x
      simp only [Option.some.injEq] at hw
      subst hw
      split at he
      · simp at he
      · rename_i hfl
        rw [if_neg hfl]
        simp only at he
        obtain ⟨b', h1, _, h3, h2⟩ := C05_fixed64_roundtrip x rest
        rw [he] at h1; cases h1
        rw [← h3] at h2
        rw [h2, andSlide_append]; simp
    | _ => simp_all
  | float32 =>
    unfold encShape at he
    unfold decShape
    rw [hs] at he ⊢
    simp only at he ⊢
    unfold normShape at hw
    rw [hs] at hw
    cases ht with
    | f32 hs' hx =>
      rename_i x
      simp only [Option.some.injEq] at hw
      subst hw
      split at he
      · simp at he
      · rename_i hfl
        rw [if_neg hfl]
        simp only at he
        obtain ⟨b', h1, _, h3, h2⟩ := C05_fixed32_roundtrip x hx rest
        rw [he] at h1; cases h1
        rw [← h3] at h2
        rw [h2, andSlide_append]; simp
    | _ => simp_all
  | string =>
    unfold encShape at he
    unfold decShape
    rw [hs] at he ⊢
    simp only at he ⊢
    unfold normShape at hw
    rw [hs] at hw
    cases ht with
    | str hs' =>
      simp only [Option.some.injEq] at hw
      subst hw
      unfold encodeString at he
      obtain ⟨hd, _, _⟩ := decodeByteSlice_enc (rest := rest) he hl
      unfold decodeString
      rw [hd, andSlide_append]; simp
    | _ => simp_all
  | map e => exact absurd hs (hU.noMap hS)

/-- The round trip of encodeReflectBinary and decodeReflectBinary. -/
theorem enc_dec {Γ : Prog} {c : Codec} {S : TId → FOpts → Prop} (hU : Universe Γ c S) (hZ : ZeroOk Γ) (hT : Γ.Typed)
    (f : Nat) : ∀ g, 2 * f ≤ g → RecRT Γ S (norm Γ c f) (enc Γ c f) (dec Γ c g) := by
  induction f with
  | zero => intro g _ id v fo bare b rest w _ _ _ he; simp [enc] at he
  | succ f ih =>
    intro g hg id v fo bare b rest w hS ht hnn he hl hr hw
    have hlead := enc_lead hU hT f
    have hptr : ∀ g, 1 ≤ g → RecPtr Γ (dec Γ c g) := by
      intro g hg t fo bare bz hn
      cases g with
      | zero => omega
      | succ g => exact decBody_ptr hn fo bare bz
    cases g with
    | zero => omega
    | succ g =>
      cases g with
      | zero => omega
      | succ g =>
        unfold enc encBody at he
        unfold norm at hw
        unfold dec decBody
        rw [if_neg (by simp [Ty.isPtr])]
        simp only [Ty.deref, Prog.derefPrior]
        cases hm : Γ.marsh id with
        | some rm =>
          obtain ⟨rid, m⟩ := rm
          rw [hm] at he hw
          simp only at he hw
          obtain ⟨r, hrm, he⟩ := Res.bind_eq_ok he
          obtain ⟨_, hinfo, he⟩ := Res.bind_eq_ok he
          obtain ⟨⟨um, hum⟩, hSr, _, hri, _⟩ := hU.marsh hS hm
          rw [hrm, hum] at hw
          simp only [Option.bind_eq_some_iff] at hw
          obtain ⟨r', hr', hw⟩ := hw
          rw [hum]
          simp only
          unfold infoThen
          rw [hinfo]
          simp only
          rw [ih (g + 1) (by omega) rid r fo bare b rest r' hSr (hT.marsh hm ht hrm) (by simp [hri]) he hl hr hr',
            andSlide_append]
          split at hw
          · rename_i w' hw'
            simp only [Option.some.injEq] at hw
            subst hw
            rw [hw']
            simp [wrapTy]
          · cases hw
        | none =>
          rw [hm] at he hw
          simp only at he hw
          rw [hU.noMarsh hS hm]
          simp only
          cases f with
          | zero =>
            -- nothing below: only kinds without components can be encoded; use the step lemma all the same
            have hl' : ListRT Γ c S (blank Γ 0) (norm Γ c 0) (enc Γ c 0) (dec Γ c (g + 1)) := by
              cases g with
              | zero =>
                exact decBody_list (ih 0 (by omega)) (rd := dec Γ c 0) (fun t fo bare bz hn => by simp [dec]) hlead
                  hT.zero hU hZ
              | succ g => exact decBody_list (ih (g + 1) (by omega)) (hptr _ (by omega)) hlead hT.zero hU hZ
            rw [decShape_rt (ih (g + 1) (by omega)) (hptr _ (by omega)) hlead hl' hT.zero hU hZ hS hm ht hnn he hl hr hw]
            simp [wrapTy]
          | succ f =>
            have hl' : ListRT Γ c S (blank Γ (f + 1)) (norm Γ c (f + 1)) (enc Γ c (f + 1)) (dec Γ c (g + 1)) :=
              decBody_list (ih g (by omega)) (hptr _ (by omega)) hlead hT.zero hU hZ
            rw [decShape_rt (ih (g + 1) (by omega)) (hptr _ (by omega)) hlead hl' hT.zero hU hZ hS hm ht hnn he hl hr hw]
            simp [wrapTy]

end Amino
