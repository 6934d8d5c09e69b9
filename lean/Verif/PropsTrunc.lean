import Verif.TruncLemmas
import Verif.PropsEvolve
import Verif.PropsJsonOnly
import Verif.PropsJson

/-!
# C106: messages of which the end is missing

UnmarshalBinaryBare has no way to tell that the last fields of a struct are missing: fields that are not there are left out values.
Anything else that can be seen of a cut is an error, but for a byte slice right behind its key.
-/

namespace Amino
open Spec

variable {Γ : Prog} {c : Codec} {S : TId → FOpts → Prop}

theorem stripPrefix_ok {id : TId} {a a' : Bytes} (h : stripPrefix c id a = .ok a') : a = prefixOf c id ++ a' := by
  unfold stripPrefix at h
  unfold prefixOf
  split at h
  · rename_i ci hci
    split at h
    · cases h
    split at h
    · cases h
    · rename_i _ h2
      cases h
      rw [hci]
      simp only [ne_eq, Decidable.not_not] at h2
      simp only [← h2]
      exact (List.take_append_drop 4 a).symm
  · rename_i hci
    cases h
    rw [hci]
    rfl

theorem unmarshalBare_front {g : Nat} {t : Ty} {p u : Val} {a : Bytes} (hs : Γ.structOrRep t.deref = true)
    (h : unmarshalBare Γ c g t p a = .ok u) : ∃ a', a = prefixOf c t.deref ++ a' ∧ ∃ n, dec Γ c g t p { fnum := 1 } true a' = .ok n u := by
  unfold unmarshalBare at h
  obtain ⟨_, _, h⟩ := Res.bind_eq_ok h
  obtain ⟨a', ha, h⟩ := Res.bind_eq_ok h
  refine ⟨a', stripPrefix_ok ha, ?_⟩
  unfold unmarshalContents at h
  rw [if_pos hs] at h
  unfold decodeAll at h
  split at h
  · rename_i n v hd
    split at h
    · cases h
    · cases h; exact ⟨n, hd⟩
  · cases h
  · cases h
  · cases h

/-- What is read from the front of a message. -/
theorem dec_front (hU : Universe Γ c S) (hZ : ZeroOk Γ) (hT : Γ.Typed) {t : Ty} {fs : List Field} {vs ws : List Val} {buf a x : Bytes}
    {u : Val} {k g n : Nat} (hs : Γ.shape t.deref = .struct fs) (hm : Γ.marsh t.deref = none) (hS : S t.deref { fnum := 1 })
    (ht : FieldsTy Γ fs vs) (he : encFields Γ c (enc Γ c k) 0 fs vs = .ok buf) (hl : buf.length < 2 ^ 63)
    (hw : normFields Γ (blank Γ k) (norm Γ c k) 0 fs vs = some ws) (hab : a ++ x = buf) (hg : 2 * k + 1 ≤ g)
    (hd : dec Γ c (g + 1) t (Γ.zeroTy t) { fnum := 1 } true a = .ok n u) : ∃ us, u = refs t (.struct us) ∧ CutFields Γ fs ws us := by
  unfold dec decBody at hd
  split at hd
  · cases hd
  simp only [hU.noMarsh hS hm, derefPrior_zeroTy] at hd
  obtain ⟨u1, hd1, rfl⟩ := map_inv hd
  unfold decShape at hd1
  rw [hs] at hd1
  simp only [unframe, if_true] at hd1
  rw [hZ.struct hs] at hd1
  simp only at hd1
  obtain ⟨us, hd2, rfl⟩ := map_inv hd1
  obtain ⟨g, rfl⟩ : ∃ k, g = k + 1 := ⟨g - 1, by omega⟩
  refine ⟨us, by rw [refs_eq], ?_⟩
  have hg1 : ∀ {g}, 1 ≤ g → RecPtr Γ (dec Γ c g) := fun h => dec_ptr h
  cases k with
  | zero =>
    -- no field can be encoded without recursion; the induction needs no fuel below
    refine cut_fields (enc_dec hU hZ hT 0 (g + 1) (by omega)) (dec_ptr (by omega)) (enc_lead hU hT 0) (dec_cut _) ?_ hT.zero hU hZ
      (hU.struct hS hs hm) ht he hl hw hab hd2
    cases g with
    | zero => exact decBody_cut (enc_dec hU hZ hT 0 0 (by omega)) (fun _ _ _ _ _ => by simp [dec]) (enc_lead hU hT 0) (dec_cut _) hZ
    | succ g => exact decBody_cut (enc_dec hU hZ hT 0 (g + 1) (by omega)) (dec_ptr (by omega)) (enc_lead hU hT 0) (dec_cut _) hZ
  | succ k =>
    refine cut_fields (enc_dec hU hZ hT _ (g + 1) (by omega)) (dec_ptr (by omega)) (enc_lead hU hT _) (dec_cut _) ?_ hT.zero hU hZ
      (hU.struct hS hs hm) ht he hl hw hab hd2
    exact decBody_cut (enc_dec hU hZ hT _ g (by omega)) (dec_ptr (by omega)) (enc_lead hU hT _) (dec_cut _) hZ

/-- C106: if UnmarshalBinaryBare accepts the front of a message of a struct, it makes of it the first fields of the struct, then at
most one field of which the end is missing (`CutVal`), and the other fields left out. -/
theorem C106_cut_partial (hU : Universe Γ c S) (hZ : ZeroOk Γ) (hT : Γ.Typed) (hum : UserTotal Γ) (hp4 : Prefix4 c)
    {t t' : Ty} {fs : List Field} {v u : Val} {a b : Bytes} {f g : Nat} (hs : Γ.shape t.deref = .struct fs)
    (hm : Γ.marsh t.deref = none) (hS : S t.deref { fnum := 1 }) (ht : HasTy Γ t v)
    (h : marshalBare Γ c f t v = .ok (a ++ b)) (hl : (a ++ b).length < 2 ^ 63) (htt : t'.deref = t.deref)
    (hu : unmarshalBare Γ c g t' (Γ.zeroTy t') a = .ok u) :
    ∃ ws us, roundTrip Γ c f t v = some (.struct ws) ∧ u = refs t' (.struct us) ∧ CutFields Γ fs ws us := by
  obtain ⟨w, hw, _, _⟩ := C11_roundTrip hU hZ hT hum hp4 (structOrRep_struct hs) hS ht h hl (Nat.le_refl _) rfl
  obtain ⟨k, vs, buf, rfl, hp, hft, hi, he, hbz⟩ := marshalBare_fields hs hm ht h
  have hw' := hw
  unfold roundTrip at hw'
  rw [hp] at hw'
  obtain ⟨ws, hn, rfl⟩ := norm_struct hs hm hw'
  rw [← htt] at hs hm hS hbz
  obtain ⟨a', rfl, n, hd⟩ := unmarshalBare_front (structOrRep_struct hs) hu
  rw [List.append_assoc] at hbz
  have hab := List.append_cancel_left hbz
  have hd' := dec_ok_le (g' := (g + 2 * k + 1) + 1) (by omega) hd
  have hlb : buf.length < 2 ^ 63 := by
    rw [← hab]
    simp only [List.length_append] at hl ⊢
    omega
  obtain ⟨us, hus, hcut⟩ := dec_front hU hZ hT hs hm hS hft he hlb hn hab (by omega) hd'
  exact ⟨ws, us, hw, hus, hcut⟩

/-- No byte slice can be had from nothing. -/
def Spec.noEmpty (Γ : Prog) (id : TId) : Prop := Γ.unmarsh id = none ∧ ∀ e, Γ.shape id = .slice e → Γ.isByteKind e = false

theorem Spec.noEmpty.no {id : TId} {x : Val} (h : noEmpty Γ id) (hx : NoBytes Γ id x) : False := by
  cases hx with
  | slice _ h2 h3 => rw [h.2 _ h2] at h3; cases h3
  | rep h1 => rw [h.1] at h1; cases h1

theorem Spec.CutFields.plain {fs : List Field} {ws us : List Val} (h : CutFields Γ fs ws us)
    (hf : ∀ f ∈ fs, f.visible = true → repeated Γ f = false ∧ noEmpty Γ f.ty.deref) :
    ∃ k, us = ws.take k ++ Spec.missing Γ (fs.drop k) := by
  induction h with
  | missing => exact ⟨0, by simp⟩
  | last hv hc =>
    obtain ⟨h1, h2⟩ := hf _ (by simp) hv
    cases hc with
    | list _ _ h3 => rw [h1] at h3; cases h3
    | key _ h3 => exact (h2.no h3).elim
  | keep _ ih =>
    obtain ⟨k, hk⟩ := ih fun f hf' => hf f (by simp [hf'])
    exact ⟨k + 1, by simp [hk]⟩

/-- C106: without repeated fields and byte slices, what is read from the front of a message is a front of the fields, the others
left out. -/
theorem C106_plain_partial (hU : Universe Γ c S) (hZ : ZeroOk Γ) (hT : Γ.Typed) (hum : UserTotal Γ) (hp4 : Prefix4 c)
    {t t' : Ty} {fs : List Field} {v u : Val} {a b : Bytes} {f g : Nat} (hs : Γ.shape t.deref = .struct fs)
    (hm : Γ.marsh t.deref = none) (hS : S t.deref { fnum := 1 }) (ht : HasTy Γ t v)
    (h : marshalBare Γ c f t v = .ok (a ++ b)) (hl : (a ++ b).length < 2 ^ 63) (htt : t'.deref = t.deref)
    (hf : ∀ f ∈ fs, f.visible = true → repeated Γ f = false ∧ noEmpty Γ f.ty.deref)
    (hu : unmarshalBare Γ c g t' (Γ.zeroTy t') a = .ok u) :
    ∃ ws k, roundTrip Γ c f t v = some (.struct ws) ∧ u = refs t' (.struct (ws.take k ++ missing Γ (fs.drop k))) := by
  obtain ⟨ws, us, h1, h2, h3⟩ := C106_cut_partial hU hZ hT hum hp4 hs hm hS ht h hl htt hu
  obtain ⟨k, rfl⟩ := h3.plain hf
  exact ⟨ws, k, h1, h2⟩

theorem missing_unset {fs : List Field} : missing Γ fs = fs.map (unset Γ) := by
  unfold missing
  apply List.map_congr_left
  intro f _
  unfold unset
  split
  · rfl
  · cases f.ty <;> rfl

theorem encFields_infos {rec : TId → Val → FOpts → Bool → Res Bytes} {fs : List Field} {vs : List Val} {num : Nat} {b : Bytes}
    (h : encFields Γ c rec num fs vs = .ok b) : ∀ x ∈ fs, x.visible = true → getInfo Γ c x.ty.deref = .ok () := by
  induction fs generalizing num vs b with
  | nil => simp
  | cons f fs ih =>
    cases vs with
    | nil => simp [encFields] at h
    | cons v vs =>
      unfold encFields at h
      intro x hx hv
      split at h
      · rename_i hnv
        rcases List.mem_cons.mp hx with rfl | hx
        · simp [hv] at hnv
        · exact ih h x hx hv
      · obtain ⟨b1, hb1, h⟩ := Res.bind_eq_ok h
        obtain ⟨b2, hb2, _⟩ := Res.bind_eq_ok h
        rcases List.mem_cons.mp hx with rfl | hx
        · unfold encField at hb1
          obtain ⟨_, h1, _⟩ := Res.bind_eq_ok hb1
          exact h1
        · exact ih hb2 x hx hv

theorem normFields_append {bl : TId → Val → FOpts → Bool} {nm : TId → Val → FOpts → Option Val} {fs gs : List Field}
    {vs us ws : List Val} {num : Nat} (hlen : fs.length = vs.length) (h : normFields Γ bl nm num (fs ++ gs) (vs ++ us) = some ws) :
    ∃ ws1 ws2, normFields Γ bl nm num fs vs = some ws1 ∧ ws = ws1 ++ ws2 ∧ ws1.length = fs.length := by
  induction fs generalizing num vs ws with
  | nil =>
    cases vs with
    | nil => exact ⟨[], ws, rfl, rfl, rfl⟩
    | cons => simp at hlen
  | cons f fs ih =>
    cases vs with
    | nil => simp at hlen
    | cons v vs =>
      simp only [List.length_cons, Nat.add_right_cancel_iff] at hlen
      simp only [List.cons_append, normFields] at h ⊢
      split at h
      · rename_i hv
        simp only [Option.bind_eq_some_iff, Option.map_eq_some_iff] at h
        obtain ⟨w, hw, ws', h', rfl⟩ := h
        obtain ⟨ws1, ws2, h1, rfl, h3⟩ := ih hlen h'
        exact ⟨w :: ws1, ws2, by simp [hv, hw, h1], rfl, by simp [h3]⟩
      · simp only [Option.map_eq_some_iff] at h
        obtain ⟨ws', h', rfl⟩ := h
        obtain ⟨ws1, ws2, h1, rfl, h3⟩ := ih hlen h'
        rename_i hv; exact ⟨_ :: ws1, ws2, by simp [hv, h1], rfl, by simp [h3]⟩

/-- C106: a message cut off between two fields is accepted: it is read as the fields in front of the cut, the others left out. -/
theorem C106_between (hU : Universe Γ c S) (hZ : ZeroOk Γ) (hT : Γ.Typed) (hum : UserTotal Γ) (hp4 : Prefix4 c)
    {t t' : Ty} {fs gs : List Field} {v : Val} {bz : Bytes} {f g : Nat} (hs : Γ.shape t.deref = .struct (fs ++ gs))
    (hm : Γ.marsh t.deref = none) (hS : S t.deref { fnum := 1 }) (ht : HasTy Γ t v)
    (h : marshalBare Γ c f t v = .ok bz) (hl : bz.length < 2 ^ 63) (hg : 2 * f ≤ g) (htt : t'.deref = t.deref) :
    ∃ ws ws' a b, roundTrip Γ c f t v = some (.struct (ws ++ ws')) ∧ ws.length = fs.length ∧ bz = a ++ b ∧
      unmarshalBare Γ c g t' (Γ.zeroTy t') a = .ok (refs t' (.struct (ws ++ missing Γ gs))) := by
  obtain ⟨w, hw, _, _⟩ := C11_roundTrip hU hZ hT hum hp4 (structOrRep_struct hs) hS ht h hl hg htt
  obtain ⟨k, vs, buf, rfl, hp, hft, hi, he, hbz⟩ := marshalBare_fields hs hm ht h
  have hw' := hw
  unfold roundTrip at hw'
  rw [hp] at hw'
  obtain ⟨ws, hn, rfl⟩ := norm_struct hs hm hw'
  have hlv : fs.length + gs.length = vs.length := by have := hft.1; simpa using this
  have hlen : fs.length = (vs.take fs.length).length := by rw [List.length_take]; omega
  rw [← List.take_append_drop fs.length vs] at he hn hft
  obtain ⟨b1, b2, he1, he2, rfl⟩ := encFields_append hlen he
  obtain ⟨ws1, ws2, hn1, rfl, hl1⟩ := normFields_append hlen hn
  refine ⟨ws1, ws2, prefixOf c t.deref ++ b1, b2, hw, hl1, by rw [hbz, List.append_assoc], ?_⟩
  have hft1 : FieldsTy Γ fs (vs.take fs.length) := by
    refine ⟨hlen, fun p hp => hft.2 p ?_⟩
    rw [List.zip_append hlen]
    exact List.mem_append_left _ hp
  have hfo := (fieldsOk_append (hU.struct hS hs hm)).1
  have hlb : b1.length < 2 ^ 63 := by rw [hbz] at hl; simp only [List.length_append] at hl; omega
  have hd : dec Γ c g (.base t.deref) (Γ.zero t.deref) { fnum := 1 } true b1 = .ok b1.length (.struct (ws1 ++ missing Γ gs)) := by
    obtain ⟨g, rfl⟩ : ∃ k, g = k + 1 := ⟨g - 1, by omega⟩
    unfold dec decBody
    rw [if_neg (by simp [Ty.isPtr])]
    simp only [Ty.deref, Prog.derefPrior, hU.noMarsh hS hm]
    unfold decShape
    rw [hs]
    simp only [unframe, if_true]
    rw [hZ.struct hs]
    simp only
    have hp : RecPtr Γ (dec Γ c g) := dec_ptr (by omega)
    have := decFields_rt_app (n := 0) (tail := []) (enc_dec hU hZ hT k g (by omega)) hp (enc_lead hU hT k)
      (dec_listRT hU hZ hT (by omega)) hT.zero hU hZ hfo hft1 he1 hlb (Nat.le_refl _)
      (tailDec_unset (encFields_infos he2)) hn1
    simp only [List.append_nil] at this
    rw [List.map_append, this, missing_unset]
    simp [wrapTy]
  rw [← htt] at hs hi hd ⊢
  have hni := structOrRep_notIface (structOrRep_struct hs)
  refine (unmarshalBare_struct (structOrRep_struct hs) hp4 hi).trans ?_
  unfold decodeAll
  rw [dec_ptr (by omega) _ _ _ _ (noIfacePtr_of hni), hd]
  simp [refs_eq]

/-- `Msg{…}` cut behind `B`. -/
example : unmarshalBare Demo.prog Demo.codecFoo 10 (.base Demo.msgT) (Demo.prog.zero Demo.msgT)
    [8, 251, 255, 255, 255, 255, 255, 255, 255, 255, 1, 18, 2, 104, 105] =
      .ok (.struct [.int (-5), .str [104, 105], .nil, .nil, .nil, .nil, .time 0 0]) := by decide +kernel

example : ∃ ws ws' a b, roundTrip Demo.prog Demo.codecFoo 5 (.base Demo.msgT) Demo.msg = some (.struct (ws ++ ws')) ∧
    ws.length = 2 ∧ Demo.msgBytes = a ++ b ∧ unmarshalBare Demo.prog Demo.codecFoo 10 (.base Demo.msgT) (Demo.prog.zero Demo.msgT) a =
      .ok (.struct (ws ++ missing Demo.prog (Demo.msgFields.drop 2))) :=
  C106_between Demo.univ_foo Demo.prog_zero Demo.prog_typed Demo.user_total Demo.prefix4_foo (t' := .base Demo.msgT)
    (fs := Demo.msgFields.take 2) (gs := Demo.msgFields.drop 2) rfl rfl Demo.S_msg Demo.msg_typed Demo.msg_marshal (by decide) (by omega) rfl

/-- C106 in full would be: the front of a message is refused unless it is all of it.  It is false: there is no telling that the last
fields are missing; and of the message `Msg{…}` the front that ends with the key of the byte slice `C` is read as a message with `C`
nil, as if the key had not been there. -/
theorem C106_cutRefused_refuted :
    (∃ a b, Demo.msgBytes = a ++ b ∧ b ≠ [] ∧ ∃ u, unmarshalBare Demo.prog Demo.codecFoo 10 (.base Demo.msgT)
      (Demo.prog.zero Demo.msgT) a = .ok u) ∧
    ∃ u, unmarshalBare Demo.prog Demo.codecFoo 10 (.base Demo.msgT) (Demo.prog.zero Demo.msgT)
      [8, 251, 255, 255, 255, 255, 255, 255, 255, 255, 1, 18, 2, 104, 105, 26] = .ok u ∧
      unmarshalBare Demo.prog Demo.codecFoo 10 (.base Demo.msgT) (Demo.prog.zero Demo.msgT)
      [8, 251, 255, 255, 255, 255, 255, 255, 255, 255, 1, 18, 2, 104, 105] = .ok u :=
  ⟨⟨[8, 251, 255, 255, 255, 255, 255, 255, 255, 255, 1], Demo.msgBytes.drop 11, by decide, by decide,
    .struct [.int (-5), .str [], .nil, .nil, .nil, .nil, .time 0 0], by decide +kernel⟩,
    .struct [.int (-5), .str [104, 105], .nil, .nil, .nil, .nil, .time 0 0], by decide +kernel, by decide +kernel⟩

/-- The hypotheses of `C106_cut_partial` are met, by a cut in the list `E` of the message. -/
example : ∃ ws us, roundTrip Demo.prog Demo.codecFoo 5 (.base Demo.msgT) Demo.msg = some (.struct ws) ∧
    (.struct [.int (-5), .str [104, 105], .bytes [1, 2], .ptr (.struct [.int 7, .str [], .nil, .nil, .nil, .nil, .time 0 0]),
      .list [.struct [.int 0, .bool false]], .nil, .time 0 0] : Val) = .struct us ∧ CutFields Demo.prog Demo.msgFields ws us :=
  C106_cut_partial Demo.univ_foo Demo.prog_zero Demo.prog_typed Demo.user_total Demo.prefix4_foo (t' := .base Demo.msgT) (g := 10)
    (a := Demo.msgBytes.take 25) (b := Demo.msgBytes.drop 25) rfl rfl Demo.S_msg Demo.msg_typed
    (by rw [List.take_append_drop]; exact Demo.msg_marshal) (by decide) rfl (by decide +kernel)

/-- The message is refused if it is cut within a number, a string, behind the key of a struct. -/
example : (∀ u, unmarshalBare Demo.prog Demo.codecFoo 10 (.base Demo.msgT) (Demo.prog.zero Demo.msgT) (Demo.msgBytes.take 5) ≠ .ok u) ∧
    (∀ u, unmarshalBare Demo.prog Demo.codecFoo 10 (.base Demo.msgT) (Demo.prog.zero Demo.msgT) (Demo.msgBytes.take 14) ≠ .ok u) ∧
    ∀ u, unmarshalBare Demo.prog Demo.codecFoo 10 (.base Demo.msgT) (Demo.prog.zero Demo.msgT) (Demo.msgBytes.take 20) ≠ .ok u := by
  refine ⟨fun u h => ?_, fun u h => ?_, fun u h => ?_⟩
  · have : (match unmarshalBare Demo.prog Demo.codecFoo 10 (.base Demo.msgT) (Demo.prog.zero Demo.msgT) (Demo.msgBytes.take 5) with | .ok _ => true | _ => false) = false := by
      decide +kernel
    rw [h] at this; cases this
  · have : (match unmarshalBare Demo.prog Demo.codecFoo 10 (.base Demo.msgT) (Demo.prog.zero Demo.msgT) (Demo.msgBytes.take 14) with | .ok _ => true | _ => false) = false := by
      decide +kernel
    rw [h] at this; cases this
  · have : (match unmarshalBare Demo.prog Demo.codecFoo 10 (.base Demo.msgT) (Demo.prog.zero Demo.msgT) (Demo.msgBytes.take 20) with | .ok _ => true | _ => false) = false := by
      decide +kernel
    rw [h] at this; cases this

/-! ## JSON -/

/-- Texts of numbers begin with a digit or a minus sign. -/
def Spec.NumStart (b : Bytes) : Prop := ∃ x r, b = x :: r ∧ (x = 0x2d ∨ Digit x)

/-- Where a value ends does not depend on what follows, but for numbers. -/
theorem skipVal_ends {b b' : Bytes} (h : Spaced b b') (hn : ¬ NumStart b') {n : Nat} (hl : b'.length ≤ n) (rest : Bytes) :
    skipVal n (b' ++ rest) = some rest := by
  cases h with
  | scalar h h1 h2 =>
    obtain ⟨n, rfl⟩ : ∃ m, n = m + 1 := ⟨n - 1, by have := List.length_pos_iff.mpr (jtext_ne_nil h); omega⟩
    cases h with
    | null => exact skipWord_app jNull rest
    | true => exact skipWord_app jTrue rest
    | false => exact skipWord_app jFalse rest
    | num h => obtain ⟨c, r, rfl, hc⟩ := num_head h; exact absurd ⟨c, r, rfl, hc⟩ hn
    | str hs =>
      cases hs with
      | @mk b hb =>
        rw [List.cons_append, skipVal, if_pos rfl, List.append_assoc]
        exact skipStr_body hb rest
    | arr => simp at h1
    | obj => simp at h2
  | @arr w es hw0 hw hs =>
    obtain ⟨n, rfl⟩ : ∃ m, n = m + 1 := ⟨n - 1, by simp at hl; omega⟩
    rw [List.cons_append, skipVal, if_neg (by decide), if_pos rfl, List.append_assoc, List.append_assoc,
      List.cons_append, List.nil_append, arrRest_spaced hw0 hw]
    · rfl
    · intro e he; obtain ⟨c, r, r', _, h, hc⟩ := spaced_head (hs e he); exact ⟨c, r', h, hc⟩
    · intro e he
      refine skipVal_spaced (hs e he) ?_
      have := elem_le he
      simp at hl; omega
  | @obj w ms hw0 hw hs =>
    obtain ⟨n, rfl⟩ : ∃ m, n = m + 1 := ⟨n - 1, by simp at hl; omega⟩
    rw [List.cons_append, skipVal, if_neg (by decide), if_neg (by decide), if_pos rfl, List.append_assoc,
      List.append_assoc, List.cons_append, List.nil_append, objRest_spaced hw0 hw]
    · rfl
    · intro e he; obtain ⟨c, r, r', _, h, hc⟩ := spaced_head (hs e he); exact ⟨c, r', h, hc.1⟩
    · intro e he
      refine skipVal_spaced (hs e he) ?_
      have := member_le he
      simp at hl; omega

/-- No front of a JSON text is one, but of numbers. -/
theorem json_front {a b : Bytes} (hj : JText (a ++ b)) (hn : ¬ NumStart (a ++ b)) (ha : IsJson a) : b = [] := by
  obtain ⟨h1, h2, h3⟩ := ha
  rename_i w1 s s' w2
  obtain ⟨x, _, r, _, hs, hx, _⟩ := spaced_head h3
  have hw : w1 = [] := by
    cases w1 with
    | nil => rfl
    | cons y w1 =>
      obtain ⟨z, r', hz, hz'⟩ : ∃ z r', (y :: w1) ++ (s' ++ w2) ++ b = z :: r' ∧ isWs z = false := by
        obtain ⟨z, r', h5, h6⟩ := jtext_head hj
        exact ⟨z, r', h5, h6.1⟩
      simp only [List.cons_append, List.cons.injEq] at hz
      rw [← hz.1] at hz'
      rcases h1 y (by simp) with rfl | rfl | rfl | rfl <;> simp [isWs] at hz'
  subst hw
  rw [List.nil_append] at hj hn
  have hn' : ¬ NumStart s' := by
    rintro ⟨y, r', hy, h⟩
    exact hn ⟨y, r' ++ w2 ++ b, by rw [hy]; simp, h⟩
  have e1 := skipVal_ends h3 hn' (n := (s' ++ w2 ++ b).length) (by simp) (w2 ++ b)
  have e2 := skipVal_jtext hj (Nat.le_refl _) [] (by intro _ _ h; cases h)
  rw [List.append_nil] at e2
  rw [← List.append_assoc, e2] at e1
  simp at e1
  exact e1.2

/-- C106: UnmarshalJSON refuses what MarshalJSON wrote if the end is missing, unless the text is that of a number (`12` cut to `1`).
Variables of unregistered 64-bit integers are left out (their texts are read by other means, see `C99_refuted`). -/
theorem C106_json_partial {J : JLib} {S : TId → Prop} (hU : JUniv Γ c J false S) (hL : LibOk J) (hT : Γ.Typed) (hZ : ZeroOk Γ)
    (hum : UserTotal Γ) (hJ : LibJson J) {f g : Nat} {t t' : Ty} {v p u : Val} {a b : Bytes} (hS : JOk Γ S t) (ht : HasTy Γ t v)
    (hN : ∀ ci, c.conc? t.deref = some ci → PlainName ci.name) (he : marshalJSON Γ c J f (some (t, v)) = .ok (a ++ b))
    (hn : ¬ NumStart (a ++ b)) (ht' : c.conc? t'.deref = none → ¬ Bare64 Γ J t'.deref) (hu : unmarshalJSON Γ c J g t' p a = .ok u) :
    b = [] :=
  json_front (roundtrip_aux hU hL hT hZ hum hS ht hN rfl he).1 hn (C99_json_only_partial hJ ht' hu)

theorem JDemo.libJson' : LibJson JDemo.lib where
  f32 h := by cases h
  f64 := by
    intro b x h
    simp only [JDemo.lib] at h
    split at h
    · rename_i hb; subst hb; exact (validJSON_iff _).mp (by decide)
    · cases h
  time := by
    intro b x h
    simp only [JDemo.lib] at h
    split at h
    · rename_i hb; subst hb; exact (validJSON_iff _).mp (by decide +kernel)
    · split at h
      · rename_i hb; subst hb; exact (validJSON_iff _).mp (by decide +kernel)
      · cases h
  unmarsh h := by cases h

/-- The text of `rec1` without its last byte is refused, whatever the variable holds. -/
example (g : Nat) (p u : Val) : unmarshalJSON JDemo.prog JDemo.codec JDemo.lib g (.base JDemo.recT) p JDemo.rec1Text.dropLast ≠ .ok u := by
  intro h
  have hab : JDemo.rec1Text = JDemo.rec1Text.dropLast ++ [0x7d] := by decide +kernel
  have hx : JDemo.rec1Text.head? = some 0x7b := by decide +kernel
  have hb := C106_json_partial (f := 5) (b := [0x7d]) (JDemo.univ false) JDemo.libOk JDemo.typed JDemo.zeroOk JDemo.user_total JDemo.libJson'
    (JDemo.base_ok (by decide) (by decide)) JDemo.rec1_typed (by intro ci h; rw [(JDemo.conc_foo h).1]; exact JDemo.plain_f)
    (by rw [← hab]; exact JDemo.rec1_marshals)
    (by
      rw [← hab]
      rintro ⟨x, r, hr, hd⟩
      rw [hr] at hx
      cases hx
      rcases hd with hd | hd
      · cases hd
      · exact absurd hd (by unfold Digit; decide))
    (fun _ => by
      intro h
      cases h with
      | int _ _ h _ => cases h
      | amino _ h _ => cases h) h
  cases hb

/-- The exception: `12` cut to `1`, for an `int32`. -/
theorem C106_number_refuted : ∃ p u, marshalJSON JDemo.prog JDemo.codec JDemo.lib 1 (some (.base JDemo.int32T, .int 12)) = .ok [0x31, 0x32] ∧
    unmarshalJSON JDemo.prog JDemo.codec JDemo.lib 1 (.base JDemo.int32T) p [0x31] = .ok u :=
  ⟨.int 0, .int 1, by decide +kernel, by decide +kernel⟩

end Amino
