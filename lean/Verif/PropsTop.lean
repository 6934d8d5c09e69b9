import Verif.PropsRT
import Verif.PropsOrder

/-! # Properties C37, C38, C42, C43: values that are not structs, lists of lists, nested times -/

namespace Amino
open Spec

variable {Γ : Prog} {c : Codec} {S : TId → FOpts → Prop}

/-! ## C37 -/

/-- Integers, bools, strings, byte strings, and lists of (pointers to) integers or bools. -/
def Spec.plainKind (Γ : Prog) (id : TId) : Bool :=
  match Γ.shape id with
  | .int _ | .bool | .string => true
  | .slice e | .array _ e =>
    Γ.isByteKind e || ((Γ.marsh e.deref).isNone &&
      match Γ.shape e.deref with
      | .int _ | .bool => true
      | _ => false)
  | _ => false

theorem enc_scalar {f : Nat} {id : TId} {v : Val} {fo : FOpts} {bare : Bool} (hm : Γ.marsh id = none)
    (hs : Γ.shape id = .bool ∨ ∃ k, Γ.shape id = .int k) :
    enc Γ c f id v fo bare = enc Γ c f id v { fo with fnum := 1 } false := by
  cases f with
  | zero => rfl
  | succ f =>
    unfold enc encBody encShape
    rw [hm]
    rcases hs with hs | ⟨k, hs⟩ <;> rw [hs]
    cases k <;> rfl

theorem encPacked_scalar {f : Nat} {e : Ty} {fo : FOpts} (hm : Γ.marsh e.deref = none)
    (hs : Γ.shape e.deref = .bool ∨ ∃ k, Γ.shape e.deref = .int k) (vs : List Val) :
    encPacked Γ (enc Γ c f) e fo vs = encPacked Γ (enc Γ c f) e { fo with fnum := 1 } vs := by
  induction vs with
  | nil => rfl
  | cons v vs ih =>
    unfold encPacked
    rw [ih, enc_scalar hm hs, enc_scalar (fo := { fo with fnum := 1 }) hm hs]

theorem typ3_fnum (id : TId) (fo : FOpts) (n : Nat) : Γ.typ3 id { fo with fnum := n } = Γ.typ3 id fo := rfl

/-- The field number makes no difference to plain kinds, and scalars are never framed. -/
theorem enc_plain {f : Nat} {id : TId} {v : Val} (hm : Γ.marsh id = none) (hp : plainKind Γ id = true) :
    enc Γ c f id v {} (Γ.typ3 id {} != typ3ByteLength) = enc Γ c f id v { fnum := 1 } false := by
  cases f with
  | zero => rfl
  | succ f =>
    unfold plainKind at hp
    have hlist : ∀ e, Γ.isByteKind e = false → (((Γ.marsh e.deref).isNone &&
        match Γ.shape e.deref with | .int _ | .bool => true | _ => false) = true) → ∀ b,
        encList Γ c (enc Γ c f) e v {} b = encList Γ c (enc Γ c f) e v { fnum := 1 } b := by
      intro e _ he b
      simp only [Bool.and_eq_true, Option.isNone_iff_eq_none] at he
      have hs : Γ.shape e.deref = .bool ∨ ∃ k, Γ.shape e.deref = .int k := by
        cases hs : Γ.shape e.deref <;> rw [hs] at he <;> simp at he ⊢
      have ht : Γ.typ3 e.deref {} ≠ typ3ByteLength := by
        unfold Prog.typ3
        rcases hs with hs | ⟨k, hs⟩ <;> rw [hs]
        · decide
        · cases k <;> decide
      have ht' : Γ.typ3 e.deref { fnum := 1 } ≠ typ3ByteLength := ht
      unfold encList
      cases v <;> simp only [if_pos ht, if_pos ht', encPacked_scalar (fo := {}) he.1 hs]
    have hb : ∀ e, Γ.shape id = .slice e ∨ (∃ n, Γ.shape id = .array n e) → (Γ.typ3 id {} != typ3ByteLength) = false := by
      intro e h
      unfold Prog.typ3
      rcases h with h | ⟨n, h⟩ <;> rw [h] <;> rfl
    cases hs : Γ.shape id with
    | int k => exact enc_scalar hm (.inr ⟨k, hs⟩)
    | bool => exact enc_scalar hm (.inl hs)
    | string =>
      unfold enc encBody encShape
      rw [hm, hs]
    | slice e =>
      rw [hb e (.inl hs)]
      simp only [hs] at hp
      unfold enc encBody encShape
      rw [hm, hs]
      simp only
      cases hbk : Γ.isByteKind e with
      | true => rfl
      | false =>
        simp only [Bool.false_eq_true, if_false]
        rw [hbk, Bool.false_or] at hp
        rw [hlist e hbk hp]
    | array n e =>
      rw [hb e (.inr ⟨n, hs⟩)]
      simp only [hs] at hp
      unfold enc encBody encShape
      rw [hm, hs]
      simp only
      cases hbk : Γ.isByteKind e with
      | true => rfl
      | false =>
        simp only [Bool.false_eq_true, if_false]
        rw [hbk, Bool.false_or] at hp
        rw [hlist e hbk hp]
    | _ => rw [hs] at hp; cases hp

theorem dec_plain_bare {g : Nat} {t : Ty} {p : Val} {fo : FOpts} {bz : Bytes} (hu : Γ.unmarsh t.deref = none)
    (ht : (Γ.typ3 t.deref {} != typ3ByteLength) = true) :
    dec Γ c g t p fo true bz = dec Γ c g t p fo false bz := by
  cases g with
  | zero => rfl
  | succ g =>
    unfold dec decBody
    rw [hu]
    simp only
    split
    · rfl
    · congr 1
      unfold decShape
      unfold Prog.typ3 at ht
      cases hs : Γ.shape t.deref <;> rw [hs] at ht <;> first | rfl | (simp [typ3ByteLength] at ht)

theorem plainKind_facts {id : TId} (hp : plainKind Γ id = true) :
    Γ.isIface id = false ∧ Γ.structOrRep id = false ∧ Γ.isKnown id = true := by
  unfold plainKind at hp
  unfold Prog.isIface Prog.structOrRep Prog.isKnown
  cases hs : Γ.shape id <;> rw [hs] at hp <;> simp at hp ⊢
  all_goals
    rename_i e
    cases e with
    | ptr => rfl
    | base i =>
      simp only [Prog.isByteKind, Ty.deref] at hp
      simp only [Prog.isStruct]
      cases hsi : Γ.shape i <;> rw [hsi] at hp <;> simp at hp ⊢

theorem stripPrefix_prefixOf (hp4 : Prefix4 c) (id : TId) (b : Bytes) : stripPrefix c id (prefixOf c id ++ b) = .ok b := by
  unfold stripPrefix prefixOf
  cases hci : c.conc? id with
  | none => rfl
  | some ci =>
    have h4 := hp4 _ _ hci
    simp only
    rw [if_neg (by rw [List.length_append]; omega), List.take_append_of_le_length (by omega), ← h4,
      List.take_length, if_neg (by simp), List.drop_append]
    simp

theorem ptrToListPanics_zero (t : Ty) : ptrToListPanics Γ t (Γ.zeroTy t) = false := by
  unfold ptrToListPanics
  cases t with
  | base i => simp [Ty.isPtr]
  | ptr t => simp [Prog.zeroTy, derefVal]

/-- C37 for plain kinds: what MarshalBinaryBare writes for a value that is not blank comes back.

Missing for the full statement: blank scalars and arrays (zero, false, the empty string), and lists of strings, byte
slices or interfaces, for which it is false (`C37_zero_refuted`, `C37_strings_refuted`); and types with MarshalAmino
(see C44). -/
theorem C37_roundTrip_partial (hU : Universe Γ c S) (hZ : ZeroOk Γ) (hT : Γ.Typed) (hum : UserTotal Γ) (hp4 : Prefix4 c)
    {t t' : Ty} {v dv : Val} {bz : Bytes} {f g : Nat} (hp : plainKind Γ t.deref = true) (hm : Γ.marsh t.deref = none)
    (hS : S t.deref { fnum := 1 }) (ht : HasTy Γ t v) (hd : pointee t v = some dv)
    (hnb : blank Γ f t.deref dv { fnum := 1 } = false) (h : marshalBare Γ c f t v = .ok bz)
    (hl : bz.length < 2 ^ 63) (hg : 2 * f ≤ g) (htt : t'.deref = t.deref) :
    ∃ w, roundTrip Γ c f t v = some w ∧ unmarshalBare Γ c g t' (Γ.zeroTy t') bz = .ok (refs t' w) := by
  obtain ⟨hni, hsr, hkn⟩ := plainKind_facts hp
  have hu := hU.noMarsh hS hm
  have hd' := hd
  rw [pointee_eq] at hd'
  unfold marshalBare at h
  rw [hd'] at h
  simp only at h
  obtain ⟨_, hi, h⟩ := Res.bind_eq_ok h
  rw [hsr] at h
  simp only [Bool.not_false, if_true] at h
  obtain ⟨kb, hkb, h⟩ := Res.bind_eq_ok h
  have hbz : bz = prefixOf c t.deref ++ kb := by
    unfold prefixOf
    split at h
    · rename_i ci hci; simp at h; rw [hci, ← h]
    · rename_i hci; simp at h; rw [hci, ← h]; rfl
  subst hbz
  unfold writeField at hkb
  obtain ⟨k, hk, hkb⟩ := Res.bind_eq_ok hkb
  obtain ⟨b, he, hkb⟩ := Res.bind_eq_ok hkb
  rw [enc_plain hm hp] at he
  have htd := hasTy_derefVal ht hd'
  have hlen : b.length < 2 ^ 63 := by
    simp only [Bool.not_false, Bool.true_and] at hkb
    split at hkb
    · rename_i hb0
      rw [beq_iff_eq] at hb0
      rw [hb0]; decide
    · simp at hkb
      rw [← hkb] at hl
      simp only [List.length_append] at hl
      omega
  have hlead := enc_lead hU hT f _ _ _ _ hS htd he hlen
  have hb0 : (b == [0]) = false := by
    cases hb : b == [0] with
    | false => rfl
    | true =>
      rw [beq_iff_eq] at hb
      have := hlead.blank.mp hb
      rw [hnb] at this; cases this
  rw [hb0] at hkb
  simp at hkb
  obtain ⟨w, hw⟩ := norm_total hU hT hum f _ _ _ _ _ hS htd (by simp [hni]) he
  refine ⟨w, by unfold roundTrip; rw [hd]; exact hw, ?_⟩
  have hf : 1 ≤ g := by
    cases f with
    | zero => simp [enc] at he
    | succ f => omega
  have ht8 : Γ.typ3 t.deref {} < 8 := typ3_lt _ _ _
  rw [encodeKey_eq 1 _ (by decide) ht8] at hk
  cases hk
  rw [← htt] at hS htd he hw hm hu hi hni hsr hkn ht8 hkb ⊢
  have hrt := (enc_dec hU hZ hT f g hg).ptr (dec_ptr hf) (noIfacePtr_of hni) hS htd (by simp [hni]) he hlen
    (rest := []) (by simp) hw
  rw [List.append_nil] at hrt
  unfold unmarshalBare
  rw [hi, Res.bind_ok, stripPrefix_prefixOf hp4, Res.bind_ok]
  unfold unmarshalContents
  rw [hsr, if_neg (by decide), ptrToListPanics_zero, if_neg (by decide), ← hkb, decodeKey_varint 1 _ (by decide) ht8]
  have hpos : 0 < (varint (8 * 1 + Γ.typ3 t'.deref {})).length :=
    List.length_pos_iff.mpr (varint_ne_nil _)
  rw [hni, hkn]
  simp only [List.length_append, Bool.and_false, Bool.not_false, Bool.and_true, decide_eq_true_eq]
  rw [if_pos (by omega), if_neg (by decide), if_neg (by simp), if_pos (by omega), List.drop_left]
  unfold decodeAll
  cases hb : (Γ.typ3 t'.deref {} != typ3ByteLength) with
  | false => rw [hrt]; simp
  | true => rw [dec_plain_bare hu hb, hrt]; simp

/-- `int64(7)`: key 1 and the varint. -/
example : unmarshalBare Demo.prog Demo.codecFoo 10 (.ptr (.base Demo.int64T)) .nil [8, 7] = .ok (.ptr (.int 7)) := by
  obtain ⟨w, hw, hu⟩ := C37_roundTrip_partial Demo.univ_foo Demo.prog_zero Demo.prog_typed Demo.user_total Demo.prefix4_foo
    (t := .base Demo.int64T) (t' := .ptr (.base Demo.int64T)) (v := .int 7) (dv := .int 7) (bz := [8, 7]) (f := 5) (g := 10)
    rfl rfl (show Demo.supported Demo.int64T = true by decide) (.int rfl (by decide)) rfl (by decide +kernel)
    (by decide +kernel) (by decide) (by omega) rfl
  rw [show roundTrip Demo.prog Demo.codecFoo 5 (.base Demo.int64T) (.int 7) = some (.int 7) by decide +kernel] at hw
  cases hw
  exact hu

/-- `[]int64{1, 300}`: one packed list under key 1. -/
example : ∃ w, roundTrip Demo.prog Demo.codecFoo 5 (.base Demo.int64sT) (.list [.int 1, .int 300]) = some w ∧
    unmarshalBare Demo.prog Demo.codecFoo 10 (.base Demo.int64sT) .nil [10, 3, 1, 172, 2] = .ok w :=
  C37_roundTrip_partial Demo.univ_foo Demo.prog_zero Demo.prog_typed Demo.user_total Demo.prefix4_foo
    (t := .base Demo.int64sT) (t' := .base Demo.int64sT) (dv := .list [.int 1, .int 300]) (f := 5) (g := 10)
    rfl rfl (show Demo.supported Demo.int64sT = true by decide)
    (.slice (e := .base Demo.int64T) rfl rfl (by simp; exact ⟨.int rfl (by decide), .int rfl (by decide)⟩)) rfl (by decide +kernel)
    (by decide +kernel) (by decide) (by omega) rfl

/-- C37 for integers, bools and strings: exactly the value comes back. -/
theorem C37_scalar_partial (hU : Universe Γ c S) (hZ : ZeroOk Γ) (hT : Γ.Typed) (hum : UserTotal Γ) (hp4 : Prefix4 c)
    {id : TId} {v : Val} {bz : Bytes} {f g : Nat}
    (hk : Γ.shape id = .bool ∨ Γ.shape id = .string ∨ ∃ k, Γ.shape id = .int k) (hm : Γ.marsh id = none)
    (hS : S id { fnum := 1 }) (ht : HasTy Γ (.base id) v) (hnz : v ≠ Γ.zero id) (h : marshalBare Γ c f (.base id) v = .ok bz)
    (hl : bz.length < 2 ^ 63) (hg : 2 * f ≤ g) :
    unmarshalBare Γ c g (.base id) (Γ.zero id) bz = .ok v := by
  have hp : plainKind Γ id = true := by
    unfold plainKind
    rcases hk with hk | hk | ⟨k, hk⟩ <;> rw [hk]
  have hf : ∃ k, f = k + 1 := by
    cases f with
    | succ f => exact ⟨f, rfl⟩
    | zero =>
      obtain ⟨hni, hsr, hkn⟩ := plainKind_facts hp
      unfold marshalBare at h
      simp only [derefVal] at h
      obtain ⟨_, hi, h⟩ := Res.bind_eq_ok h
      rw [show (Ty.base id).deref = id from rfl, hsr] at h
      simp only [Bool.not_false, if_true] at h
      obtain ⟨kb, hkb, h⟩ := Res.bind_eq_ok h
      unfold writeField at hkb
      obtain ⟨k, hk, hkb⟩ := Res.bind_eq_ok hkb
      obtain ⟨b, he, hkb⟩ := Res.bind_eq_ok hkb
      simp [enc] at he
  obtain ⟨f, rfl⟩ := hf
  have hnb : blank Γ (f + 1) id v { fnum := 1 } = false := by
    unfold blank
    rw [hm]
    simp only
    unfold blankShape
    rcases hk with hk | hk | ⟨k, hk⟩
    · rw [hk]
      rw [hZ.bool hk] at hnz
      cases v <;> try rfl
      rename_i b; cases b <;> simp at hnz ⊢
    · rw [hk]
      rw [hZ.string hk] at hnz
      cases v <;> try rfl
      simpa using hnz
    · rw [hk]
      rw [hZ.int hk] at hnz
      cases k <;> cases v <;> try rfl
      all_goals simpa using hnz
  obtain ⟨w, hw, hu⟩ := C37_roundTrip_partial hU hZ hT hum hp4 (t := .base id) (t' := .base id) hp hm hS ht rfl hnb h hl hg rfl
  have : w = v := by
    unfold roundTrip at hw
    simp only [pointee, Option.bind_some, Ty.deref] at hw
    unfold norm at hw
    rw [hm] at hw
    simp only [normShape] at hw
    rcases hk with hk | hk | ⟨k, hk⟩ <;> rw [hk] at hw <;> simp at hw <;> exact hw.symm
  rw [this] at hu
  exact hu

example : unmarshalBare Demo.prog Demo.codecFoo 10 (.base Demo.stringT) (.str []) [10, 2, 104, 105] = .ok (.str [104, 105]) :=
  C37_scalar_partial Demo.univ_foo Demo.prog_zero Demo.prog_typed Demo.user_total Demo.prefix4_foo (f := 5) (.inr (.inl rfl)) rfl
    (show Demo.supported Demo.stringT = true by decide) (.str rfl) (by simp [Demo.prog, Demo.zero, Demo.stringT])
    (by decide +kernel) (by decide) (by omega)

/-- C37 is false for zero: MarshalBinaryBare(int64(0)) writes nothing, and nothing cannot be read back. -/
theorem C37_zero_refuted :
    marshalBare Demo.prog Demo.codec 5 (.base Demo.int64T) (.int 0) = .ok [] ∧
    ∀ g p, ∃ e, unmarshalBare Demo.prog Demo.codec (g + 1) (.base Demo.int64T) p [] = .err e :=
  ⟨by decide +kernel, fun _ _ => ⟨_, rfl⟩⟩

/-- C37 is false for lists of strings: the inner key has field number 0 when written, 1 is expected. -/
theorem C37_strings_refuted :
    marshalBare Demo.prog Demo.codec 5 (.base Demo.stringsT) (.list [.str [104]]) = .ok [10, 3, 2, 1, 104] ∧
    unmarshalBare Demo.prog Demo.codec 9 (.base Demo.stringsT) .nil [10, 3, 2, 1, 104] = .err .fieldNum := by
  decide +kernel

/-! ## C38 -/

/-- C38: a registered non-struct type in an interface field comes back with its dynamic type (in the registered
shape) and its value, provided the field's number is not 1 (the hypotheses `Universe … ImplOk.shape` admit a
non-struct implementation exactly then).

Missing for the full statement: field number 1, lists of interfaces, and reading the type's own top-level encoding
into an interface, for all of which it is false (`C38_element_refuted`, `C38_firstField_refuted`,
`C38_topLevel_refuted`). -/
theorem C38_field_partial (hU : Universe Γ c S) (hZ : ZeroOk Γ) (hT : Γ.Typed) (hum : UserTotal Γ)
    {id : TId} {fo : FOpts} {t : Ty} {cv dv : Val} {b rest : Bytes} {f g : Nat}
    (hS : S id fo) (ht : HasTy Γ (.base id) (.iface t cv)) (hs : Γ.shape id = .iface) (hd : pointee t cv = some dv)
    (hk : Γ.shape t.deref = .bool ∨ Γ.shape t.deref = .string ∨ ∃ k, Γ.shape t.deref = .int k)
    (hmt : Γ.marsh t.deref = none)
    (he : enc Γ c f id (.iface t cv) fo false = .ok b) (hl : b.length < 2 ^ 63) (hg : 2 * f ≤ g) :
    dec Γ c g (.base id) .nil fo false (b ++ rest) = .ok b.length (.iface (.base t.deref) dv) ∨
    dec Γ c g (.base id) .nil fo false (b ++ rest) = .ok b.length (.iface (.ptr (.base t.deref)) (.ptr dv)) := by
  obtain ⟨ci, dv', w, _, _, h3, h4, h5⟩ := C26_dynamicType hU hZ hT hum (rest := rest) hS ht hs he hl (by simp) hg (marsh_iface hU hS hs)
  rw [hd] at h3
  cases h3
  have : w = dv := by
    cases f with
    | zero => simp [enc] at he
    | succ f =>
      cases f with
      | zero => simp [norm] at h4
      | succ f =>
        simp only [Nat.add_sub_cancel] at h4
        unfold norm at h4
        rw [hmt] at h4
        simp only [normShape] at h4
        rcases hk with hk | hk | ⟨k, hk⟩ <;> rw [hk] at h4 <;> simp at h4 <;> exact h4.symm
  subst this
  rw [h5]
  split
  · exact .inr rfl
  · exact .inl rfl

namespace Demo

/-- Uses of the demo types with all of `Foo`, `Bar` and `Str` registered: interfaces only in fields with a number
other than 1. -/
def S2 (id : TId) (fo : FOpts) : Prop :=
  (supported id && id != listsT && id != ifacesT && !(id == ifaceT && fo.fnum == 1)) = true

def fieldsCheck : Nat → List Field → Bool
  | _, [] => true
  | num, f :: fs =>
    f.visible && fieldCheck f && f.ty.deref != listsT && f.ty.deref != ifacesT && f.ty.deref != bytessT &&
      !(f.ty.deref == ifaceT && num + 1 == 1) &&
      (match (shape f.ty.deref).elem? with | some e => e.deref != listsT && e.deref != ifacesT && e.deref != ifaceT | none => true) &&
      fieldsCheck (num + 1) fs

theorem fieldsOk_of2 {num : Nat} {fs : List Field} (h : fieldsCheck num fs = true) : FieldsOk prog S2 num fs := by
  induction fs generalizing num with
  | nil => trivial
  | cons f fs ih =>
    simp only [fieldsCheck, Bool.and_eq_true] at h
    obtain ⟨⟨⟨⟨⟨⟨⟨h1, h2⟩, h3⟩, h4⟩, h5⟩, h6⟩, h7⟩, h8⟩ := h
    unfold FieldsOk
    rw [if_pos h1]
    refine ⟨?_, ih h8⟩
    have hf := fieldOk_of (num := num + 1) h2
    refine ⟨hf.noPtr, ?_, ?_⟩
    · intro hr
      refine ⟨rfl, rfl, ?_⟩
      intro e he
      obtain ⟨he1, he2⟩ := (hf.rep hr).2.2 e he
      refine ⟨he1, ?_⟩
      rw [show shape f.ty.deref = prog.shape f.ty.deref from rfl, he] at h7
      have hsup : supported e.deref = true := he2
      simp only [Bool.and_eq_true, bne_iff_ne] at h7
      simp [S2, hsup, h7]
    · intro hr
      obtain ⟨hs1, hs2⟩ := hf.single hr
      refine ⟨?_, hs2⟩
      have hsup : supported f.ty.deref = true := hs1
      simp only [bne_iff_ne] at h3 h4
      simp at h6
      simp only [S2, hsup, Bool.and_eq_true, bne_iff_ne]
      exact ⟨⟨⟨trivial, h3⟩, h4⟩, by simpa using h6⟩

theorem S2_supported {id : TId} {fo : FOpts} (h : S2 id fo) : supported id = true := by
  simp only [S2, Bool.and_eq_true] at h
  exact h.1.1.1

theorem S2_of {id : TId} {fo : FOpts} (h : (supported id && id != listsT && id != ifacesT && id != ifaceT) = true) :
    S2 id fo := by
  simp only [S2, Bool.and_eq_true, bne_iff_ne] at h ⊢
  exact ⟨h.1, by simp [h.2]⟩

theorem fieldsCheck_struct {id : TId} {fs : List Field} (h : prog.shape id = .struct fs)
    (hs : (supported id && id != listsT && id != ifacesT) = true) : fieldsCheck 0 fs = true := by
  match id with
  | 0 | 1 | 2 | 3 | 6 | 7 | 10 | 11 | 13 | 14 | 15 | 16 | 19 | 21 | 22 | 23 | 24 => simp [prog, shape] at h
  | 17 | 20 => exact absurd hs (by decide)
  | 4 | 5 | 8 | 9 | 12 | 18 | 25 =>
    simp only [prog, shape, Shape.struct.injEq] at h
    subst h
    decide +kernel
  | n + 26 => simp [prog, shape] at h

theorem slice_elem2 {id : TId} {e : Ty} (h : prog.shape id = .slice e) (h2 : id ≠ ifacesT) :
    (e.deref != listsT && e.deref != ifacesT && e.deref != ifaceT) = true := by
  match id with
  | 0 | 1 | 2 | 4 | 5 | 7 | 8 | 9 | 10 | 11 | 12 | 13 | 14 | 16 | 17 | 18 | 20 | 24 | 25 => simp [prog, shape] at h
  | 21 => exact absurd rfl h2
  | 3 | 6 | 15 | 19 | 22 | 23 =>
    simp only [prog, shape, Shape.slice.injEq] at h
    subst h
    decide +kernel
  | n + 26 => simp [prog, shape] at h

theorem conc_codec {id : TId} {ci : ConcInfo} (h : codec.conc? id = some ci) :
    (ci = foo ∧ id = fooT) ∨ (ci = bar ∧ id = barT) ∨ (ci = str ∧ id = strT) := by
  unfold Codec.conc? codec at h
  simp only [List.find?_cons, List.find?_nil] at h
  split at h
  · rename_i hh; cases h; exact .inl ⟨rfl, by simp [foo] at hh; exact hh.symm⟩
  · split at h
    · rename_i hh; cases h; exact .inr (.inl ⟨rfl, by simp [bar] at hh; exact hh.symm⟩)
    · split at h
      · rename_i hh; cases h; exact .inr (.inr ⟨rfl, by simp [str] at hh; exact hh.symm⟩)
      · cases h

theorem univ_codec : Universe prog codec S2 where
  noMap _ := shape_map
  registered _ h := by rw [shape_iface h]; rfl
  floats _ h := (shape_struct h).2.1
  marsh _ h := by simp [prog] at h
  noMarsh _ _ := rfl
  slice := by
    intro id fo e hS h _
    obtain ⟨h1, h2, h3, h4, _⟩ := shape_slice h
    unfold ListOk
    split
    · rename_i hb; exact h2 hb
    · refine ⟨h1 (by intro hh; have := S2_supported hS; subst hh; simp [supported] at this), h3, ?_⟩
      have h5 := slice_elem2 h (by
        intro hh; subst hh
        simp only [S2, Bool.and_eq_true] at hS
        exact absurd hS.1.2 (by decide))
      simp only [Bool.and_eq_true, bne_iff_ne] at h5
      simp [S2, h4, h5]
  array := by
    intro id fo n e hS h _
    obtain ⟨rfl, rfl, rfl⟩ := shape_array h
    unfold ListOk
    rw [if_neg (by decide)]
    exact ⟨by decide, by simp [noIfacePtr, Ty.isPtr], S2_of (by decide)⟩
  struct hS h _ := by
    refine fieldsOk_of2 (fieldsCheck_struct h ?_)
    simp only [S2, Bool.and_eq_true] at hS ⊢
    exact hS.1
  iface := by
    intro id fo ii hS h hii
    have hid := shape_iface h
    subst hid
    have : ii = { tid := ifaceT, priority := [], always := false, impls := [foo, str] } := by
      have : codec.iface? ifaceT = some { tid := ifaceT, priority := [], always := false, impls := [foo, str] } := rfl
      rw [this] at hii
      exact (Option.some.inj hii).symm
    subst this
    have hfn : fo.fnum ≠ 1 := by
      simp only [S2, Bool.and_eq_true] at hS
      simpa using hS.2
    refine ⟨?_, ?_⟩
    · intro t ci himp hci
      rcases conc_codec hci with ⟨rfl, h⟩ | ⟨rfl, h⟩ | ⟨rfl, h⟩
      · simp
      · simp only [prog, h] at himp; exact absurd himp (by decide)
      · simp
    · intro ci hci
      simp only [List.mem_cons, List.not_mem_nil, or_false] at hci
      rcases hci with rfl | rfl
      · exact ⟨S2_of (by decide), by decide, fun _ => by decide, by decide, by decide, by decide, by decide, by decide +kernel⟩
      · exact ⟨S2_of (by decide), by decide, fun h => absurd h hfn, by decide, by decide, by decide, by decide, by decide +kernel⟩

end Demo

/-- `Iface(Str("h"))` in field 6. -/
example : dec Demo.prog Demo.codec 10 (.base Demo.ifaceT) .nil { fnum := 6 } false ([6, 11, 12, 13, 14, 1, 104] ++ [58]) =
    .ok 7 (.iface (.base Demo.strT) (.str [104])) := by
  have ht : HasTy Demo.prog (.base Demo.ifaceT) (.iface (.base Demo.strT) (.str [104])) := .iface rfl rfl (.str rfl)
  rcases C38_field_partial Demo.univ_codec Demo.prog_zero Demo.prog_typed Demo.user_total (id := Demo.ifaceT) (fo := { fnum := 6 })
    (t := .base Demo.strT) (b := [6, 11, 12, 13, 14, 1, 104]) (rest := [58]) (f := 5) (g := 10)
    (show _ = true by decide) ht rfl rfl (.inr (.inl rfl)) rfl (by decide +kernel) (by decide) (by omega) with h | h
  · exact h
  · exact absurd h (by decide +kernel)

namespace Demo

/-- The program in which `[]int64` is registered and implements `Iface`, and `Holder` (id 30) is
`struct { I Iface }`. -/
def intsProg : Prog := { prog with
  shape := fun id => if id = 30 then .struct [{ ty := .base ifaceT }] else shape id
  zero := fun id => if id = 30 then .struct [.nil] else zero id
  implements := fun t i => i == ifaceT && (t.deref == int64sT || t.deref == strT) }

def ints : ConcInfo := { tid := int64sT, ptrPref := false, name := [105], disamb := [3, 3, 3], prefx := [21, 22, 23, 24] }

def intsCodec : Codec where
  ifaces := [{ tid := ifaceT, priority := [], always := false, impls := [ints, str] }]
  concs := [ints, str]
  byDisfix := [(ints.disfix, ints), (str.disfix, str)]
  byName := [(ints.name, ints), (str.name, str)]

end Demo

/-- C38 is false in lists of interfaces: `Lists{I: []Iface{Str("h")}}` is written but cannot be read. -/
theorem C38_element_refuted :
    marshalBare Demo.prog Demo.codec 12 (.base Demo.listsT)
      (.struct [.nil, .list [.iface (.base Demo.strT) (.str [104])], .nil, .nil]) = .ok [18, 6, 11, 12, 13, 14, 1, 104] ∧
    unmarshalBare Demo.prog Demo.codec 12 (.base Demo.listsT) (Demo.zero Demo.listsT) [18, 6, 11, 12, 13, 14, 1, 104] =
      .err .fieldNum := by
  decide +kernel

/-- C38 is false in field number 1: `Holder{[]int64{10, 1, 5}}` silently comes back as `Holder{[]int64{1, 5}}`. -/
theorem C38_firstField_refuted :
    marshalBare Demo.intsProg Demo.intsCodec 12 (.base 30)
      (.struct [.iface (.base Demo.int64sT) (.list [.int 10, .int 1, .int 5])]) = .ok [10, 7, 21, 22, 23, 24, 10, 1, 5] ∧
    unmarshalBare Demo.intsProg Demo.intsCodec 12 (.base 30) (.struct [.nil]) [10, 7, 21, 22, 23, 24, 10, 1, 5] =
      .ok (.struct [.iface (.base Demo.int64sT) (.list [.int 1, .int 5])]) := by
  decide +kernel

/-- C38 is false for reading a type's own encoding into an interface: `[]int64{5}` silently becomes
`[]int64{1, 5}`. -/
theorem C38_topLevel_refuted :
    marshalBare Demo.intsProg Demo.intsCodec 12 (.base Demo.int64sT) (.list [.int 5]) = .ok [21, 22, 23, 24, 10, 1, 5] ∧
    unmarshalBare Demo.intsProg Demo.intsCodec 12 (.base Demo.ifaceT) .nil [21, 22, 23, 24, 10, 1, 5] =
      .ok (.iface (.base Demo.int64sT) (.list [.int 1, .int 5])) := by
  decide +kernel

/-! ## C42 -/

/-- `e` is what remains of `t` after removing all list dimensions. -/
inductive Spec.Innermost (Γ : Prog) : Ty → Ty → Prop
  | leaf {t : Ty} : Γ.isListKind t = false → Innermost Γ t t
  | slice {id : TId} {e t : Ty} : Γ.shape id = .slice e → Innermost Γ e t → Innermost Γ (.base id) t
  | array {id : TId} {n : Nat} {e t : Ty} : Γ.shape id = .array n e → Innermost Γ e t → Innermost Γ (.base id) t

theorem innerIsByte_of {t e : Ty} (h : Innermost Γ t e) (hb : Γ.isByteKind e = false) :
    ∃ k0, (∀ k, k0 ≤ k → innerIsByte Γ k t = some false) ∧ ∀ k, k < k0 → innerIsByte Γ k t = none := by
  induction h with
  | @leaf t hl =>
    refine ⟨1, ?_, ?_⟩
    · intro k hk
      obtain ⟨k, rfl⟩ : ∃ j, k = j + 1 := ⟨k - 1, by omega⟩
      unfold innerIsByte
      cases t with
      | ptr _ => rfl
      | base id =>
        simp only
        unfold Prog.isListKind at hl
        unfold Prog.isByteKind at hb
        simp only at hl hb
        cases hs : Γ.shape id with
        | slice _ => rw [hs] at hl; simp at hl
        | array _ _ => rw [hs] at hl; simp at hl
        | int k => rw [hs] at hb; cases k <;> simp at hb ⊢
        | _ => rfl
    · intro k hk
      obtain rfl : k = 0 := by omega
      rfl
  | @slice id e t hs _ ih | @array id n e t hs _ ih =>
    obtain ⟨k0, h1, h2⟩ := ih hb
    refine ⟨k0 + 1, ?_, ?_⟩
    · intro k hk
      obtain ⟨k, rfl⟩ : ∃ j, k = j + 1 := ⟨k - 1, by omega⟩
      unfold innerIsByte
      simp only [hs]
      exact h1 k (by omega)
    · intro k hk
      cases k with
      | zero => rfl
      | succ k =>
        unfold innerIsByte
        simp only [hs]
        exact h2 k (by omega)

/-- C42: a list of lists whose innermost elements are not bytes is rejected wherever it is encoded as a value of
its own, whatever its contents.

Missing for the full statement: `[][]byte` and the like are written as nothing (`C42_bytes_refuted`,
`C42_pointer_refuted`).  A list of lists that is directly a struct field is written element by element; that case
is covered by C14 (the encoding determines the value). -/
theorem C42_rejected_partial {id : TId} {l e : Ty} (hm : Γ.marsh id = none)
    (hs : Γ.shape id = .slice l ∨ ∃ n, Γ.shape id = .array n l) (hl : Γ.isListKind l = true)
    (hi : Innermost Γ l e) (hb : Γ.isByteKind e = false) (v : Val) (fo : FOpts) (bare : Bool) :
    (∀ f b, enc Γ c f id v fo bare ≠ .ok b) ∧ ∃ f0, ∀ f, f0 ≤ f → enc Γ c f id v fo bare = .err .multiDim := by
  obtain ⟨k0, h1, h2⟩ := innerIsByte_of hi hb
  have hlb : Γ.isByteKind l = false := by
    unfold Prog.isListKind at hl
    unfold Prog.isByteKind
    cases l with
    | ptr _ => rfl
    | base i =>
      simp only at hl ⊢
      cases hsi : Γ.shape i <;> rw [hsi] at hl <;> simp at hl ⊢
  have hE : ∀ f, enc Γ c (f + 1) id v fo bare =
      match innerIsByte Γ f l with
      | none => .oof
      | some true => .ok []
      | some false => .err .multiDim := by
    intro f
    conv => lhs; unfold enc encBody
    rw [hm]
    simp only
    unfold encShape
    rcases hs with hs | ⟨n, hs⟩ <;> simp only [hs, hlb, hl, if_true, Bool.false_eq_true, if_false] <;>
      cases innerIsByte Γ f l with
      | none => rfl
      | some b => cases b <;> rfl
  refine ⟨?_, k0 + 1, ?_⟩
  · intro f b
    cases f with
    | zero => simp [enc]
    | succ f =>
      rw [hE]
      rcases Nat.lt_or_ge f k0 with h | h
      · rw [h2 f h]; simp
      · rw [h1 f h]; simp
  · intro f hf
    obtain ⟨f, rfl⟩ : ∃ j, f = j + 1 := ⟨f - 1, by omega⟩
    rw [hE, h1 f (by omega)]

namespace Demo

/-- With `[][]int64` (id 31), `[][][]byte` (id 32), `struct { P *[][]byte }` (id 33) and
`struct { L [][][]byte }` (id 34). -/
def dimProg : Prog := { prog with
  shape := fun id =>
    if id = 31 then .slice (.base int64sT) else if id = 32 then .slice (.base bytessT)
    else if id = 33 then .struct [{ ty := .ptr (.base bytessT) }] else if id = 34 then .struct [{ ty := .base 32 }] else shape id
  zero := fun id => if id = 31 ∨ id = 32 then .nil else if id = 33 ∨ id = 34 then .struct [.nil] else zero id }

end Demo

example (v : Val) (f : Nat) (b : Bytes) : enc Demo.dimProg Demo.codec f 31 v {} false ≠ .ok b :=
  (C42_rejected_partial (Γ := Demo.dimProg) (c := Demo.codec) (id := 31) (l := .base Demo.int64sT) (e := .base Demo.int64T) rfl
    (.inl rfl) rfl (.slice rfl (.leaf rfl)) rfl v {} false).1 f b

/-- C42 is false for `[][]byte`: MarshalBinaryBare succeeds with the same single byte for any two values. -/
theorem C42_bytes_refuted (v w : Val) :
    marshalBare Demo.prog Demo.codec 12 (.base Demo.bytessT) v = .ok [10] ∧
    marshalBare Demo.prog Demo.codec 12 (.base Demo.bytessT) w = .ok [10] := ⟨rfl, rfl⟩

/-- C42 is false for `*[][]byte` and `[][][]byte` fields: different contents, same bytes, no error. -/
theorem C42_pointer_refuted :
    marshalBare Demo.dimProg Demo.codec 12 (.base 33) (.struct [.ptr (.list [.bytes [1]])]) = .ok [10] ∧
    marshalBare Demo.dimProg Demo.codec 12 (.base 33) (.struct [.ptr (.list [.bytes [2], .bytes [3]])]) = .ok [10] ∧
    marshalBare Demo.dimProg Demo.codec 12 (.base 34) (.struct [.list [.list [.bytes [1]]]]) = .ok [10] ∧
    marshalBare Demo.dimProg Demo.codec 12 (.base 34) (.struct [.list [.list [.bytes [2]]]]) = .ok [10] := by
  decide +kernel

end Amino
