import Verif.JDemo
import Verif.JsonExact

/-!
# Properties of MarshalJSON and UnmarshalJSON
-/

namespace Amino
open Spec

variable {Γ : Prog} {c : Codec} {J : JLib} {S : TId → Prop} {fl : Bool}

/-! ## C46: round trip -/

theorem marshalJSON_inv {fuel : Nat} {t : Ty} {v : Val} {bz : Bytes}
    (h : marshalJSON Γ c J fuel (some (t, v)) = .ok bz) : getInfo Γ c t.deref = .ok () ∧
      ∃ b, jenc Γ c J fuel false t v {} = .ok b ∧
        bz = match c.conc? t.deref with | some ci => wrapText ci.name b | none => b := by
  rw [marshalJSON] at h
  obtain ⟨_, hi, h⟩ := Res.bind_eq_ok h
  obtain ⟨b, hb, h⟩ := Res.bind_eq_ok h
  refine ⟨hi, b, hb, ?_⟩
  split at h
  · rename_i ci hc; rw [hc]; exact (Res.ok.inj h).symm
  · rename_i hc; rw [hc]; exact (Res.ok.inj h).symm

theorem roundtrip_aux (hU : JUniv Γ c J fl S) (hL : LibOk J) (hT : Γ.Typed) (hZ : ZeroOk Γ) (hum : UserTotal Γ)
    {fuel : Nat} {t : Ty} {v : Val} {bz : Bytes} (hS : JOk Γ S t) (ht : HasTy Γ t v)
    (hN : ∀ ci, c.conc? t.deref = some ci → PlainName ci.name) (hfl : fl = false)
    (he : marshalJSON Γ c J fuel (some (t, v)) = .ok bz) :
    JText bz ∧ ∃ w, jnorm Γ c fuel t v = some w ∧ HasTy Γ t w ∧
      ∀ g, fuel ≤ g → unmarshalJSON Γ c J g t (zeroOf Γ t) bz = .ok w := by
  obtain ⟨hi, b, hb, rfl⟩ := marshalJSON_inv he
  obtain ⟨h1, _, w, hw, htw, _⟩ := jenc_rt hU hL hT hZ hum (Nat.le_refl fuel) false t v {} b hS ht hb
  have hdec : ∀ g, fuel ≤ g → jdec Γ c J g t (Γ.zeroTy t) {} b = .ok w := by
    intro g hg
    obtain ⟨_, _, w', hw', _, hrd⟩ := jenc_rt hU hL hT hZ hum hg false t v {} b hS ht hb
    rw [hw] at hw'
    cases hw'
    exact hrd {} (by intro h; rw [hfl] at h; cases h)
  cases hc : c.conc? t.deref with
  | none =>
    refine ⟨h1, w, hw, htw, fun g hg => ?_⟩
    rw [unmarshalJSON, if_neg (jtext_ne_nil h1), hi, Res.bind_ok, hc, zeroOf_eq]
    exact hdec g hg
  | some ci =>
    have hp := hN ci hc
    have hj := jtext_wrap hp h1
    refine ⟨hj, w, hw, htw, fun g hg => ?_⟩
    rw [unmarshalJSON, if_neg (jtext_ne_nil hj), hi, Res.bind_ok, hc]
    simp only
    rw [decodeInterfaceJSON_wrap hp h1, Res.bind_ok, if_neg (by simp), zeroOf_eq]
    exact hdec g hg

/-- C46: what MarshalJSON writes UnmarshalJSON reads back, up to `jnorm`.  Partial with respect to the property
as stated: `jnorm` changes more than the property allows (see `C46_refuted`), and types with their own
MarshalJSON/UnmarshalJSON methods, pointers to interfaces and field names that are not valid UTF-8 are excluded
(`JUniv`). -/
theorem C46_json_roundtrip_partial (hU : JUniv Γ c J false S) (hL : LibOk J) (hT : Γ.Typed) (hZ : ZeroOk Γ)
    (hum : UserTotal Γ) {fuel : Nat} {t : Ty} {v : Val} {bz : Bytes} (hS : JOk Γ S t) (ht : HasTy Γ t v)
    (hN : ∀ ci, c.conc? t.deref = some ci → PlainName ci.name)
    (he : marshalJSON Γ c J fuel (some (t, v)) = .ok bz) :
    ∃ w, jnorm Γ c fuel t v = some w ∧ HasTy Γ t w ∧
      ∀ g, fuel ≤ g → unmarshalJSON Γ c J g t (zeroOf Γ t) bz = .ok w :=
  (roundtrip_aux hU hL hT hZ hum hS ht hN rfl he).2

/-- C46: values that JSON has an exact notation for come back exactly. -/
theorem C46_json_exact_partial (hU : JUniv Γ c J false S) (hL : LibOk J) (hT : Γ.Typed) (hZ : ZeroOk Γ)
    (hum : UserTotal Γ) {fuel : Nat} {t : Ty} {v : Val} {bz : Bytes} (hS : JOk Γ S t) (ht : HasTy Γ t v)
    (hN : ∀ ci, c.conc? t.deref = some ci → PlainName ci.name) (hx : Exact Γ c t v)
    (he : marshalJSON Γ c J fuel (some (t, v)) = .ok bz) {g : Nat} (hg : fuel ≤ g) :
    unmarshalJSON Γ c J g t (zeroOf Γ t) bz = .ok v := by
  obtain ⟨w, hw, _, hd⟩ := C46_json_roundtrip_partial hU hL hT hZ hum hS ht hN he
  rw [hd g hg, jnorm_exact hx hw]

namespace JDemo

/-- The text of `rec1`. -/
def rec1Text : Bytes :=
  match marshalJSON prog codec lib 5 (some (.base recT, rec1)) with
  | .ok b => b
  | _ => []

theorem rec1_marshals : marshalJSON prog codec lib 5 (some (.base recT, rec1)) = .ok rec1Text := by decide +kernel

/-- The hypotheses of C46 are met by a struct with every construct. -/
example : ∃ w, jnorm prog codec 5 (.base recT) rec1 = some w ∧ HasTy prog (.base recT) w ∧
    ∀ g, 5 ≤ g → unmarshalJSON prog codec lib g (.base recT) (zeroOf prog (.base recT)) rec1Text = .ok w :=
  C46_json_roundtrip_partial (univ false) libOk typed zeroOk user_total (base_ok (by decide) (by decide)) rec1_typed
    (by intro ci h; rw [(conc_foo h).1]; exact plain_f) rec1_marshals

example : jnorm prog codec 5 (.base recT) rec1 = some rec1Back := by decide +kernel
example : unmarshalJSON prog codec lib 5 (.base recT) (prog.zero recT) rec1Text = .ok rec1Back := by decide +kernel

/-- `Foo{9}` comes back exactly. -/
example : unmarshalJSON prog codec lib 5 (.base fooT) (zeroOf prog (.base fooT))
    (wrapText [0x66] [0x7b, 0x22, 0x4e, 0x22, 0x3a, 0x22, 0x39, 0x22, 0x7d]) = .ok (.struct [.int 9]) := by
  refine C46_json_exact_partial (S := JDemo.S false) (univ false) libOk typed zeroOk user_total (fuel := 5)
    (base_ok (by decide) (by decide)) ?_ (by intro ci h; rw [(conc_foo h).1]; exact plain_f) ?_ ?_ (Nat.le_refl 5)
  · refine .struct (fs := [{ ty := .base int64T, opts := { jsonName := [0x4e] } }]) rfl rfl ?_
    simp
    exact .int rfl (by decide)
  · refine .struct (fs := [{ ty := .base int64T, opts := { jsonName := [0x4e] } }]) rfl rfl rfl ?_ ?_
    · simp [FieldBack]
    · simp
      exact .int rfl rfl
  · decide +kernel

end JDemo

/-- C46 is violated as stated: a string that is not valid UTF-8 comes back as another string; so does a nil map
(as an empty map). -/
theorem C46_refuted :
    (∃ bz, marshalJSON JDemo.prog JDemo.codec JDemo.lib 3 (some (.base JDemo.stringT, .str [0xff])) = .ok bz ∧
      unmarshalJSON JDemo.prog JDemo.codec JDemo.lib 3 (.base JDemo.stringT) (.str []) bz = .ok (.str [0xef, 0xbf, 0xbd])) ∧
    ∃ bz, marshalJSON JDemo.prog JDemo.codec JDemo.lib 3 (some (.base JDemo.mapT, .nil)) = .ok bz ∧
      unmarshalJSON JDemo.prog JDemo.codec JDemo.lib 3 (.base JDemo.mapT) .nil bz = .ok (.map []) :=
  ⟨⟨_, rfl, by decide +kernel⟩, ⟨_, rfl, by decide +kernel⟩⟩

/-! ## C47: integers -/

/-- The type has no methods amino looks for. -/
structure NoMethods (Γ : Prog) (J : JLib) (id : TId) : Prop where
  marsh : Γ.marsh id = none
  unmarsh : Γ.unmarsh id = none
  json : ∀ a, J.marsh id a = none
  unjson : J.unmarsh id = none

theorem jdec_int {id : TId} {k : IntKind} (hs : Γ.shape id = .int k) (hm : NoMethods Γ J id) (g : Nat) (p : Val)
    (fo : FOpts) (bz : Bytes) (hn : bz ≠ jNull) : jdec Γ c J (g + 1) (.base id) p fo bz = jdecInt k bz := by
  have h1 : Γ.isIface id = false := by simp [Prog.isIface, hs]
  rw [jdec]
  simp only [Ty.deref, h1, Bool.false_and]
  rw [if_neg (by simp), if_neg hn, jdecBase, if_neg (by rw [hs]; simp), hm.unjson, hm.unmarsh]
  simp only [jdecShape, hs]
  cases jdecInt k bz <;> rfl

/-- C47: integers are written in decimal, those of 64 bits in quotes. -/
theorem C47_json_int_written {id : TId} {k : IntKind} {i : Int} (hs : Γ.shape id = .int k) (hm : NoMethods Γ J id)
    (f : Nat) (a : Bool) (fo : FOpts) :
    ∃ ds, DecText i ds ∧ jenc Γ c J (f + 1) a (.base id) (.int i) fo =
      .ok (if k.bits = 64 then 0x22 :: (ds ++ [0x22]) else ds) := by
  refine ⟨intText i, decText_intText i, ?_⟩
  rw [jenc]
  simp only [derefVal, Ty.deref, jencBase, hm.json, hm.marsh, jencShape, hs]
  by_cases h : k.bits = 64
  · simp only [if_pos h, ite_self]
  · simp only [if_neg h, ite_self]

/-- C47: a decimal number (in quotes for 64 bits) is read as that number if it is in the range of the type, and
rejected otherwise. -/
theorem C47_json_int_read {id : TId} {k : IntKind} {i : Int} {ds : Bytes} (hs : Γ.shape id = .int k)
    (hm : NoMethods Γ J id) (hd : DecText i ds) (g : Nat) (p : Val) (fo : FOpts) :
    jdec Γ c J (g + 1) (.base id) p fo (if k.bits = 64 then 0x22 :: (ds ++ [0x22]) else ds) =
      if k.inRange i then .ok (.int i) else .err .json := by
  have := jdec_int (c := c) hs hm g p fo _ (intJson_ne_null (k := k) hd)
  rw [jdecInt_dec hd] at this
  exact this

/-- C47: for 64-bit integers whatever does not begin with a quote is rejected (except `null`). -/
theorem C47_json_unquoted_rejected {id : TId} {k : IntKind} (hs : Γ.shape id = .int k) (hm : NoMethods Γ J id)
    (h64 : k.bits = 64) (g : Nat) (p : Val) (fo : FOpts) {bz : Bytes} (hne : bz ≠ []) (hn : bz ≠ jNull)
    (hq : bz.head? ≠ some 0x22) : jdec Γ c J (g + 1) (.base id) p fo bz = .err .json := by
  rw [jdec_int hs hm _ _ _ _ hn, jdecInt, if_pos h64, if_neg hne, if_pos (.inl hq)]

/-- C47: no input gives a value outside the range of the type. -/
theorem C47_json_int_in_range {id : TId} {k : IntKind} (hs : Γ.shape id = .int k) (hm : NoMethods Γ J id)
    (hz : Γ.zero id = .int 0) {g : Nat} {p v : Val} {fo : FOpts} {bz : Bytes}
    (h : jdec Γ c J (g + 1) (.base id) p fo bz = .ok v) : ∃ i, v = .int i ∧ k.inRange i := by
  by_cases hn : bz = jNull
  · have h1 : Γ.isIface id = false := by simp [Prog.isIface, hs]
    rw [jdec] at h
    simp only [Ty.deref, h1, Bool.false_and] at h
    rw [if_neg (by simp), if_pos hn] at h
    cases h
    exact ⟨0, hz, zero_inRange k⟩
  · rw [jdec_int hs hm _ _ _ _ hn] at h
    have hi : ∀ b, (ofOpt Err.json (unmInt k 0 b)).bind (fun i => Res.ok (Val.int i)) = .ok v →
        ∃ i, v = .int i ∧ k.inRange i := by
      intro b h
      obtain ⟨i, hi, h⟩ := Res.bind_eq_ok h
      cases h
      cases hu : unmInt k 0 b with
      | none => rw [hu] at hi; cases hi
      | some j =>
        rw [hu] at hi
        cases hi
        exact ⟨_, rfl, unmInt_range (zero_inRange k) hu⟩
    unfold jdecInt at h
    split at h
    · split at h
      · cases h
      split at h
      · cases h
      split at h
      · cases h
      · exact hi _ h
    · exact hi _ h

namespace JDemo

theorem noMethods {id : TId} (h : id ≠ centsT) : NoMethods prog lib id where
  marsh := by simp [prog, h]
  unmarsh := by simp [prog, h]
  json _ := rfl
  unjson := rfl

/-- `-120` -/
def m120 : Bytes := [0x2d, 0x31, 0x32, 0x30]

theorem m120_dec : DecText (-120) m120 :=
  DecText.neg (ds := [0x31, 0x32, 0x30]) (.pos (by decide) (by decide) (by simp [Digit])) (by decide)

example : jdec prog codec lib 1 (.base int64T) (.int 5) {} (0x22 :: (m120 ++ [0x22])) = .ok (.int (-120)) :=
  C47_json_int_read (k := .int64) rfl (noMethods (by decide)) m120_dec 0 _ _
example : jdec prog codec lib 1 (.base byteT) (.int 5) {} m120 = .err .json :=
  C47_json_int_read (k := .uint8) rfl (noMethods (by decide)) m120_dec 0 _ _
example : jdec prog codec lib 1 (.base int64T) (.int 5) {} m120 = .err .json :=
  C47_json_unquoted_rejected (k := .int64) rfl (noMethods (by decide)) rfl _ _ _ (by decide) (by decide) (by decide)
example : ∃ i, Val.int 0 = .int i ∧ IntKind.int64.inRange i :=
  C47_json_int_in_range (Γ := prog) (c := codec) (J := lib) (id := int64T) (k := .int64) (g := 0) (p := .int 5) (fo := {})
    (bz := jNull) rfl (noMethods (by decide)) rfl (by decide +kernel)

end JDemo

/-! ## C48: floats -/

/-- C48 is violated: `Fl{0.0}` with the float tagged `amino:"unsafe"` is written but not read. -/
theorem C48_refuted :
    HasTy JDemo.prog (.base JDemo.flT) (.struct [.f64 0]) ∧ LibOk JDemo.lib ∧
    marshalJSON JDemo.prog JDemo.codec JDemo.lib 3 (some (.base JDemo.flT, .struct [.f64 0])) =
      .ok [0x7b, 0x22, 0x58, 0x22, 0x3a, 0x30, 0x7d] ∧
    ∀ g, 2 ≤ g → unmarshalJSON JDemo.prog JDemo.codec JDemo.lib g (.base JDemo.flT) (.struct [.f64 0])
      [0x7b, 0x22, 0x58, 0x22, 0x3a, 0x30, 0x7d] = .err .floatUnsafe := by
  refine ⟨JDemo.typed.zero JDemo.flT, JDemo.libOk, by decide +kernel, fun g hg => ?_⟩
  obtain ⟨g, rfl⟩ : ∃ k, g = k + 2 := ⟨g - 2, by omega⟩
  rfl

/-- C48: no text but `null` is ever accepted for a float by UnmarshalJSON: the options that reach the float are
not those of its field. -/
theorem C48_json_float_rejected {id : TId} (hs : Γ.shape id = .float32 ∨ Γ.shape id = .float64) (hm : NoMethods Γ J id)
    (g : Nat) (p : Val) {fo : FOpts} (hf : fo.floatOk = false) {bz : Bytes} (hn : bz ≠ jNull) :
    jdec Γ c J (g + 1) (.base id) p fo bz = .err .floatUnsafe := by
  have h1 : Γ.isIface id = false := by rcases hs with hs | hs <;> simp [Prog.isIface, hs]
  rw [jdec]
  simp only [Ty.deref, h1, Bool.false_and]
  rw [if_neg (by simp), if_neg hn, jdecBase, if_neg (by rcases hs with hs | hs <;> rw [hs] <;> simp), hm.unjson, hm.unmarsh]
  rcases hs with hs | hs <;> (simp only [jdecShape, hs, hf]; rfl)

/-- C48: were the option passed on, everything written would be read back. -/
theorem C48_json_float_partial (hU : JUniv Γ c J true S) (hL : LibOk J) (hT : Γ.Typed) (hZ : ZeroOk Γ)
    (hum : UserTotal Γ) {f g : Nat} (hg : f ≤ g) {a : Bool} {t : Ty} {v : Val} {fo fo' : FOpts} {b : Bytes}
    (hS : JOk Γ S t) (ht : HasTy Γ t v) (he : jenc Γ c J f a t v fo = .ok b) (hf : fo'.floatOk = true) :
    ∃ w, jnorm Γ c f t v = some w ∧ HasTy Γ t w ∧ jdec Γ c J g t (zeroOf Γ t) fo' b = .ok w := by
  obtain ⟨_, _, w, hw, htw, hrd⟩ := jenc_rt hU hL hT hZ hum hg a t v fo b hS ht he
  exact ⟨w, hw, htw, by rw [zeroOf_eq]; exact hrd fo' fun _ => hf⟩

namespace JDemo
example : jdec prog codec lib 1 (.base f64T) (.f64 0) {} [0x30] = .err .floatUnsafe :=
  C48_json_float_rejected (.inr rfl) (noMethods (by decide)) _ _ rfl (by decide)
example : ∃ w, jnorm prog codec 3 (.base flT) (.struct [.f64 0]) = some w ∧ HasTy prog (.base flT) w ∧
    jdec prog codec lib 3 (.base flT) (zeroOf prog (.base flT)) { floatOk := true }
      [0x7b, 0x22, 0x58, 0x22, 0x3a, 0x30, 0x7d] = .ok w :=
  C48_json_float_partial (univ true) libOk typed zeroOk user_total (Nat.le_refl 3) (a := false) (fo := {})
    ⟨.inl rfl, by simp [Ty.isPtr]⟩ (typed.zero flT) (by decide +kernel) rfl
end JDemo

/-! ## C49: determinism -/

/-- C49 is violated: the text depends on the iteration order of maps. -/
theorem C49_refuted : ∃ v v' : Val, SameVal v v' ∧ HasTy JDemo.prog (.base JDemo.mapT) v ∧
    ∃ b b', marshalJSON JDemo.prog JDemo.codec JDemo.lib 2 (some (.base JDemo.mapT, v)) = .ok b ∧
      marshalJSON JDemo.prog JDemo.codec JDemo.lib 2 (some (.base JDemo.mapT, v')) = .ok b' ∧ b ≠ b' := by
  refine ⟨.map [([0x61], .int 1), ([0x62], .int 2)], .map [([0x62], .int 2), ([0x61], .int 1)], ?_, ?_,
    _, _, rfl, rfl, by decide +kernel⟩
  · refine .map (m := [([0x61], .int 1), ([0x62], .int 2)]) rfl ?_ ?_ (List.Perm.swap _ _ _)
    · simp
    · simp only [List.zip_cons_cons, List.zip_nil_left, List.mem_cons, List.not_mem_nil, or_false, forall_eq_or_imp, forall_eq]
      exact ⟨.refl, .refl⟩
  · refine .map (e := .base JDemo.int64T) rfl ?_
    simp
    exact ⟨.int rfl (by decide), .int rfl (by decide)⟩

/-- C49: for values whose maps have at most one entry the text is determined by the value. -/
theorem C49_json_deterministic_partial {v v' : Val} (h : SameVal v v') (hs : SmallMaps v) (fuel : Nat) (t : Ty) :
    marshalJSON Γ c J fuel (some (t, v)) = marshalJSON Γ c J fuel (some (t, v')) := by
  rw [sameVal_eq h hs]

example : SmallMaps (.struct [.map [([0x61], .int 1)], .int 5]) :=
  .struct (by simp; exact ⟨.map (by simp) (by simp; exact .int), .int⟩)

/-! ## C50: interfaces -/

/-- C50 is violated: `{"type":"b","value":{}}` names a registered type that does not implement the interface:
`reflect.Value.Set` panics. -/
theorem C50_refuted : ∃ bz, JText bz ∧ ∀ g, 3 ≤ g →
    unmarshalJSON JDemo.prog JDemo.codec2 JDemo.lib g (.base JDemo.ifaceT) .nil bz = .panic .notAssignable := by
  refine ⟨wrapText [0x62] [0x7b, 0x7d], jtext_wrap ⟨by decide, utf8_ascii (by decide), by decide⟩
    (jtext_obj (ms := []) (by simp)), fun g hg => ?_⟩
  obtain ⟨g, rfl⟩ : ∃ k, g = k + 3 := ⟨g - 3, by omega⟩
  rfl

/-- C50: if every registered type implements the interface, decoding any text into an interface variable gives nil
or a value of a registered implementation, or an error. -/
theorem C50_json_iface_partial {rank : TId → Nat} {R : Nat} (hU : JSafe Γ c J S rank R) (hL : LibTy J) (hT : Γ.Typed)
    {id : TId} (hS : S id) {p : Val} (hp : HasTy Γ (.base id) p) {bz : Bytes} (hne : bz ≠ [])
    (hq : bz ≠ [0x22]) {f : Nat} (hf : bz.length * (R + 1) + rank id < f) :
    (∃ e, unmarshalJSON Γ c J f (.base id) p bz = .err e) ∨
      ∃ v, unmarshalJSON Γ c J f (.base id) p bz = .ok v ∧ HasTy Γ (.base id) v := by
  rw [unmarshalJSON, if_neg hne]
  have hi := hU.info hS
  simp only [Ty.deref, hi, Res.bind_ok]
  have hfin : ∀ {b : Bytes}, b ≠ [] → b ≠ [0x22] → b.length ≤ bz.length →
      (∃ e, jdec Γ c J f (.base id) p {} b = .err e) ∨
        ∃ v, jdec Γ c J f (.base id) p {} b = .ok v ∧ HasTy Γ (.base id) v := by
    intro b h1 h2 h3
    have hle : b.length * (R + 1) ≤ bz.length * (R + 1) := Nat.mul_le_mul_right _ h3
    have := jdec_fine hU hL hT.zero (t := .base id) (fo := {}) ⟨hS, by simp [Ty.isPtr]⟩ hp h1 h2 (f := f) (by simp only [Ty.deref]; omega)
    cases hd : jdec Γ c J f (.base id) p {} b with
    | ok v => rw [hd] at this; exact .inr ⟨v, rfl, this⟩
    | err e => exact .inl ⟨e, rfl⟩
    | panic q => rw [hd] at this; exact this.elim
    | oof => rw [hd] at this; exact this.elim
  split
  · rcases decodeInterfaceJSON_cases bz with ⟨nd, hnd⟩ | ⟨e, he⟩
    · rw [hnd, Res.bind_ok]
      split
      · exact .inl ⟨_, rfl⟩
      · have := decodeInterfaceJSON_inner hnd
        exact hfin this.2.1 this.2.2 (by have := this.1; omega)
    · rw [he]; exact .inl ⟨e, rfl⟩
  · exact hfin hne hq (Nat.le_refl _)

/-- C50: a value decoded into an interface variable is nil or of a type registered under the name given in the text,
in the pointer shape it was registered in; it implements the interface. -/
theorem C50_json_iface_value {id : TId} (hs : Γ.shape id = .iface) (hm : NoMethods Γ J id) (hz : Γ.zero id = .nil)
    {g : Nat} {p v : Val} {fo : FOpts} {bz : Bytes} (h : jdec Γ c J (g + 1) (.base id) p fo bz = .ok v) :
    v = .nil ∨ ∃ name data ci w, decodeInterfaceJSON bz = .ok (name, data) ∧ c.name? name = some ci ∧
      jdec Γ c J g (.base ci.tid) (Γ.zero ci.tid) fo data = .ok w ∧
      v = (if ci.ptrPref then .iface (.ptr (.base ci.tid)) (.ptr w) else .iface (.base ci.tid) w) ∧
      Γ.implements (if ci.ptrPref then .ptr (.base ci.tid) else .base ci.tid) id = true := by
  rw [jdec] at h
  split at h
  · cases h
  split at h
  · cases h; exact .inl hz
  obtain ⟨x, hx, h⟩ := Res.bind_eq_ok h
  cases h
  simp only [jdecBase, Ty.deref, hm.unjson, hm.unmarsh, ite_self] at hx
  simp only [jdecShape, hs, jdecIface] at hx
  obtain ⟨nd, hnd, hx⟩ := Res.bind_eq_ok hx
  cases hc : c.name? nd.1 with
  | none => rw [hc] at hx; cases hx
  | some ci =>
    rw [hc] at hx
    simp only at hx
    split at hx
    · rename_i w hw
      split at hx
      · rename_i himp
        cases hx
        refine .inr ⟨nd.1, nd.2, ci, w, hnd, hc, hw, ?_, himp⟩
        unfold ConcInfo.dynTy
        cases ci.ptrPref <;> rfl
      · cases hx
    · split at hx <;> cases hx
    · cases hx
    · cases hx

namespace JDemo
example : decodeInterfaceJSON (wrapText [0x66] [0x7b, 0x7d]) = .ok ([0x66], [0x7b, 0x7d]) ∧
    jdec prog codec lib 3 (.base ifaceT) .nil {} (wrapText [0x66] [0x7b, 0x7d]) =
      .ok (.iface (.ptr (.base fooT)) (.ptr (.struct [.int 0]))) := by decide +kernel

example (bz : Bytes) (hne : bz ≠ []) (hq : bz ≠ [0x22]) {f : Nat} (hf : bz.length * 2 + 0 < f) :
    (∃ e, unmarshalJSON prog codec lib f (.base ifaceT) .nil bz = .err e) ∨
      ∃ v, unmarshalJSON prog codec lib f (.base ifaceT) .nil bz = .ok v ∧ HasTy prog (.base ifaceT) v :=
  C50_json_iface_partial jsafe libTy typed trivial (.ifaceNil rfl) hne hq hf
end JDemo

/-! ## C54: names -/

/-- C54 is violated: a value of a type registered under the name `"` is written as text that is not JSON. -/
theorem C54_refuted : ∃ bz, marshalJSON JDemo.prog JDemo.codecBad JDemo.lib 3 (some (.base JDemo.barT, .struct [.str []])) = .ok bz ∧
    validJSON bz = false :=
  ⟨_, rfl, by decide +kernel⟩

/-- C54: for names without quotes, backslashes and control characters, in valid UTF-8, the text is JSON, and the
name is read from it. -/
theorem C54_json_wrapper_partial (hU : JUniv Γ c J fl S) (hL : LibOk J) (hT : Γ.Typed) (hZ : ZeroOk Γ)
    (hum : UserTotal Γ) {fuel : Nat} {t : Ty} {v : Val} {bz : Bytes} {ci : ConcInfo} (hS : JOk Γ S t) (ht : HasTy Γ t v)
    (hc : c.conc? t.deref = some ci) (hN : PlainName ci.name) (he : marshalJSON Γ c J fuel (some (t, v)) = .ok bz) :
    JText bz ∧ validJSON bz = true ∧ ∃ b, JText b ∧ decodeInterfaceJSON bz = .ok (ci.name, b) := by
  obtain ⟨hi, b, hb, rfl⟩ := marshalJSON_inv he
  obtain ⟨h1, _⟩ := jenc_rt hU hL hT hZ hum (Nat.le_refl fuel) false t v {} b hS ht hb
  rw [hc]
  exact ⟨jtext_wrap hN h1, validJSON_jtext (jtext_wrap hN h1), b, h1, decodeInterfaceJSON_wrap hN h1⟩

namespace JDemo
example : ∃ bz, marshalJSON prog codec lib 3 (some (.base fooT, .struct [.int 0])) = .ok bz ∧ JText bz ∧
    validJSON bz = true ∧ ∃ b, JText b ∧ decodeInterfaceJSON bz = .ok (foo.name, b) :=
  ⟨_, rfl, C54_json_wrapper_partial (univ false) libOk typed zeroOk user_total (fuel := 3) (t := .base fooT)
    (base_ok (by decide) (by decide)) (typed.zero fooT) rfl plain_f rfl⟩
end JDemo

end Amino
