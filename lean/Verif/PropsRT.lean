import Verif.Reenc
import Verif.PropsApi
import Verif.DemoUniv

/-! # Properties C11, C13, C14, C26: the binary round trip at the API -/

namespace Amino
open Spec

variable {Γ : Prog} {c : Codec} {S : TId → FOpts → Prop}

/-- What comes back from MarshalBinaryBare followed by UnmarshalBinaryBare, for an argument of dynamic
type `t`, up to the pointers of the receiving variable. -/
def Spec.roundTrip (Γ : Prog) (c : Codec) (f : Nat) (t : Ty) (v : Val) : Option Val :=
  (pointee t v).bind fun dv => norm Γ c f t.deref dv { fnum := 1 }

/-- The registered prefixes are four bytes long (codec.go:20-25 `PrefixBytes [4]byte`). -/
def Spec.Prefix4 (c : Codec) : Prop := ∀ id ci, c.conc? id = some ci → ci.prefx.length = 4

theorem structOrRep_notIface {id : TId} (h : Γ.structOrRep id = true) : Γ.isIface id = false := by
  unfold Prog.structOrRep at h; unfold Prog.isIface
  split <;> simp_all

theorem noIfacePtr_of {t : Ty} (h : Γ.isIface t.deref = false) : noIfacePtr Γ t := fun _ => h

theorem dec_ptr {g : Nat} (hg : 1 ≤ g) : RecPtr Γ (dec Γ c g) := by
  intro t fo bare bz hn
  cases g with
  | zero => omega
  | succ g => exact decBody_ptr hn fo bare bz

/-- The parts of a successful MarshalBinaryBare of a struct or list of structs. -/
theorem marshalBare_struct {f : Nat} {t : Ty} {v : Val} {bz : Bytes} (hs : Γ.structOrRep t.deref = true)
    (h : marshalBare Γ c f t v = .ok bz) :
    ∃ dv b, derefVal t v = some dv ∧ getInfo Γ c t.deref = .ok () ∧ enc Γ c f t.deref dv { fnum := 1 } true = .ok b ∧
      bz = (match c.conc? t.deref with | some ci => ci.prefx | none => []) ++ b := by
  unfold marshalBare at h
  split at h
  · simp at h
  · rename_i dv hd
    obtain ⟨u, hi, h⟩ := Res.bind_eq_ok h
    obtain ⟨b, hb, h⟩ := Res.bind_eq_ok h
    rw [hs] at hb
    simp only [Bool.not_true, Bool.false_eq_true, if_false] at hb
    refine ⟨dv, b, hd, hi, hb, ?_⟩
    split at h
    · rename_i ci hci
      simp at h; rw [hci, ← h]
    · rename_i hci
      simp at h; rw [hci, ← h]; rfl

/-- UnmarshalBinaryBare into a struct or list of structs, after the prefix. -/
theorem unmarshalBare_struct {g : Nat} {t : Ty} {p : Val} {b : Bytes} (hs : Γ.structOrRep t.deref = true)
    (hp4 : Prefix4 c) (hi : getInfo Γ c t.deref = .ok ()) :
    unmarshalBare Γ c g t p ((match c.conc? t.deref with | some ci => ci.prefx | none => []) ++ b) =
      decodeAll Γ c g t p true b := by
  unfold unmarshalBare
  rw [hi, Res.bind_ok]
  have : stripPrefix c t.deref ((match c.conc? t.deref with | some ci => ci.prefx | none => []) ++ b) = .ok b := by
    unfold stripPrefix
    cases hci : c.conc? t.deref with
    | none => rfl
    | some ci =>
      have h4 := hp4 _ _ hci
      simp only
      rw [if_neg (by rw [List.length_append]; omega), List.take_append_of_le_length (by omega), ← h4,
        List.take_length, if_neg (by simp), List.drop_append]
      simp
  rw [this, Res.bind_ok]
  unfold unmarshalContents
  rw [if_pos hs]

/-- C11: for every value of every supported struct (or list of structs) type, if MarshalBinaryBare
succeeds then UnmarshalBinaryBare of the bytes, into a fresh variable of the type or of any pointer type
to it, succeeds and gives the normalised value.  `f` bounds the recursion depth of the encoder; no message
is 2^63 bytes long. -/
theorem C11_roundTrip (hU : Universe Γ c S) (hZ : ZeroOk Γ) (hT : Γ.Typed) (hum : UserTotal Γ) (hp4 : Prefix4 c)
    {t t' : Ty} {v : Val} {bz : Bytes} {f g : Nat} (hs : Γ.structOrRep t.deref = true)
    (hS : S t.deref { fnum := 1 }) (ht : HasTy Γ t v) (h : marshalBare Γ c f t v = .ok bz)
    (hl : bz.length < 2 ^ 63) (hg : 2 * f ≤ g) (htt : t'.deref = t.deref) :
    ∃ w, roundTrip Γ c f t v = some w ∧ HasTy Γ (.base t.deref) w ∧
      unmarshalBare Γ c g t' (Γ.zeroTy t') bz = .ok (refs t' w) := by
  obtain ⟨dv, b, hd, hi, he, rfl⟩ := marshalBare_struct hs h
  have hlb : b.length < 2 ^ 63 := by rw [List.length_append] at hl; omega
  have hni := structOrRep_notIface hs
  have htd := hasTy_derefVal ht hd
  obtain ⟨w, hw⟩ := norm_total hU hT hum f _ _ _ _ _ hS htd (by simp [hni]) he
  refine ⟨w, ?_, norm_typed hU hT f _ _ _ _ hS htd hw, ?_⟩
  · unfold roundTrip
    rw [pointee_eq, hd]
    exact hw
  · rw [← htt] at hs hi hni ⊢
    rw [unmarshalBare_struct hs hp4 hi]
    unfold decodeAll
    have hf : 1 ≤ g := by
      cases f with
      | zero => simp [enc] at he
      | succ f => omega
    have hrt := enc_dec hU hZ hT f g hg
    rw [← htt] at hS htd he hw
    have := hrt.ptr (dec_ptr hf) (noIfacePtr_of hni) hS htd (by simp [hni]) he hlb
      (rest := []) (by simp) hw
    rw [List.append_nil] at this
    rw [this]
    simp

/-- The encoding of `Demo.msg`. -/
def Demo.msgBytes : Bytes :=
  [8, 251, 255, 255, 255, 255, 255, 255, 255, 255, 1, 18, 2, 104, 105, 26, 2, 1, 2, 34, 2, 8, 7, 42, 0, 42, 4, 8, 3, 16,
   1, 50, 6, 1, 2, 3, 4, 8, 9, 58, 6, 8, 128, 148, 235, 220, 3]

theorem Demo.msg_marshal : marshalBare Demo.prog Demo.codecFoo 5 (.base Demo.msgT) Demo.msg = .ok Demo.msgBytes := by
  decide +kernel

theorem Demo.S_msg : Demo.S (Ty.base Demo.msgT).deref { fnum := 1 } := show Demo.supported Demo.msgT = true by decide

/-- The hypotheses are met by a value with integers, strings, bytes, pointers, nested structs, a list of
structs, an interface and a time; the result is the value with the empty slice `D.E` made nil and the
interface value in the (pointer) shape in which `Foo` was registered. -/
example : unmarshalBare Demo.prog Demo.codecFoo 10 (.ptr (.base Demo.msgT)) .nil Demo.msgBytes = .ok (.ptr Demo.msgBack) := by
  obtain ⟨w, hw, _, hu⟩ := C11_roundTrip Demo.univ_foo Demo.prog_zero Demo.prog_typed Demo.user_total Demo.prefix4_foo
    (t' := .ptr (.base Demo.msgT)) rfl Demo.S_msg Demo.msg_typed Demo.msg_marshal (by decide) (g := 10) (by omega) rfl
  have : roundTrip Demo.prog Demo.codecFoo 5 (.base Demo.msgT) Demo.msg = some Demo.msgBack := by decide +kernel
  rw [this] at hw
  cases hw
  exact hu

/-- C11/C12: the same for the length-prefixed form. -/
theorem C11_lengthPrefixed (hU : Universe Γ c S) (hZ : ZeroOk Γ) (hT : Γ.Typed) (hum : UserTotal Γ) (hp4 : Prefix4 c)
    {t t' : Ty} {v : Val} {bz : Bytes} {f g : Nat} (hs : Γ.structOrRep t.deref = true)
    (hS : S t.deref { fnum := 1 }) (ht : HasTy Γ t v) (h : marshalLP Γ c f t v = .ok bz)
    (hl : bz.length < 2 ^ 63) (hg : 2 * f ≤ g) (htt : t'.deref = t.deref) :
    ∃ w, roundTrip Γ c f t v = some w ∧ unmarshalLP Γ c g t' (Γ.zeroTy t') bz = .ok (refs t' w) := by
  obtain ⟨b, hb, hbz, hu⟩ := C12_lengthPrefixed f g t t' v (Γ.zeroTy t') bz h hl
  have hlb : b.length < 2 ^ 63 := by rw [hbz, List.length_append] at hl; omega
  obtain ⟨w, hw, _, hw'⟩ := C11_roundTrip hU hZ hT hum hp4 hs hS ht hb hlb hg htt
  exact ⟨w, hw, by rw [hu, hw']⟩

example : unmarshalLP Demo.prog Demo.codecFoo 10 (.base Demo.msgT) (Demo.prog.zero Demo.msgT) (47 :: Demo.msgBytes) =
    .ok Demo.msgBack := by
  obtain ⟨w, hw, hu⟩ := C11_lengthPrefixed Demo.univ_foo Demo.prog_zero Demo.prog_typed Demo.user_total Demo.prefix4_foo
    (t' := .base Demo.msgT) rfl Demo.S_msg Demo.msg_typed (f := 5) (bz := 47 :: Demo.msgBytes) (by decide +kernel)
    (by decide) (g := 10) (by omega) rfl
  have : roundTrip Demo.prog Demo.codecFoo 5 (.base Demo.msgT) Demo.msg = some Demo.msgBack := by decide +kernel
  rw [this] at hw
  cases hw
  exact hu

/-- C13: marshalling the decoded value gives the same bytes again (the types being free of `*time.Time`
fields and of by-value structs that contain a time, and MarshalAmino undoing UnmarshalAmino). -/
theorem C13_reencode (hU : Universe Γ c S) (hZ : ZeroOk Γ) (hT : Γ.Typed) (hum : UserTotal Γ) (hp4 : Prefix4 c)
    (hSt : Stable Γ S)
    {t t' : Ty} {v : Val} {bz : Bytes} {f g : Nat} (hs : Γ.structOrRep t.deref = true)
    (hS : S t.deref { fnum := 1 }) (ht : HasTy Γ t v) (h : marshalBare Γ c f t v = .ok bz)
    (hl : bz.length < 2 ^ 63) (hg : 2 * f ≤ g) (htt : t'.deref = t.deref) :
    ∃ u, unmarshalBare Γ c g t' (Γ.zeroTy t') bz = .ok u ∧ ∀ k, f + 1 ≤ k → marshalBare Γ c k t' u = .ok bz := by
  obtain ⟨w, hw, _, hu⟩ := C11_roundTrip hU hZ hT hum hp4 hs hS ht h hl hg htt
  refine ⟨_, hu, ?_⟩
  intro k hk
  obtain ⟨dv, b, hd, hi, he, rfl⟩ := marshalBare_struct hs h
  have hlb : b.length < 2 ^ 63 := by rw [List.length_append] at hl; omega
  unfold roundTrip at hw
  rw [pointee_eq, hd] at hw
  have hni := structOrRep_notIface hs
  have hre := enc_norm hU hZ hT hSt f _ _ _ _ _ _ hS (hasTy_derefVal ht hd) (by simp [hni]) he hlb hw
  have hre' : enc Γ c k t.deref w { fnum := 1 } true = .ok b := by
    rcases enc_le hk t.deref w { fnum := 1 } true with h' | h'
    · rw [h'] at hre; cases hre
    · rw [h']; exact hre
  unfold marshalBare
  rw [derefVal_refs]
  simp only [htt, hi, Res.bind_ok, hs, Bool.not_true, Bool.false_eq_true, if_false, hre']
  cases c.conc? t.deref <;> rfl

example : marshalBare Demo.prog Demo.codecFoo 6 (.base Demo.msgT) Demo.msgBack = .ok Demo.msgBytes := by
  obtain ⟨u, hu, hm⟩ := C13_reencode Demo.univ_foo Demo.prog_zero Demo.prog_typed Demo.user_total Demo.prefix4_foo
    Demo.stable (t' := .base Demo.msgT) rfl Demo.S_msg Demo.msg_typed Demo.msg_marshal (by decide) (g := 10) (by omega) rfl
  have : unmarshalBare Demo.prog Demo.codecFoo 10 (.base Demo.msgT) (Demo.prog.zeroTy (.base Demo.msgT)) Demo.msgBytes =
    .ok Demo.msgBack := by decide +kernel
  rw [this] at hu
  cases hu
  exact hm 6 (by omega)

/-- C13, the excluded case: `Outer{Inner{1970}}` is encoded as the empty message, decoded as
`Outer{Inner{year 1}}`, and that is encoded differently. -/
theorem C13_nestedTime_differs :
    ∃ (v u : Val) (bz bz' : Bytes), HasTy Demo.prog (.base Demo.outerT) v ∧
      marshalBare Demo.prog Demo.codecFoo 5 (.base Demo.outerT) v = .ok bz ∧
      unmarshalBare Demo.prog Demo.codecFoo 10 (.base Demo.outerT) (Demo.prog.zero Demo.outerT) bz = .ok u ∧
      marshalBare Demo.prog Demo.codecFoo 5 (.base Demo.outerT) u = .ok bz' ∧ bz ≠ bz' := by
  refine ⟨.struct [.struct [.time 0 0]], .struct [.struct [Demo.zeroTime]], [],
    [10, 13, 10, 11, 8, 128, 146, 184, 195, 152, 254, 255, 255, 255, 1], ?_, by decide +kernel, by decide +kernel,
    by decide +kernel, by decide⟩
  refine .struct (fs := _) rfl rfl ?_
  simp
  refine .struct (fs := _) rfl rfl ?_
  simp
  exact .time rfl (by decide) (by decide) (by decide) (by decide)

/-- C13: a decoded value comes back unchanged from a further round trip. -/
theorem C13_idempotent (hU : Universe Γ c S) (hZ : ZeroOk Γ) (hT : Γ.Typed) (hum : UserTotal Γ) (hp4 : Prefix4 c)
    (hSt : Stable Γ S)
    {t : Ty} {v : Val} {bz : Bytes} {f g : Nat} (hs : Γ.structOrRep t.deref = true)
    (hS : S t.deref { fnum := 1 }) (ht : HasTy Γ t v) (h : marshalBare Γ c f t v = .ok bz)
    (hl : bz.length < 2 ^ 63) (hg : 2 * f ≤ g) :
    ∃ u, unmarshalBare Γ c g t (Γ.zeroTy t) bz = .ok u ∧
      (marshalBare Γ c (f + 1) t u).bind (unmarshalBare Γ c g t (Γ.zeroTy t)) = .ok u := by
  obtain ⟨u, hu, hm⟩ := C13_reencode hU hZ hT hum hp4 hSt hs hS ht h hl hg rfl
  exact ⟨u, hu, by rw [hm _ (Nat.le_refl _)]; exact hu⟩

example : (marshalBare Demo.prog Demo.codecFoo 6 (.base Demo.msgT) Demo.msgBack).bind
    (unmarshalBare Demo.prog Demo.codecFoo 10 (.base Demo.msgT) (Demo.prog.zero Demo.msgT)) = .ok Demo.msgBack := by
  obtain ⟨u, hu, hm⟩ := C13_idempotent Demo.univ_foo Demo.prog_zero Demo.prog_typed Demo.user_total Demo.prefix4_foo
    Demo.stable rfl Demo.S_msg Demo.msg_typed Demo.msg_marshal (by decide) (g := 10) (by omega)
  have : unmarshalBare Demo.prog Demo.codecFoo 10 (.base Demo.msgT) (Demo.prog.zeroTy (.base Demo.msgT)) Demo.msgBytes =
    .ok Demo.msgBack := by decide +kernel
  rw [this] at hu
  cases hu
  exact hm

/-- C14: two values of one type with the same encoding have the same normal form. -/
theorem C14_injective (hU : Universe Γ c S) (hZ : ZeroOk Γ) (hT : Γ.Typed) (hum : UserTotal Γ) (hp4 : Prefix4 c)
    {t : Ty} {v₁ v₂ : Val} {bz : Bytes} {f : Nat} (hs : Γ.structOrRep t.deref = true)
    (hS : S t.deref { fnum := 1 }) (h₁ : HasTy Γ t v₁) (h₂ : HasTy Γ t v₂)
    (hm₁ : marshalBare Γ c f t v₁ = .ok bz) (hm₂ : marshalBare Γ c f t v₂ = .ok bz) (hl : bz.length < 2 ^ 63) :
    ∃ w, roundTrip Γ c f t v₁ = some w ∧ roundTrip Γ c f t v₂ = some w := by
  obtain ⟨w₁, hw₁, _, hu₁⟩ := C11_roundTrip hU hZ hT hum hp4 hs hS h₁ hm₁ hl (Nat.le_refl _) (t' := .base t.deref) rfl
  obtain ⟨w₂, hw₂, _, hu₂⟩ := C11_roundTrip hU hZ hT hum hp4 hs hS h₂ hm₂ hl (Nat.le_refl _) (t' := .base t.deref) rfl
  rw [hu₁] at hu₂
  simp only [refs, Res.ok.injEq] at hu₂
  exact ⟨w₁, hw₁, hu₂ ▸ hw₂⟩

/-- Two values with the same bytes (`Demo.msg` and its normal form): they have the same normal form. -/
example (h : HasTy Demo.prog (.base Demo.msgT) Demo.msgBack) :
    ∃ w, roundTrip Demo.prog Demo.codecFoo 5 (.base Demo.msgT) Demo.msg = some w ∧
      roundTrip Demo.prog Demo.codecFoo 5 (.base Demo.msgT) Demo.msgBack = some w :=
  C14_injective Demo.univ_foo Demo.prog_zero Demo.prog_typed Demo.user_total Demo.prefix4_foo rfl Demo.S_msg
    Demo.msg_typed h Demo.msg_marshal (by decide +kernel) (by decide)

/-- C26: an interface value inside a message (in a field, a list, behind a pointer) is decoded with the
registered type of its dynamic type, in the shape (pointer or value) in which it was registered, holding
the normalised contents; the bytes used are exactly those written. -/
theorem C26_dynamicType (hU : Universe Γ c S) (hZ : ZeroOk Γ) (hT : Γ.Typed) (hum : UserTotal Γ)
    {id : TId} {fo : FOpts} {t : Ty} {cv : Val} {bare : Bool} {b rest : Bytes} {f g : Nat}
    (hS : S id fo) (ht : HasTy Γ (.base id) (.iface t cv)) (hs : Γ.shape id = .iface)
    (he : enc Γ c f id (.iface t cv) fo bare = .ok b) (hl : b.length < 2 ^ 63) (hr : bare = true → rest = [])
    (hg : 2 * f ≤ g) (hm : Γ.marsh id = none) :
    ∃ ci dv w, c.conc? t.deref = some ci ∧ ci.tid = t.deref ∧ pointee t cv = some dv ∧
      norm Γ c (f - 1) t.deref dv fo = some w ∧
      dec Γ c g (.base id) .nil fo bare (b ++ rest) =
        .ok b.length (if ci.ptrPref then .iface (.ptr (.base t.deref)) (.ptr w) else .iface (.base t.deref) w) := by
  obtain ⟨w, hw⟩ := norm_total hU hT hum f _ _ _ _ _ hS ht (by simp) he
  have hd := enc_dec hU hZ hT f g hg _ _ _ _ _ rest _ hS ht (by simp) he hl hr hw
  rw [hZ.iface hs] at hd
  cases f with
  | zero => simp [enc] at he
  | succ f =>
    unfold norm at hw
    rw [hm] at hw
    simp only at hw
    unfold normShape at hw
    rw [hs] at hw
    simp only at hw
    split at hw
    · rename_i dv ci hdv hci
      simp only [Option.map_eq_some_iff] at hw
      obtain ⟨w1, hw1, hw⟩ := hw
      refine ⟨ci, dv, w1, hci, conc_mem hci, hdv, hw1, ?_⟩
      rw [hd, ← hw, conc_mem hci]
    · cases hw

/-- `Iface(Foo{9})` in field 6: the bytes `06 01 02 03 04 08 09`, and back as `*Foo`. -/
example : dec Demo.prog Demo.codecFoo 10 (.base Demo.ifaceT) .nil { fnum := 6 } false [6, 1, 2, 3, 4, 8, 9, 58] =
    .ok 7 (.iface (.ptr (.base Demo.fooT)) (.ptr (.struct [.int 9]))) := by
  have ht : HasTy Demo.prog (.base Demo.ifaceT) (.iface (.base Demo.fooT) (.struct [.int 9])) := by
    refine .iface rfl rfl ?_
    refine .struct (fs := _) rfl rfl ?_
    simp
    exact .int rfl (by decide)
  obtain ⟨ci, dv, w, h1, h2, h3, h4, h5⟩ := C26_dynamicType Demo.univ_foo Demo.prog_zero Demo.prog_typed Demo.user_total
    (fo := { fnum := 6 }) (show Demo.supported Demo.ifaceT = true by decide) ht rfl (bare := false) (f := 5) (g := 10)
    (b := [6, 1, 2, 3, 4, 8, 9]) (rest := [58]) (by decide +kernel) (by decide) (by simp) (by omega) rfl
  simp only [pointee, Option.some.injEq] at h3
  subst h3
  rw [show Demo.codecFoo.conc? (Ty.base Demo.fooT).deref = some Demo.foo by decide] at h1
  cases h1
  rw [show norm Demo.prog Demo.codecFoo (5 - 1) (Ty.base Demo.fooT).deref (.struct [.int 9]) { fnum := 6 } =
    some (.struct [.int 9]) by decide +kernel] at h4
  cases h4
  exact h5

theorem marsh_iface (hU : Universe Γ c S) {id : TId} {fo : FOpts} (hS : S id fo) (hs : Γ.shape id = .iface) :
    Γ.marsh id = none := by
  cases h : Γ.marsh id with
  | none => rfl
  | some p =>
    obtain ⟨rid, m⟩ := p
    have := (hU.marsh hS h).2.2.1
    unfold Prog.isIface at this
    rw [hs] at this
    simp at this

/-- The decoder of an interface variable at the top level, given a prefix. -/
theorem unmarshalBare_iface {g : Nat} {id : TId} {ii : IfaceInfo} {bz : Bytes} (hs : Γ.shape id = .iface)
    (hu : Γ.unmarsh id = none) (hc : c.conc? id = none) (hii : c.iface? id = some ii) :
    unmarshalBare Γ c (g + 1) (.base id) .nil bz =
      match decIface Γ c (dec Γ c g) id .nil { fnum := 1 } true bz with
      | .ok n v => if n ≠ bz.length then .err .leftover else .ok v
      | .err _ e => .err e
      | .panic p => .panic p
      | .oof => .oof := by
  have hi : Γ.isIface id = true := by unfold Prog.isIface; rw [hs]
  have hr : Γ.structOrRep id = false := by unfold Prog.structOrRep; rw [hs]
  unfold unmarshalBare
  simp only [Ty.deref]
  have : getInfo Γ c id = .ok () := by unfold getInfo; rw [hs]; simp [hii]
  rw [this, Res.bind_ok]
  unfold stripPrefix
  rw [hc]
  simp only [Res.bind_ok]
  unfold unmarshalContents
  rw [show (Ty.base id).deref = id from rfl, if_neg (by simp [hr]), if_neg (by simp [ptrToListPanics, Ty.isPtr]), if_neg (by simp [hi, Ty.isPtr])]
  unfold decodeAll
  have : dec Γ c (g + 1) (.base id) .nil { fnum := 1 } true bz = decIface Γ c (dec Γ c g) id .nil { fnum := 1 } true bz := by
    show decBody Γ c (dec Γ c g) (.base id) .nil { fnum := 1 } true bz = _
    unfold decBody
    simp only [Ty.isPtr, Bool.false_and, Bool.false_eq_true, if_false, Ty.deref, hu, Prog.derefPrior]
    unfold decShape
    rw [hs]
    simp only
    generalize decIface Γ c (dec Γ c g) id .nil { fnum := 1 } true bz = r
    cases r <;> rfl
  rw [this]
  cases decIface Γ c (dec Γ c g) id .nil { fnum := 1 } true bz <;> rfl

/-- C26: the top-level encoding of a registered struct type can be read into a variable of an interface type
it implements, if no other implementation has the same prefix bytes. -/
theorem C26_readIntoInterface (hU : Universe Γ c S) (hZ : ZeroOk Γ) (hT : Γ.Typed) (hum : UserTotal Γ)
    {id : TId} {t : Ty} {v : Val} {bz : Bytes} {f g : Nat} {ci : ConcInfo} {ii : IfaceInfo}
    (hs : Γ.shape id = .iface) (hSi : S id { fnum := 1 }) (hci : c.conc? t.deref = some ci)
    (hic : c.conc? id = none) (hii : c.iface? id = some ii) (himp : Γ.implements t id = true)
    (huniq : ∀ ci' ∈ ii.impls, ci'.prefx = ci.prefx → ci' = ci) (hnd : ii.impls.Nodup)
    (hst : Γ.structOrRep t.deref = true) (ht : HasTy Γ t v) (h : marshalBare Γ c f t v = .ok bz)
    (hl : bz.length < 2 ^ 63) (hg : 2 * f < g) :
    ∃ w, roundTrip Γ c f t v = some w ∧
      unmarshalBare Γ c g (.base id) .nil bz =
        .ok (if ci.ptrPref then .iface (.ptr (.base t.deref)) (.ptr w) else .iface (.base t.deref) w) := by
  obtain ⟨dv, b, hd, hi, he, rfl⟩ := marshalBare_struct hst h
  rw [hci] at hl ⊢
  simp only at hl ⊢
  have hlb : b.length < 2 ^ 63 := by rw [List.length_append] at hl; omega
  have hni := structOrRep_notIface hst
  have htd := hasTy_derefVal ht hd
  have hmem := (hU.iface hSi hs hii).1 t ci himp hci
  have hok := (hU.iface hSi hs hii).2 ci hmem
  have htid := conc_mem hci
  have hS : S t.deref { fnum := 1 } := htid ▸ hok.type
  obtain ⟨w, hw⟩ := norm_total hU hT hum f _ _ _ _ _ hS htd (by simp [hni]) he
  refine ⟨w, by unfold roundTrip; rw [pointee_eq, hd]; exact hw, ?_⟩
  obtain ⟨g, rfl⟩ : ∃ k, g = k + 1 := ⟨g - 1, by omega⟩
  have hum' := hU.noMarsh hSi (marsh_iface hU hSi hs)
  rw [unmarshalBare_iface hs hum' hic hii]
  have hrd := enc_dec hU hZ hT f g (by omega) _ _ _ _ _ [] _ hS htd (by simp [hni]) he hlb (by simp) hw
  rw [List.append_nil, ← htid] at hrd
  have hwp : ii.withPrefix ci.prefx = [ci] := by
    refine mem_filter_single ?_ ?_
    · unfold IfaceInfo.withPrefix; simp [hmem]
    · intro hgt
      have hnd' : (ii.withPrefix ci.prefx).Nodup := hnd.filter _
      cases hw2 : ii.withPrefix ci.prefx with
      | nil => simp [hw2] at hgt
      | cons a l =>
        cases l with
        | nil => simp [hw2] at hgt
        | cons a' l =>
          have ha : ∀ x ∈ ii.withPrefix ci.prefx, x = ci := by
            intro x hx
            unfold IfaceInfo.withPrefix at hx
            simp at hx
            exact huniq x hx.1 hx.2
          have h1 := ha a (by simp [hw2])
          have h2 := ha a' (by simp [hw2])
          rw [hw2, h1, h2] at hnd'
          simp at hnd'
  unfold decIface
  rw [hii]
  simp only [unframe, if_true]
  rw [decodeDisambPrefix_short hok.prefixLen hok.prefixHead, ← hok.prefixLen, andSlide_append]
  have hlk : lookupConc c ii (none, ci.prefx) = .ok ci := by unfold lookupConc; simp only; rw [hwp]
  rw [hlk]
  simp only
  have hck : ∀ {α : Type} (n : Nat) (k : Bytes → Nat → DRes α), concKey Γ ci.tid { fnum := 1 } b n k = k b n := by
    intro α n k
    unfold concKey
    rw [if_neg]
    rw [htid, hst]
    simp
  have hass : Γ.implements ci.dynTy id = true := by unfold ConcInfo.dynTy; exact hok.assignable
  rw [hck, hrd]
  simp only [Nat.le_refl, if_true, List.drop_length, List.length_nil, Nat.lt_irrefl, if_false]
  rw [if_pos hass]
  simp only
  rw [if_neg (by simp [List.length_append])]
  congr 1
  unfold ConcInfo.dynTy
  rw [htid]
  split <;> rfl

/-- `Foo{9}` marshalled on its own, read into a variable of type `Iface`. -/
example : unmarshalBare Demo.prog Demo.codecFoo 11 (.base Demo.ifaceT) .nil [1, 2, 3, 4, 8, 9] =
    .ok (.iface (.ptr (.base Demo.fooT)) (.ptr (.struct [.int 9]))) := by
  have ht : HasTy Demo.prog (.ptr (.base Demo.fooT)) (.ptr (.struct [.int 9])) := by
    refine .ptr (.struct (fs := _) rfl rfl ?_)
    simp
    exact .int rfl (by decide)
  obtain ⟨w, hw, hu⟩ := C26_readIntoInterface Demo.univ_foo Demo.prog_zero Demo.prog_typed Demo.user_total
    (id := Demo.ifaceT) (ci := Demo.foo) (f := 5) (g := 11) (bz := [1, 2, 3, 4, 8, 9]) rfl
    (show Demo.supported Demo.ifaceT = true by decide) (by decide) (by decide) rfl rfl (by decide) (by decide) rfl ht
    (by decide +kernel) (by decide) (by omega)
  rw [show roundTrip Demo.prog Demo.codecFoo 5 (.ptr (.base Demo.fooT)) (.ptr (.struct [.int 9])) =
    some (.struct [.int 9]) by decide +kernel] at hw
  cases hw
  exact hu

/-- C26: if two implementations share the prefix bytes, reading them without disambiguation bytes is an
error: no implementation is picked silently. -/
theorem C26_ambiguousPrefix {id : TId} {ii : IfaceInfo} (hs : Γ.shape id = .iface) (hu : Γ.unmarsh id = none) (hic : c.conc? id = none)
    (hii : c.iface? id = some ii) {ci ci' : ConcInfo} (h1 : ci ∈ ii.impls) (h2 : ci' ∈ ii.impls) (hne : ci ≠ ci')
    (hp : ci.prefx = ci'.prefx) (hp4 : ci.prefx.length = 4) (h0 : ci.prefx.head? ≠ some 0) (b : Bytes) (g : Nat) :
    unmarshalBare Γ c (g + 1) (.base id) .nil (ci.prefx ++ b) = .err .conflictingPrefix := by
  rw [unmarshalBare_iface hs hu hic hii]
  unfold decIface
  rw [hii]
  simp only [unframe, if_true]
  rw [decodeDisambPrefix_short hp4 h0, ← hp4, andSlide_append]
  have m1 : ci ∈ ii.withPrefix ci.prefx := by unfold IfaceInfo.withPrefix; simp [h1]
  have m2 : ci' ∈ ii.withPrefix ci.prefx := by unfold IfaceInfo.withPrefix; simp [h2, hp]
  have hlk : lookupConc c ii (none, ci.prefx) = .error .conflictingPrefix := by
    unfold lookupConc
    simp only
    cases hw : ii.withPrefix ci.prefx with
    | nil => rw [hw] at m1; simp at m1
    | cons a l =>
      cases l with
      | nil =>
        rw [hw] at m1 m2
        simp at m1 m2
        exact absurd (m1.trans m2.symm) hne
      | cons a' l => rfl
  rw [hlk]

/-- A codec in which `Foo` and `Bar` have the same prefix bytes. -/
def Demo.clash : IfaceInfo :=
  { tid := Demo.ifaceT, priority := [], always := false, impls := [Demo.foo, { Demo.bar with prefx := [1, 2, 3, 4] }] }

example : unmarshalBare Demo.prog { ifaces := [Demo.clash], concs := Demo.clash.impls } 5 (.base Demo.ifaceT) .nil
    [1, 2, 3, 4, 8, 9] = .err .conflictingPrefix :=
  C26_ambiguousPrefix (ii := Demo.clash) (ci := Demo.foo) (ci' := { Demo.bar with prefx := [1, 2, 3, 4] })
    rfl rfl (by decide) rfl (by simp [Demo.clash]) (by simp [Demo.clash]) (by decide) rfl rfl (by decide) [8, 9] 4

end Amino
