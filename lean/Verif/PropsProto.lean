import Verif.ProtoLemmas
import Verif.PropsWire

/-! # Property C67: encodings are proto3 serializations -/

namespace Amino
open Spec

variable {Γ : Prog} {c : Codec} {S : TId → FOpts → Prop}

theorem repeated_pointee {f : Field} {v : Val} (h : repeated Γ f = true) : pointee f.ty v = some v := by
  unfold repeated at h
  split at h
  · cases h
  · rename_i hi; rw [hi]; rfl

theorem pointee_value {t : Ty} {v dv : Val} (h : t.isPtr = false) (hp : pointee t v = some dv) : dv = v := by
  cases t with
  | base => simpa [pointee] using hp.symm
  | ptr => cases h

theorem dflt_list {s : Shape} {e : Ty} {us : List Val} (he : s.elem? = some e) (h : dflt s (.list us) = true) : us = [] := by
  cases s <;> simp [Shape.elem?, dflt] at he h
  exact h

/-- A value stands for at most one protobuf value. -/
theorem means_unique {id : TId} {fo : FOpts} {v : Val} {x : PV} (h : Means Γ c id fo v x) :
    ∀ y, Means Γ c id fo v y → x = y := by
  refine Means.rec (Γ := Γ) (c := c)
    (motive_1 := fun id fo v x _ => ∀ y, Means Γ c id fo v y → x = y)
    (motive_2 := fun e fo vs x _ => ∀ y, MeansPacked Γ c e fo vs y → x = y)
    (motive_3 := fun e fo vs x _ => ∀ y, MeansElems Γ c e fo vs y → x = y)
    (motive_4 := fun num fs vs x _ => ∀ y, MeansFields Γ c num fs vs y → x = y)
    ?_ ?_ ?_ ?_ ?_ ?_ ?_ ?_ ?_ ?_ ?_ ?_ ?_ ?_ ?_ ?_ ?_ ?_ ?_ ?_ ?_ ?_ ?_ ?_ ?_ ?_ ?_ ?_ ?_ ?_ ?_ h
  -- rep
  · intro id rid m fo v r x h1 h2 h3 ih y h'
    cases h' with
    | rep g1 g2 g3 =>
      rw [h1] at g1; cases g1
      rw [h2] at g2; cases g2
      exact ih _ g3
    | _ => simp_all
  iterate 11
    · intros
      rename_i h'
      cases h' <;> simp_all <;> grind
  -- struct
  · intro id fo fs vs m h1 h2 h3 ih y h'
    cases h' with
    | struct g1 g2 g3 => rw [h2] at g2; cases g2; rw [ih _ g3]
    | _ => simp_all
  -- nilList
  · intros
    rename_i h'
    cases h' <;> simp_all
  -- packed
  · intro id fo e vs xs h1 h2 h3 h4 ih y h'
    cases h' with
    | packed g1 g2 g3 g4 => rw [h2] at g2; cases g2; rw [ih _ g4]
    | list g1 g2 g3 g4 => rw [h2] at g2; cases g2; rw [h3] at g3; cases g3
    | _ => simp_all
  -- list
  · intro id fo e vs m h1 h2 h3 h4 ih y h'
    cases h' with
    | list g1 g2 g3 g4 => rw [h2] at g2; cases g2; rw [ih _ g4]
    | packed g1 g2 g3 g4 => rw [h2] at g2; cases g2; rw [h3] at g3; cases g3
    | _ => simp_all
  -- nilIface
  · intros
    rename_i h'
    cases h' <;> simp_all
  -- iface
  · intro id fo t v dv ii ci x h1 h2 h3 h4 h5 h6 ih y h'
    cases h' with
    | iface g1 g2 g3 g4 g5 g6 =>
      rw [h3] at g3; cases g3
      rw [h4] at g4; cases g4
      rw [h5] at g5; cases g5
      rw [ih _ g6]
    | _ => simp_all
  -- elements of packed lists
  · intro e fo y h'; cases h'; rfl
  · intro e fo v vs x xs h1 h2 ih1 ih2 y h'
    cases h' with | cons g1 g2 => rw [ih1 _ g1, ih2 _ g2]
  -- elements of other lists
  · intro e fo y h'; cases h'; rfl
  · intro e fo v vs m h1 h2 ih y h'
    cases h' with
    | empty g1 g2 => rw [ih _ g2]
    | cons g1 g2 g3 g4 => rw [h1 _ g1] at g2; cases g2
  · intro e fo v dv vs x m h1 h2 h3 h4 ih1 ih2 y h'
    cases h' with
    | empty g1 g2 => rw [g1 _ h1] at h2; cases h2
    | cons g1 g2 g3 g4 => rw [h1] at g1; cases g1; rw [ih1 _ g3, ih2 _ g4]
  -- fields
  · intro num y h'; cases h'; rfl
  · intro num f fs v vs m h1 h2 ih y h'
    cases h' with
    | hidden g1 g2 => exact ih _ g2
    | _ => simp_all
  · intro num f fs v vs m h1 h2 h3 ih y h'
    cases h' with
    | absent g1 g2 g3 => exact ih _ g3
    | repNil g1 g2 g3 => exact ih _ g3
    | rep g1 g2 g3 g4 g5 => rw [repeated_pointee g2] at h2; cases h2
    | empty g1 g2 g3 g4 g5 g6 g7 => exact ih _ g7
    | _ => simp_all
  · intro num f fs v dv vs m h1 h2 h3 h4 h5 ih y h'
    cases h' with
    | dflt g1 g2 g3 g4 g5 => exact ih _ g5
    | repNil g1 g2 g3 => exact ih _ g3
    | rep g1 g2 g3 g4 g5 =>
      rw [repeated_pointee g2] at h3; cases h3
      cases dflt_list g3 h4
      cases g4
      exact ih _ g5
    | empty g1 g2 g3 g4 g5 g6 g7 => exact ih _ g7
    | _ => simp_all
  · intro num f fs v vs x m h1 h2 h3 h4 h5 h6 h7 ih1 ih2 y h'
    cases h' with
    | dflt g1 g2 g3 g4 g5 => exact ih2 _ g5
    | absent g1 g2 g3 => exact ih2 _ g3
    | repNil g1 g2 g3 => exact ih2 _ g3
    | empty g1 g2 g3 g4 g5 g6 g7 => exact ih2 _ g7
    | present g1 g2 g3 g4 g5 g6 g7 =>
      cases pointee_value h3 g2
      rw [← ih1 _ g5] at g6
      have := g6 h6
      simp_all
    | _ => simp_all
  · intro num f fs e us vs xs m h1 h2 h3 h4 h5 ih1 ih2 y h'
    cases h' with
    | rep g1 g2 g3 g4 g5 => rw [h3] at g3; cases g3; rw [ih1 _ g4, ih2 _ g5]
    | dflt g1 g2 g3 g4 g5 =>
      rw [repeated_pointee h2] at g3; cases g3
      cases dflt_list h3 g4
      cases h4
      exact ih2 _ g5
    | absent g1 g2 g3 => rw [repeated_pointee h2] at g2; cases g2
    | _ => simp_all
  · intro num f fs vs m h1 h2 h3 ih y h'
    cases h' with
    | repNil g1 g2 g3 => exact ih _ g3
    | dflt g1 g2 g3 g4 g5 => exact ih _ g5
    | absent g1 g2 g3 => exact ih _ g3
    | _ => simp_all
  · intro num f fs v dv vs x m h1 h2 h3 h4 h5 h6 h7 ih1 ih2 y h'
    cases h' with
    | present g1 g2 g3 g4 g5 g6 g7 =>
      rw [h2] at g2; cases g2
      rw [ih1 _ g5, ih2 _ g7]
    | empty g1 g2 g3 g4 g5 g6 g7 =>
      cases pointee_value g3 h2
      rw [← ih1 _ g5] at g6
      have := h6 g6
      simp_all
    | _ => simp_all

/-- C67: MarshalBinaryBare of a struct writes its prefix bytes and then exactly the proto3 serialization of the
message the value stands for, and it stands for one message only. -/
theorem C67_struct (hU : Universe Γ c S) (hT : Γ.Typed) (hM : SameWire Γ S) {f : Nat} {t : Ty} {v : Val} {bz : Bytes}
    {fs : List Field} (hs : Γ.shape t.deref = .struct fs) (hm : Γ.marsh t.deref = none) (hS : S t.deref { fnum := 1 })
    (ht : HasTy Γ t v) (h : marshalBare Γ c f t v = .ok bz) (hl : bz.length < 2 ^ 63) :
    ∃ dv m, pointee t v = some dv ∧ Means Γ c t.deref { fnum := 1 } dv (.msg m) ∧ bz = prefixOf c t.deref ++ m.bytes ∧
      ∀ y, Means Γ c t.deref { fnum := 1 } dv y → y = .msg m := by
  obtain ⟨k, vs, b, rfl, hp, hft, _, he, rfl⟩ := marshalBare_fields hs hm ht h
  rw [List.length_append] at hl
  obtain ⟨m, h1, h2⟩ := encFields_means (enc_means hU hT hM k) (hU.struct hS hs hm) hft he (by omega)
  have hmean : Means Γ c t.deref { fnum := 1 } (.struct vs) (.msg m) := .struct hm hs h1
  exact ⟨_, m, hp, hmean, by rw [h2], fun y hy => (means_unique hmean y hy).symm⟩

/-- C67: everything else that MarshalBinaryBare accepts and that is not written bare is the only field of a
message, with number 1, and is left out if it stands for an empty protobuf value. -/
theorem C67_wrapped (hU : Universe Γ c S) (hT : Γ.Typed) (hM : SameWire Γ S) {f : Nat} {t : Ty} {v : Val} {bz : Bytes}
    (hs : Γ.structOrRep t.deref = false) (hS : S t.deref {}) (ht : HasTy Γ t v) (h : marshalBare Γ c f t v = .ok bz)
    (hl : bz.length < 2 ^ 63) :
    ∃ dv x, pointee t v = some dv ∧ Means Γ c t.deref {} dv x ∧
      (x.empty → bz = prefixOf c t.deref) ∧
      (¬ x.empty → bz = prefixOf c t.deref ++ (PMsg.field 1 x .nil).bytes) ∧
      ∀ y, Means Γ c t.deref {} dv y → y = x := by
  unfold marshalBare at h
  split at h
  · simp at h
  rename_i dv hd
  simp only [hs, Bool.not_false, if_true] at h
  obtain ⟨_, _, h⟩ := Res.bind_eq_ok h
  obtain ⟨b, hb, h⟩ := Res.bind_eq_ok h
  have hbz : bz = prefixOf c t.deref ++ b := by
    unfold prefixOf
    cases hc : c.conc? t.deref <;> simp [hc] at h ⊢ <;> exact h.symm
  rw [hbz, List.length_append] at hl
  unfold writeField at hb
  obtain ⟨k, hk, hb⟩ := Res.bind_eq_ok hb
  obtain ⟨b1, hb1, hb⟩ := Res.bind_eq_ok hb
  obtain ⟨rfl, hn⟩ := encodeKey_ok hk (typ3_lt _ _ _)
  have hl1 : b1.length < 2 ^ 63 := by
    split at hb
    · rename_i hw
      simp only [Bool.not_false, Bool.true_and, beq_iff_eq] at hw
      rw [hw]; decide
    · simp only [Res.ok.injEq] at hb
      rw [← hb, List.length_append] at hl
      omega
  obtain ⟨x, g1, g2, g3, g4⟩ := enc_means hU hT hM f hS (hasTy_derefVal ht hd) hb1 hl1
  have g3 : b1 = x.payload := by
    rw [g3]
    cases hw : (Γ.typ3 t.deref {} != typ3ByteLength) with
    | false => simp
    | true =>
      simp only [bne_iff_ne, ne_eq] at hw
      rw [if_pos rfl]
      exact bare_scalar (by rw [g2, wireType_eq]; exact hw)
  refine ⟨dv, x, by rw [pointee_eq, hd], g1, ?_, ?_, fun y hy => (means_unique g1 y hy).symm⟩
  · intro hx
    have := (pvPayload_zero g4).mpr hx
    rw [g3, this] at hb
    simp at hb
    rw [hbz, hb, List.append_nil]
  · intro hx
    rw [if_neg (by rw [g3]; simpa using fun hh => hx ((pvPayload_zero g4).mp hh))] at hb
    simp only [Res.ok.injEq] at hb
    rw [hbz, ← hb, pmsg_field, g2, ← wireType_eq, g3]
    simp [PMsg.bytes]

/-- C67: types written bare at the top level (structs, lists of structs, and types with MarshalAmino of such a kind): the
contents of the protobuf value they stand for, without length. -/
theorem C67_bare (hU : Universe Γ c S) (hT : Γ.Typed) (hM : SameWire Γ S) {f : Nat} {t : Ty} {v : Val} {bz : Bytes}
    (hs : Γ.structOrRep t.deref = true) (hS : S t.deref { fnum := 1 }) (ht : HasTy Γ t v) (h : marshalBare Γ c f t v = .ok bz)
    (hl : bz.length < 2 ^ 63) :
    ∃ dv x, pointee t v = some dv ∧ Means Γ c t.deref { fnum := 1 } dv x ∧ bz = prefixOf c t.deref ++ x.bare ∧
      ∀ y, Means Γ c t.deref { fnum := 1 } dv y → y = x := by
  obtain ⟨dv, b, hd, hi, he, rfl⟩ := marshalBare_struct hs h
  rw [List.length_append] at hl
  obtain ⟨x, h1, h2, h3, h4⟩ := enc_means hU hT hM f hS (hasTy_derefVal ht hd) he (by omega)
  exact ⟨dv, x, by rw [pointee_eq, hd], h1, by rw [h3]; rfl, fun y hy => (means_unique h1 y hy).symm⟩

/-! ## The case of a message with a negative integer, a string, bytes, a nested message, a repeated message, an
interface and a time -/

/-- `Demo.msg` as a protobuf message. -/
def Demo.msgProto : PMsg :=
  .field 1 (.varint (2 ^ 64 - 5)) <| .field 2 (.bytes [104, 105]) <| .field 3 (.bytes [1, 2]) <|
  .field 4 (.msg (.field 1 (.varint 7) .nil)) <|
  .field 5 (.msg .nil) <| .field 5 (.msg (.field 1 (.varint 3) (.field 2 (.varint 1) .nil))) <|
  .field 6 (.any Demo.foo.prefx (.msg (.field 1 (.varint 9) .nil))) <|
  .field 7 (.msg (.field 1 (.varint 1000000000) .nil)) .nil

theorem Demo.msg_means : Means Demo.prog Demo.codecFoo Demo.msgT { fnum := 1 } Demo.msg (.msg Demo.msgProto) := by
  have hint : ∀ (id : TId) (k : IntKind) (fo : FOpts) (i : Int) (n : Nat), Demo.prog.shape id = .int k → k ≠ .int8 → k ≠ .int16 →
      fo.fixed64 = false → fo.fixed32 = false → twos64 i = n → Means Demo.prog Demo.codecFoo id fo (.int i) (.varint n) := by
    intro id k fo i n hs h1 h2 h3 h4 h5
    subst h5
    exact .int rfl hs h1 h2 (by simp [h3]) (by simp [h4])
  have hbool : ∀ (fo : FOpts) (b : Bool), Means Demo.prog Demo.codecFoo Demo.boolT fo (.bool b) (.varint (if b then 1 else 0)) :=
    fun fo b => .bool rfl rfl
  have he : (PV.varint 0).empty := rfl
  refine .struct (fs := Demo.msgFields) rfl rfl ?_
  refine .present (dv := .int (-5)) rfl rfl (by decide) rfl (hint _ .int64 _ _ _ rfl (by decide) (by decide) rfl rfl rfl) (by intro h; cases h) ?_
  refine .present (dv := .str [104, 105]) rfl rfl (by decide) rfl (.string rfl rfl) (by intro h; cases h) ?_
  refine .present (dv := .bytes [1, 2]) rfl rfl (by decide) rfl (.bytes (e := .base Demo.byteT) rfl rfl rfl) (by intro h; cases h) ?_
  refine .present (dv := .struct [.int 7, .str [], .nil, .nil, .list [], .nil, .time 0 0]) rfl rfl (by decide) rfl
    (.struct (fs := Demo.msgFields) rfl rfl ?_) (fun _ => .inr rfl) ?_
  · refine .present (dv := .int 7) rfl rfl (by decide) rfl (hint _ .int64 _ _ _ rfl (by decide) (by decide) rfl rfl rfl) (by intro h; cases h) ?_
    refine .dflt (dv := .str []) rfl rfl rfl rfl ?_
    refine .dflt (dv := .nil) rfl rfl rfl rfl ?_
    refine .absent rfl rfl ?_
    refine .dflt (dv := .list []) rfl rfl rfl rfl ?_
    refine .dflt (dv := .nil) rfl rfl rfl rfl ?_
    exact .empty (x := .msg .nil) rfl rfl rfl rfl (.time (s := 0) (ns := 0) rfl rfl) rfl .nil
  refine .rep (e := .base Demo.subT) (xs := .field 5 (.msg .nil) (.field 5 (.msg (.field 1 (.varint 3) (.field 2 (.varint 1) .nil))) .nil))
    rfl rfl rfl ?_ ?_
  · refine .cons (dv := .struct [.int 0, .bool false]) rfl rfl (.struct rfl rfl ?_) ?_
    · exact .dflt (dv := .int 0) rfl rfl rfl rfl (.empty rfl rfl rfl rfl (hbool _ _) he .nil)
    refine .cons (dv := .struct [.int 3, .bool true]) rfl rfl (.struct rfl rfl ?_) .nil
    refine .present (dv := .int 3) rfl rfl (by decide) rfl (hint _ .int32 _ _ _ rfl (by decide) (by decide) rfl rfl rfl) (by intro h; cases h) ?_
    exact .present (dv := .bool true) rfl rfl (by decide) rfl (hbool _ true) (by intro h; cases h) .nil
  refine .present (dv := .iface (.base Demo.fooT) (.struct [.int 9])) rfl rfl (by decide) rfl
    (.iface (dv := .struct [.int 9]) (ii := { tid := Demo.ifaceT, priority := [], always := false, impls := [Demo.foo] }) (ci := Demo.foo)
      rfl rfl rfl (by decide) (by decide) (.struct rfl rfl ?_)) (by intro h; cases h) ?_
  · exact .present (dv := .int 9) rfl rfl (by decide) rfl (hint _ .int64 _ _ _ rfl (by decide) (by decide) rfl rfl rfl) (by intro h; cases h) .nil
  exact .present (dv := .time 1000000000 0) rfl rfl (by decide) rfl (.time rfl rfl) (by intro h; cases h) .nil

/-- The bytes follow from the specification alone. -/
example : Demo.msgBytes = Demo.msgProto.bytes := by
  obtain ⟨dv, m, h1, _, h3, h4⟩ := C67_struct Demo.univ_foo Demo.prog_typed Demo.sameWire (fs := Demo.msgFields) rfl rfl
    Demo.S_msg Demo.msg_typed Demo.msg_marshal (by decide)
  cases h1
  cases h4 _ Demo.msg_means
  exact h3

/-- `int64(-1)` is field 1 of a message, a list of structs a repeated field 1. -/
example : ∃ dv x, pointee (.base Demo.int64T) (.int (-1)) = some dv ∧ Means Demo.prog Demo.codecFoo Demo.int64T {} dv x ∧
    (x.empty → [8, 255, 255, 255, 255, 255, 255, 255, 255, 255, 1] = prefixOf Demo.codecFoo Demo.int64T) ∧
    (¬ x.empty → [8, 255, 255, 255, 255, 255, 255, 255, 255, 255, 1] =
      prefixOf Demo.codecFoo Demo.int64T ++ (PMsg.field 1 x .nil).bytes) ∧
    ∀ y, Means Demo.prog Demo.codecFoo Demo.int64T {} dv y → y = x :=
  C67_wrapped Demo.univ_foo Demo.prog_typed Demo.sameWire (t := .base Demo.int64T) (f := 5) rfl
    (show Demo.supported Demo.int64T = true by decide) (.int (k := .int64) rfl (by decide)) (by decide +kernel) (by decide)

example : ∃ dv x, pointee (.base Demo.subsT) (.list [.struct [.int 3, .bool true]]) = some dv ∧
    Means Demo.prog Demo.codecFoo Demo.subsT { fnum := 1 } dv x ∧
    [10, 4, 8, 3, 16, 1] = prefixOf Demo.codecFoo Demo.subsT ++ x.bare ∧
    ∀ y, Means Demo.prog Demo.codecFoo Demo.subsT { fnum := 1 } dv y → y = x := by
  have ht : HasTy Demo.prog (.base Demo.subT) (.struct [.int 3, .bool true]) := by
    refine .struct (fs := _) rfl rfl ?_
    simp
    exact ⟨.int rfl (by decide), .bool rfl⟩
  exact C67_bare Demo.univ_foo Demo.prog_typed Demo.sameWire (t := .base Demo.subsT) (f := 5) rfl
    (show Demo.supported Demo.subsT = true by decide) (.slice (e := .base Demo.subT) rfl rfl (by simpa using ht)) (by decide +kernel) (by decide)

end Amino
