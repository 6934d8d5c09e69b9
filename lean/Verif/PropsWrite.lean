import Verif.ReadWrite
import Verif.EvolveDemo

/-!
# Properties C78 and C79: what can be written, and that what was read can be
-/

namespace Amino
open Spec

variable {Γ : Prog} {c : Codec}

/-- C78: `MarshalBinaryBare` succeeds exactly on the writable values behind non-nil pointers. -/
theorem C78_writes (hN : ∀ id fs, Γ.shape id = .struct fs → fs.length < 2 ^ 29) (t : Ty) (v : Val) :
    (∃ f bz, marshalBare Γ c f t v = .ok bz) ↔
      Known Γ c t.deref ∧ ∃ dv, pointee t v = some dv ∧ Writable Γ c (.val t.deref) {} dv := by
  constructor
  · rintro ⟨f, bz, h⟩
    unfold marshalBare at h
    split at h
    · cases h
    rename_i dv hd
    simp only at h
    obtain ⟨_, hi, h⟩ := Res.bind_eq_ok h
    obtain ⟨b, h, _⟩ := Res.bind_eq_ok h
    refine ⟨known_iff.2 hi, dv, by rw [pointee_eq, hd], ?_⟩
    split at h
    · unfold writeField at h
      obtain ⟨_, _, h⟩ := Res.bind_eq_ok h
      obtain ⟨_, h, _⟩ := Res.bind_eq_ok h
      exact enc_w Γ c f _ _ _ _ _ h
    · exact (enc_w Γ c f _ _ _ _ _ h).opts rfl rfl
  · rintro ⟨hk, dv, hp, hw⟩
    rw [pointee_eq] at hp
    obtain ⟨f, hf⟩ := writable_succeeds hN hw
    refine ⟨f, ?_⟩
    unfold marshalBare
    rw [hp]
    simp only
    rw [known_iff.1 hk, Res.bind_ok]
    have : ∃ b, (if (!Γ.structOrRep t.deref) = true then
        writeField Γ (enc Γ c f) 1 t.deref {} dv false (Γ.typ3 t.deref {} != typ3ByteLength)
        else enc Γ c f t.deref dv { fnum := 1 } true) = .ok b := by
      split
      · unfold writeField
        rw [encodeKey_eq 1 _ (by decide) (typ3_lt Γ _ _), Res.bind_ok]
        obtain ⟨b, hb⟩ := hf f (Nat.le_refl _) (Γ.typ3 t.deref {} != typ3ByteLength) 0 (by decide)
        have e : enc Γ c f t.deref dv {} (Γ.typ3 t.deref {} != typ3ByteLength) = .ok b := hb
        rw [e, Res.bind_ok]
        split <;> exact ⟨_, rfl⟩
      · exact hf f (Nat.le_refl _) true 1 (by decide)
    obtain ⟨b, hb⟩ := this
    rw [hb, Res.bind_ok]
    split <;> exact ⟨_, rfl⟩

/-- C78: and with more fuel it gives the same bytes. -/
theorem C78_fuel {f g : Nat} (hfg : f ≤ g) {t : Ty} {v : Val} {bz : Bytes} (h : marshalBare Γ c f t v = .ok bz) :
    marshalBare Γ c g t v = .ok bz := by
  rcases marshalBare_le (Γ := Γ) (c := c) hfg t v with hh | hh
  · rw [h] at hh; cases hh
  · rw [hh, h]

namespace EvoDemo

theorem fewFields (id : TId) (fs : List Field) (h : prog.shape id = .struct fs) : fs.length < 2 ^ 29 := by
  match id with
  | 5 | 6 | 11 | 12 | 13 | 14 | 16 | 17 =>
    simp only [prog, shape, Shape.struct.injEq] at h
    subst h
    decide
  | 0 | 1 | 2 | 3 | 4 | 7 | 8 | 9 | 10 | 15 => simp [prog, shape] at h
  | n + 18 => simp [prog, shape] at h

theorem known_all {id : TId} {fo : FOpts} (h : S id fo) : Known prog codecNew id := known_iff.2 (getInfo_ok univ h)

theorem struct_w {id : TId} {fo : FOpts} {fs : List Field} {vs : List Val} (h1 : prog.shape id = .struct fs)
    (h2 : fs.length = vs.length)
    (h3 : ∀ p ∈ fs.zip vs, S p.1.ty.deref {} ∧ p.1.opts.writeEmpty = false ∧
      ∀ dv, pointee p.1.ty p.2 = some dv → dflt (prog.shape p.1.ty.deref) dv = true ∨
        repeated prog p.1 = false ∧ Writable prog codecNew (.val p.1.ty.deref) p.1.opts dv) :
    Writable prog codecNew (.val id) fo (.struct vs) := by
  refine .struct rfl h1 h2 (fun p hp _ => known_all (h3 p hp).1) ?_ ?_ ?_
  · intro p hp _ hw; rw [(h3 p hp).2.1] at hw; cases hw
  · intro p hp _ dv hd hw _
    rcases (h3 p hp).2.2 dv hd with h | h
    · have := hw h
      rw [(h3 p hp).2.1] at this; cases this
    · exact h.2
  · intro p hp _ e _ dv hd hw hr
    rcases (h3 p hp).2.2 dv hd with h | h
    · have := hw h
      rw [(h3 p hp).2.1] at this; cases this
    · rw [h.1] at hr; cases hr

theorem sub_zero_w {fo : FOpts} : Writable prog codecNew (.val 6) fo (.struct [.int 0, .str [], .bool false]) := by
  refine struct_w (fs := subNew) rfl rfl ?_
  simp only [subNew, List.zip_cons_cons, List.zip_nil_right, List.mem_cons, List.not_mem_nil, or_false]
  rintro p (rfl | rfl | rfl) <;> refine ⟨by simp [S, Ty.deref], rfl, fun dv hd => ?_⟩ <;> cases hd
  · exact .inl rfl
  · exact .inl rfl
  · exact .inr ⟨by decide, .bool rfl rfl⟩

theorem zero_writable : ∀ {id fo}, S id fo → Writable prog codecNew (.val id) fo (prog.zero id) := by
  intro id fo h
  simp only [S, List.mem_cons, List.not_mem_nil, or_false] at h
  rcases h with rfl | rfl | rfl | rfl | rfl | rfl | rfl | rfl
  · exact .int rfl rfl
  · exact .str rfl rfl
  · exact .bool rfl rfl
  · exact sub_zero_w
  · exact .list rfl rfl (by decide) (by decide) (.noElems (known_all (fo := {}) (by simp [S, Ty.deref])))
  · exact .nilIface rfl rfl
  · refine struct_w (fs := fooNew) rfl rfl ?_
    simp [fooNew, prog, shape, S, Ty.deref, pointee, dflt]
  · refine struct_w (fs := msgNew) rfl rfl ?_
    simp [msgNew, prog, shape, S, Ty.deref, pointee, dflt]

theorem rewritable : Rewritable prog codecNew S where
  zero := zero_writable
  noPtr := by
    intro id fo fs h hs
    simp only [S, List.mem_cons, List.not_mem_nil, or_false] at h
    rcases h with rfl | rfl | rfl | rfl | rfl | rfl | rfl | rfl <;> simp [prog, shape] at hs <;> subst hs <;>
      simp [subNew, fooNew, msgNew]
  user _ h := by simp [prog] at h
  time _ := rfl
  impls := by
    intro id ii ci h hm
    obtain ⟨rfl, _⟩ := iface_with h
    simp only [List.mem_cons, List.not_mem_nil, or_false] at hm
    subst hm
    rfl
  disfix := by
    intro d ci h
    simp only [Codec.disfix?, codecNew, codecWith, List.lookup] at h
    split at h
    · cases h; rfl
    · cases h

end EvoDemo

/-- `Msg{I: Foo{5}, P: &Sub{}}` is written. -/
example : ∃ f bz, marshalBare EvoDemo.prog EvoDemo.codecNew f (.base 14)
    (.struct [.nil, .iface (.base 12) (.struct [.int 5, .nil]), .ptr (.struct [.int 0, .str [], .bool false])]) = .ok bz :=
  (C78_writes EvoDemo.fewFields _ _).2 ⟨EvoDemo.known_all (fo := {}) (by simp [EvoDemo.S, Ty.deref]), _, rfl, by
    refine EvoDemo.struct_w (fs := EvoDemo.msgNew) rfl rfl ?_
    simp only [EvoDemo.msgNew, List.zip_cons_cons, List.zip_nil_right, List.mem_cons, List.not_mem_nil, or_false]
    rintro p (rfl | rfl | rfl) <;> refine ⟨by simp [EvoDemo.S, Ty.deref], rfl, fun dv hd => ?_⟩ <;> cases hd
    · exact .inl rfl
    · refine .inr ⟨by decide, .iface (ci := EvoDemo.fooInfo 12) rfl rfl rfl (by simp [Ty.isPtr])
        (EvoDemo.known_all (fo := {}) (by simp [EvoDemo.S, Ty.deref])) rfl rfl ?_⟩
      refine EvoDemo.struct_w (fs := EvoDemo.fooNew) rfl rfl ?_
      simp only [EvoDemo.fooNew, List.zip_cons_cons, List.zip_nil_right, List.mem_cons, List.not_mem_nil, or_false]
      rintro p (rfl | rfl) <;> refine ⟨by simp [EvoDemo.S, Ty.deref], rfl, fun dv hd => ?_⟩ <;> cases hd
      exact .inr ⟨by decide, .int rfl rfl⟩
    · exact .inr ⟨by decide, EvoDemo.sub_zero_w⟩⟩

/-- A nil pointer to a registered type in an interface is not. -/
example : ¬ ∃ f bz, marshalBare EvoDemo.prog EvoDemo.codecNew f (.base 14)
    (.struct [.nil, .iface (.ptr (.base 12)) .nil, .nil]) = .ok bz := by
  rw [C78_writes EvoDemo.fewFields]
  rintro ⟨_, dv, hp, hw⟩
  cases hp
  cases hw with
  | marsh h => cases h
  | struct h1 h2 h3 h4 h5 h6 h7 =>
    cases h2
    have := h6 (({ ty := .base 10 } : Field), .iface (.ptr (.base 12)) .nil) (by simp [EvoDemo.msgNew]) rfl _ rfl (by simp [dflt]) (by decide)
    cases this with
    | marsh h => cases h
    | iface _ _ hp => cases hp
    | nested _ h => cases h
    | list _ h => cases h
  | nested _ h => cases h
  | list _ h => cases h

variable {S : TId → FOpts → Prop}

/-- C79 (for the types of `Rewritable`): what `UnmarshalBinaryBare` has read can be written, whatever the bytes were. -/
theorem C79_rewrite_partial (hN : ∀ id fs, Γ.shape id = .struct fs → fs.length < 2 ^ 29) (hU : Universe Γ c S) (hZ : ZeroOk Γ)
    (hR : Rewritable Γ c S) {t : Ty} (hS : S t.deref { fnum := 1 }) {p v : Val} {bz : Bytes} {f : Nat}
    (h : unmarshalBare Γ c f t p bz = .ok v) : ∃ g bz', marshalBare Γ c g t v = .ok bz' := by
  rw [C78_writes hN]
  refine ⟨known_iff.2 (getInfo_ok hU hS), ?_⟩
  have key : ∀ {bare bz}, decodeAll Γ c f t p bare bz = .ok v → ∃ dv, pointee t v = some dv ∧ Writable Γ c (.val t.deref) {} dv := by
    intro bare bz h
    unfold decodeAll at h
    split at h
    · rename_i n w hd
      split at h
      · cases h
      · cases h
        obtain ⟨dv, h1, h2⟩ := (dec_rw hU hZ hR f).val hS hd
        exact ⟨dv, h1, h2.opts rfl rfl⟩
    · cases h
    · cases h
    · cases h
  unfold unmarshalBare at h
  obtain ⟨_, _, h⟩ := Res.bind_eq_ok h
  obtain ⟨_, _, h⟩ := Res.bind_eq_ok h
  unfold unmarshalContents at h
  split at h
  · exact key h
  split at h
  · cases h
  split at h
  · split at h
    · cases h
    · cases h
    · cases h
    split at h
    · cases h
    split at h
    · cases h
    split at h
    · exact key h
    · cases h
  · exact key h

/-- C79: and, for structs and lists of structs, the new encoding is understood: reading it gives the value in normal
form (`roundTrip`). -/
theorem C79_reread_partial (hN : ∀ id fs, Γ.shape id = .struct fs → fs.length < 2 ^ 29) (hU : Universe Γ c S) (hZ : ZeroOk Γ)
    (hT : Γ.Typed) (hum : UserTotal Γ) (hp4 : Prefix4 c) (hR : Rewritable Γ c S) {t : Ty} (hS : S t.deref { fnum := 1 })
    (hs : Γ.structOrRep t.deref = true) {p v : Val} {bz : Bytes} {f : Nat} (h : unmarshalBare Γ c f t p bz = .ok v)
    (ht : HasTy Γ t v) : ∃ g bz', marshalBare Γ c g t v = .ok bz' ∧ (bz'.length < 2 ^ 63 → ∃ w, roundTrip Γ c g t v = some w ∧
      unmarshalBare Γ c (2 * g) t (Γ.zeroTy t) bz' = .ok (refs t w)) := by
  obtain ⟨g, bz', hm⟩ := C79_rewrite_partial hN hU hZ hR hS h
  refine ⟨g, bz', hm, fun hl => ?_⟩
  obtain ⟨w, h1, _, h2⟩ := C11_roundTrip hU hZ hT hum hp4 hs hS ht hm hl (Nat.le_refl _) rfl
  exact ⟨w, h1, h2⟩

/-- Whatever bytes are accepted as a `Msg`, the message can be forwarded. -/
example (bz : Bytes) (v : Val) (h : unmarshalBare EvoDemo.prog EvoDemo.codecNew 16 (.base 14) (EvoDemo.prog.zero 14) bz = .ok v) :
    ∃ g bz', marshalBare EvoDemo.prog EvoDemo.codecNew g (.base 14) v = .ok bz' :=
  C79_rewrite_partial EvoDemo.fewFields EvoDemo.univ EvoDemo.zeroOk EvoDemo.rewritable (by simp [EvoDemo.S, Ty.deref]) h

/-- Non-minimal varints and an explicit `false`: read and written in fewer bytes. -/
example : unmarshalBare EvoDemo.prog EvoDemo.codecNew 16 (.base 14) (EvoDemo.prog.zero 14) [26, 6, 8, 0x85, 0, 18, 1, 0x78] =
      .ok (.struct [.nil, .nil, .ptr (.struct [.int 5, .str [0x78], .bool false])]) ∧
    marshalBare EvoDemo.prog EvoDemo.codecNew 16 (.base 14)
      (.struct [.nil, .nil, .ptr (.struct [.int 5, .str [0x78], .bool false])]) = .ok [26, 5, 8, 5, 18, 1, 0x78] := by
  constructor <;> decide +kernel

/-- `type Sub struct{ N int64 }`, `type A struct{ P *Sub "amino:write_empty" }`, `type B struct{ L [2]*Sub "amino:empty_elements" }`. -/
def refusedProg : Prog where
  shape
    | 1 => .int .int64
    | 2 => .struct [{ ty := .base 1 }]
    | 3 => .struct [{ ty := .ptr (.base 2), opts := { writeEmpty := true } }]
    | 4 => .array 2 (.ptr (.base 2))
    | 5 => .struct [{ ty := .base 4, opts := { emptyElements := true } }]
    | 0 => .int .uint8
    | _ => .bool
  zero
    | 0 | 1 => .int 0
    | 2 => .struct [.int 0]
    | 3 => .struct [.nil]
    | 4 => .list [.nil, .nil]
    | 5 => .struct [.list [.nil, .nil]]
    | _ => .bool false
  marsh _ := none
  unmarsh _ := none
  implements _ _ := false
  byteId := 0

/-- C79 in general: refuted.  A message without the field is read as a nil pointer, on which the tags `write_empty` and
`empty_elements` make the encoder panic or return an error. -/
theorem C79_rewrite_refuted :
    (∃ v p, unmarshalBare refusedProg {} 9 (.base 3) (refusedProg.zero 3) [] = .ok v ∧
      marshalBare refusedProg {} 9 (.base 3) v = .panic p) ∧
    (∃ v e, unmarshalBare refusedProg {} 9 (.base 5) (refusedProg.zero 5) [] = .ok v ∧
      marshalBare refusedProg {} 9 (.base 5) v = .err e) :=
  ⟨⟨.struct [.nil], _, by decide +kernel, rfl⟩, ⟨.struct [.list [.nil, .nil]], _, by decide +kernel, rfl⟩⟩

end Amino
