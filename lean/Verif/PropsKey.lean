import Verif.PropsOrder

/-! # Property C66: field numbers and wire types are checked -/

namespace Amino

namespace Spec
/-- Values of this kind are wrapped in an implicit struct with one field, number 1: everything but structs, times,
lists of structs and maps. -/
def wrapped (Γ : Prog) (id : TId) : Bool :=
  match Γ.shape id with
  | .struct _ | .time | .map _ => false
  | .slice (.base e) | .array _ (.base e) =>
    match Γ.shape e with
    | .struct _ | .time => false
    | _ => true
  | _ => true
end Spec

open Spec

variable {Γ : Prog} {c : Codec}

theorem wrapped_not_struct {id : TId} (h : wrapped Γ id = true) : Γ.structOrRep id = false ∧ Γ.isKnown id = true := by
  unfold wrapped at h
  unfold Prog.structOrRep Prog.isKnown
  split at h <;> simp_all [Prog.isStruct] <;> split at h <;> simp_all

/-- C66 for structs of exact fields: if UnmarshalBinaryBare accepts a message, every field on the wire that has the
number of a declared field has the wire type of its kind (length delimited for repeated fields).

Missing for the full statement: fields that are not exact (see C23), where what the decoder takes for a key need not be
the key of a field on the wire. -/
theorem C66_struct_partial {g : Nat} {t : Ty} {p v : Val} {b : Bytes} {ws : List WField} {fs : List Field}
    (hs : Γ.shape t.deref = .struct fs) (hu : Γ.unmarsh t.deref = none)
    (hx : ∀ f ∈ fs, f.visible = true → exactField Γ f = true) (hw : Wire ws b)
    (h : unmarshalBare Γ c g t p (prefixOf c t.deref ++ b) = .ok v) :
    ∀ w ∈ ws, ∀ f, (fs.filter fun f => f.visible)[w.num - 1]? = some f →
      w.typ = if repeated Γ f then 2 else wireType Γ f.ty.deref f.opts := by
  have hd := unmarshalBare_inv (structOrRep_struct hs) h
  obtain ⟨k, ps, vs, rfl, hd', rfl⟩ := dec_struct_bare hs hu hd
  have := decFields_order hw hx (fun _ h => h) (fun _ _ _ => .inr (Nat.le_refl _)) hd'
  intro w hw' f hf
  exact this.2 w hw' f (this.1.2 w hw') hf

/-- What follows the prefix bytes in an accepted input. -/
theorem unmarshalBare_strip {g : Nat} {t : Ty} {p v : Val} {bz : Bytes} (h : unmarshalBare Γ c g t p bz = .ok v) :
    ∃ b, bz = prefixOf c t.deref ++ b ∧ unmarshalContents Γ c g t p b = .ok v := by
  unfold unmarshalBare at h
  obtain ⟨_, _, h⟩ := Res.bind_eq_ok h
  obtain ⟨b, hb, h⟩ := Res.bind_eq_ok h
  refine ⟨b, ?_, h⟩
  unfold stripPrefix at hb
  unfold prefixOf
  cases hc : c.conc? t.deref with
  | none => rw [hc] at hb; cases hb; rfl
  | some ci =>
    rw [hc] at hb
    simp only at hb
    split at hb
    · cases hb
    split at hb
    · cases hb
    · rename_i he
      cases hb
      simp only
      rw [← Decidable.not_not.mp he, List.take_append_drop]

/-- C66 for other values: an accepted input is, after the prefix bytes of a registered type, empty or it starts with
the key of field 1 with the wire type of the kind. -/
theorem C66_topLevel {g : Nat} {t : Ty} {p v : Val} {bz : Bytes} (hw : wrapped Γ t.deref = true)
    (hi : Γ.isIface t.deref = true → t.isPtr = true) (h : unmarshalBare Γ c g t p bz = .ok v) :
    ∃ b, bz = prefixOf c t.deref ++ b ∧ (b = [] ∨ ∃ n, readVarint b = some (8 * 1 + wireType Γ t.deref {}, n)) := by
  obtain ⟨b, hb, h⟩ := unmarshalBare_strip h
  refine ⟨b, hb, ?_⟩
  obtain ⟨h1, h2⟩ := wrapped_not_struct hw
  cases b with
  | nil => exact .inl rfl
  | cons x xs =>
    right
    unfold unmarshalContents at h
    rw [if_neg (by simp [h1])] at h
    split at h
    · cases h
    have hc : (decide ((x :: xs).length > 0) && !(!t.isPtr && Γ.isIface t.deref) && Γ.isKnown t.deref) = true := by
      rw [h2]
      cases hq : Γ.isIface t.deref <;> simp_all
    rw [if_pos hc] at h
    split at h <;> try (cases h; done)
    rename_i m fnum typ hk
    split at h
    · cases h
    split at h
    · cases h
    rename_i hf ht
    have := (decodeKey_ok hk).1
    rw [Decidable.not_not.mp hf, Decidable.not_not.mp ht, ← wireType_eq] at this
    exact ⟨m, this⟩

theorem concKey_key {α : Type} {cid : TId} {fo : FOpts} {x : UInt8} {xs : Bytes} {n m : Nat} {k : Bytes → Nat → DRes α} {v : α}
    (h : concKey Γ cid fo (x :: xs) n k = .ok m v) :
    ∃ b' n', k b' n' = .ok m v ∧ (wrapped Γ cid = true → Γ.isIface cid = false → fo.fnum = 1 →
      ∃ l, readVarint (x :: xs) = some (8 * 1 + wireType Γ cid {}, l)) := by
  unfold concKey at h
  split at h
  · split at h <;> try (cases h; done)
    rename_i l fnum typ hk
    split at h
    · cases h
    split at h
    · cases h
    rename_i hf ht
    obtain ⟨_, h⟩ := slideThen_inv h
    refine ⟨_, _, h, fun _ _ _ => ⟨l, ?_⟩⟩
    have := (decodeKey_ok hk).1
    rw [Decidable.not_not.mp hf, Decidable.not_not.mp ht, ← wireType_eq] at this
    exact this
  · rename_i hc
    refine ⟨_, _, h, fun h1 h2 h3 => absurd ?_ hc⟩
    obtain ⟨h4, h5⟩ := wrapped_not_struct h1
    simp [h4, h5, h2, h3]

/-- C66 for interfaces: if the dynamic value read is wrapped, then after the 4 prefix bytes (or 8 with disambiguation
bytes) comes nothing or the key of field 1 with the wire type of the kind. -/
theorem C66_iface {g : Nat} {id : TId} {dt : Ty} {v : Val} {bz : Bytes} (hs : Γ.shape id = .iface)
    (hu : Γ.unmarsh id = none) (hr : c.conc? id = none)
    (h : unmarshalBare Γ c g (.base id) .nil bz = .ok (.iface dt v)) (hw : wrapped Γ dt.deref = true)
    (hi : Γ.isIface dt.deref = false) :
    ∃ lead b, bz = lead ++ b ∧ (lead.length = 4 ∨ lead.length = 8) ∧
      (b = [] ∨ ∃ n, readVarint b = some (8 * 1 + wireType Γ dt.deref {}, n)) := by
  obtain ⟨b, hb, h⟩ := unmarshalBare_strip h
  unfold prefixOf at hb
  rw [show (Ty.base id).deref = id from rfl, hr] at hb
  simp only [List.nil_append] at hb
  subst hb
  obtain ⟨h1, h2⟩ := wrapped_not_struct hw
  unfold unmarshalContents at h
  rw [if_neg (by simp [Prog.structOrRep, Ty.deref, hs])] at h
  split at h
  · cases h
  rw [if_neg (by simp [Ty.isPtr, Ty.deref, Prog.isIface, hs])] at h
  unfold decodeAll at h
  split at h <;> try (cases h; done)
  rename_i n v' hd
  split at h
  · cases h
  cases h
  cases g with
  | zero => cases hd
  | succ g =>
    change decBody Γ c (dec Γ c g) (.base id) .nil _ true bz = _ at hd
    unfold decBody at hd
    split at hd
    · cases hd
    simp only [Ty.deref, hu] at hd
    obtain ⟨a, hd, ha⟩ := map_inv hd
    unfold decShape at hd
    rw [hs] at hd
    change decIface Γ c (dec Γ c g) id .nil _ true bz = _ at hd
    unfold decIface at hd
    simp only [unframe, if_true] at hd
    split at hd
    · cases hd
    rename_i ii _
    obtain ⟨j, dp, hj, hjl, hd⟩ := andSlide_inv hd
    refine ⟨bz.take j, bz.drop j, (List.take_append_drop _ _).symm, ?_, ?_⟩
    · rw [List.length_take, Nat.min_eq_left hjl]
      unfold decodeDisambPrefix at hj
      split at hj
      · cases hj
      split at hj
      · split at hj
        · cases hj
        · cases hj; exact .inr rfl
      · cases hj; exact .inl rfl
    generalize bz.drop j = b at hd ⊢
    cases b with
    | nil => exact .inl rfl
    | cons x xs =>
      right
      split at hd
      · cases hd
      rename_i ci hci
      obtain ⟨b', n', hk, hkey⟩ := concKey_key hd
      have hty : a = .iface dt v := by rw [ha]; rfl
      split at hk
      rotate_left 1
      · split at hk
        · split at hk <;> cases hk
        · cases hk
      · cases hk
      · cases hk
      · split at hk
        · split at hk
          · cases hk
          split at hk
          · simp only [DRes.ok.injEq] at hk
            have he := hk.2.trans hty
            simp only [Val.iface.injEq] at he
            have hdt : ci.tid = dt.deref := by
              rw [← he.1]; unfold ConcInfo.dynTy; split <;> rfl
            rw [hdt] at hkey
            exact hkey hw hi rfl
          · cases hk
        · cases hk

/-- The hypotheses of the struct case hold for `Lists`. -/
example : ∀ w ∈ Demo.listsWire, ∀ f, ([{ ty := .base Demo.bytessT }, { ty := .base Demo.ifacesT },
      { ty := .base Demo.stringsT }, { ty := .base Demo.subptrsT }].filter fun f : Field => f.visible)[w.num - 1]? = some f →
      w.typ = if repeated Demo.prog f then 2 else wireType Demo.prog f.ty.deref f.opts :=
  C66_struct_partial (Γ := Demo.prog) (c := Demo.codecFoo) (g := 5) (t := .base Demo.listsT)
    (p := Demo.prog.zeroTy (.base Demo.listsT)) (b := Demo.listsBytes)
    (v := .struct [.nil, .nil, .list [.str [97], .str [98]], .list [.ptr (.struct [.int 1, .bool false])]])
    rfl rfl (by decide) Demo.lists_wire (by decide +kernel)

/-- A bare int64. -/
example : ∃ b, [8, 5] = prefixOf Demo.codecFoo Demo.int64T ++ b ∧
    (b = [] ∨ ∃ n, readVarint b = some (8 * 1 + wireType Demo.prog Demo.int64T {}, n)) :=
  C66_topLevel (Γ := Demo.prog) (c := Demo.codecFoo) (g := 1) (t := .base Demo.int64T) (p := .int 0) (v := .int 5)
    rfl (by decide) (by decide +kernel)

/-- A registered string type behind an interface. -/
example : ∃ lead b, [11, 12, 13, 14, 10, 1, 65] = lead ++ b ∧ (lead.length = 4 ∨ lead.length = 8) ∧
    (b = [] ∨ ∃ n, readVarint b = some (8 * 1 + wireType Demo.prog Demo.strT {}, n)) :=
  C66_iface (Γ := Demo.prog) (c := Demo.codec) (g := 3) (id := Demo.ifaceT) (dt := .base Demo.strT) (v := .str [65])
    rfl rfl rfl (by decide +kernel) rfl rfl

/-- Another field number or wire type is rejected. -/
example : unmarshalBare Demo.prog Demo.codecFoo 1 (.base Demo.int64T) (.int 0) [16, 5] = .err .fieldNum ∧
    unmarshalBare Demo.prog Demo.codecFoo 1 (.base Demo.int64T) (.int 0) [10, 1, 5] = .err .fieldTyp := by decide +kernel

namespace Demo
def keyWire : List WField := [⟨7, 2, [6, 8, 1, 16, 1, 66, 2]⟩, ⟨1, 2, [0]⟩]
def keyBytes : Bytes := [58, 6, 8, 1, 16, 1, 66, 2, 10, 0]
theorem key_wire : Wire keyWire keyBytes :=
  wire_cons 58 (by decide) (by decide) (bytes_payload (b := [8, 1, 16, 1, 66, 2]) (by decide)) (by decide) rfl <|
    wire_cons 10 (by decide) (by decide) (bytes_payload (b := []) (by decide)) (by decide) rfl .nil
end Demo

/-- C66 is false in general: field 1 of `Msg`, an integer, is accepted with wire type 2 when it comes after a time that
leaves bytes unread. -/
theorem C66_time_refuted :
    Wire Demo.keyWire Demo.keyBytes ∧ (∃ v, unmarshalBare Demo.prog Demo.codecFoo 5 (.base Demo.msgT)
      (Demo.prog.zeroTy (.base Demo.msgT)) Demo.keyBytes = .ok v) ∧
    ¬ ∀ w ∈ Demo.keyWire, ∀ f, (Demo.msgFields.filter fun f => f.visible)[w.num - 1]? = some f →
      w.typ = if repeated Demo.prog f then 2 else wireType Demo.prog f.ty.deref f.opts := by
  refine ⟨Demo.key_wire, ⟨.struct [.int 0, .str [], .nil, .nil, .nil, .nil, .time 1 1], by decide +kernel⟩, ?_⟩
  intro h
  have := h ⟨1, 2, [0]⟩ (by simp [Demo.keyWire]) (Demo.msgFields.head (by decide)) rfl
  revert this
  decide +kernel

end Amino
