import Verif.OrderLemmas
import Verif.PropsWire

/-! # Properties C23, C36: order of fields, isolation of nested messages -/

namespace Amino
open Spec

variable {Γ : Prog} {c : Codec}

/-- The bare decoder of a struct (or of a pointer to one). -/
theorem dec_struct_bare {g : Nat} {t : Ty} {p v : Val} {fo : FOpts} {bz : Bytes} {n : Nat} {fs : List Field}
    (hs : Γ.shape t.deref = .struct fs) (hu : Γ.unmarsh t.deref = none) (h : dec Γ c g t p fo true bz = .ok n v) :
    ∃ k ps vs, g = k + 1 ∧ decFields Γ c (dec Γ c k) fs ps 0 0 bz 0 = .ok n vs ∧ v = wrapTy t (.struct vs) := by
  cases g with
  | zero => cases h
  | succ k =>
    change decBody Γ c (dec Γ c k) t p fo true bz = _ at h
    unfold decBody at h
    split at h
    · cases h
    simp only [hu] at h
    obtain ⟨a, h', rfl⟩ := map_inv h
    unfold decShape at h'
    rw [hs] at h'
    simp only [unframe, if_true] at h'
    split at h'
    · rename_i ps _
      obtain ⟨vs, hd, rfl⟩ := map_inv h'
      exact ⟨k, ps, vs, rfl, hd, rfl⟩
    · cases h'

/-- What is decoded by UnmarshalBinaryBare after the prefix bytes. -/
theorem unmarshalBare_inv {g : Nat} {t : Ty} {p v : Val} {b : Bytes} (hs : Γ.structOrRep t.deref = true)
    (h : unmarshalBare Γ c g t p (prefixOf c t.deref ++ b) = .ok v) :
    dec Γ c g t p { fnum := 1 } true b = .ok b.length v := by
  unfold unmarshalBare at h
  cases hi : getInfo Γ c t.deref with
  | err | panic | oof => rw [hi] at h; cases h
  | ok u =>
    rw [hi, Res.bind_ok] at h
    have : stripPrefix c t.deref (prefixOf c t.deref ++ b) = .ok b ∨
        ∃ e, stripPrefix c t.deref (prefixOf c t.deref ++ b) = .err e := by
      unfold stripPrefix prefixOf
      cases hci : c.conc? t.deref with
      | none => exact .inl rfl
      | some ci =>
        simp only
        split
        · exact .inr ⟨_, rfl⟩
        · rename_i h4
          split
          · exact .inr ⟨_, rfl⟩
          · rename_i htk
            have htk := Decidable.not_not.mp htk
            have hl := congrArg List.length htk
            simp only [List.length_take, List.length_append] at hl h4
            have hl4 : ci.prefx.length = 4 := by omega
            rw [← hl4, List.drop_left]
            exact .inl rfl
    rcases this with hh | ⟨e, hh⟩
    · rw [hh, Res.bind_ok] at h
      unfold unmarshalContents at h
      rw [if_pos hs] at h
      unfold decodeAll at h
      split at h
      · rename_i n v' hd
        split at h
        · cases h
        · rename_i hn
          cases h
          rw [hd, Decidable.not_not.mp hn]
      all_goals cases h
    · rw [hh] at h; cases h

/-- C23 for structs of exact fields: if UnmarshalBinaryBare accepts a message, the field numbers on the wire
do not decrease, and only those of repeated list fields occur more than once.

Missing for the full statement: fields of type time.Time, with an UnmarshalAmino method or a pointer to a list,
for which the claim is false (`C23_time_refuted`), and messages with varints that are not minimal, where it is
false as well (`C36_nonMinimal_refuted`). -/
theorem C23_order_partial {g : Nat} {t : Ty} {p v : Val} {b : Bytes} {ws : List WField} {fs : List Field}
    (hs : Γ.shape t.deref = .struct fs) (hu : Γ.unmarsh t.deref = none)
    (hx : ∀ f ∈ fs, f.visible = true → exactField Γ f = true) (hw : Wire ws b)
    (h : unmarshalBare Γ c g t p (prefixOf c t.deref ++ b) = .ok v) :
    Ordered (repNums Γ 0 fs) ws ∧ ∀ w ∈ ws, 1 ≤ w.num := by
  have hd := unmarshalBare_inv (structOrRep_struct hs) h
  obtain ⟨k, ps, vs, rfl, hd', rfl⟩ := dec_struct_bare hs hu hd
  exact (decFields_order hw hx (fun _ h => h) (fun _ _ _ => .inr (Nat.le_refl _)) hd').1

namespace Demo

/-- Accepted for `Lists`: `S = ["a", "b"], P = [&Sub{X: 1}]`. -/
def listsBytes : Bytes := [26, 1, 97, 26, 1, 98, 34, 2, 8, 1]

def listsWire : List WField := [⟨3, 2, [1, 97]⟩, ⟨3, 2, [1, 98]⟩, ⟨4, 2, [2, 8, 1]⟩]

theorem varint_small {n : Nat} (h : n < 128) : varint n = [UInt8.ofNat n] := by
  unfold varint; rw [if_pos h]

theorem bytes_payload {b : Bytes} (h : b.length < 128) : Payload 2 (UInt8.ofNat b.length :: b) := by
  have := Payload.bytes (b := b) (by omega)
  rw [varint_small h] at this
  exact this

theorem wire_cons {w : WField} {ws : List WField} {bz : Bytes} (n : UInt8) (h1 : 1 ≤ w.num) (h2 : w.num < 15)
    (h3 : Payload w.typ w.payload) (h4 : w.typ < 8) (h5 : UInt8.ofNat (8 * w.num + w.typ) = n) (h6 : Wire ws bz) :
    Wire (w :: ws) (n :: (w.payload ++ bz)) := by
  have := Wire.cons h1 (by omega) h3 h6
  rw [varint_small (by omega), h5] at this
  simpa using this

theorem lists_wire : Wire listsWire listsBytes := by
  have h := @wire_cons
  exact h 26 (by decide) (by decide) (bytes_payload (b := [97]) (by decide)) (by decide) rfl <|
    h 26 (by decide) (by decide) (bytes_payload (b := [98]) (by decide)) (by decide) rfl <|
    h 34 (by decide) (by decide) (bytes_payload (b := [8, 1]) (by decide)) (by decide) rfl .nil

end Demo

/-- The hypotheses hold for `Lists`, with a field that repeats. -/
example : Ordered (repNums Demo.prog 0 [{ ty := .base Demo.bytessT }, { ty := .base Demo.ifacesT },
      { ty := .base Demo.stringsT }, { ty := .base Demo.subptrsT }]) Demo.listsWire ∧ ∀ w ∈ Demo.listsWire, 1 ≤ w.num :=
  C23_order_partial (Γ := Demo.prog) (c := Demo.codecFoo) (g := 5) (t := .base Demo.listsT)
    (p := Demo.prog.zeroTy (.base Demo.listsT)) (b := Demo.listsBytes)
    (v := .struct [.nil, .nil, .list [.str [97], .str [98]], .list [.ptr (.struct [.int 1, .bool false])]])
    rfl rfl (by decide) Demo.lists_wire (by decide +kernel)

/-- The first field of `Lists` must not come after the third: hypotheses as above, so it is rejected. -/
example : unmarshalBare Demo.prog Demo.codecFoo 5 (.base Demo.listsT) (Demo.prog.zeroTy (.base Demo.listsT))
    [26, 1, 97, 10, 0] = .err .fieldNum := by decide +kernel

namespace Demo

/-- A `Msg` with a time (field 7) that leaves two bytes `42 02` of its payload unread.  They are taken for
the key and length of an unknown field 8, which swallows the field 1 that follows. -/
def timeBytes : Bytes := [58, 6, 8, 1, 16, 1, 66, 2, 8, 1]

def timeWire : List WField := [⟨7, 2, [6, 8, 1, 16, 1, 66, 2]⟩, ⟨1, 0, [1]⟩]

theorem time_wire : Wire timeWire timeBytes :=
  wire_cons 58 (by decide) (by decide) (bytes_payload (b := [8, 1, 16, 1, 66, 2]) (by decide)) (by decide) rfl <|
    wire_cons 8 (by decide) (by decide) (by have := Payload.varint (n := 1) (by omega); rwa [varint_small (by omega)] at this)
      (by decide) rfl .nil

end Demo

/-- C23 is false in general: a message with field 7 before field 1 is accepted. -/
theorem C23_time_refuted :
    Wire Demo.timeWire Demo.timeBytes ∧ ¬ Ordered (repNums Demo.prog 0 Demo.msgFields) Demo.timeWire ∧
    unmarshalBare Demo.prog Demo.codecFoo 5 (.base Demo.msgT) (Demo.prog.zeroTy (.base Demo.msgT)) Demo.timeBytes =
      .ok (.struct [.int 0, .str [], .nil, .nil, .nil, .nil, .time 1 1]) := by
  refine ⟨Demo.time_wire, ?_, by decide +kernel⟩
  unfold Ordered
  decide

/-- C36 for exact types: a length delimited field is decoded from the declared number of bytes; exactly those
are consumed, and what follows them has no influence on the result.

Missing for the full statement: time.Time, types with an UnmarshalAmino method and lists that are not repeated
fields (`C23_time_refuted`, `C36_pointerToList_refuted`), and lengths that are not minimal varints
(`C36_nonMinimal_refuted`). -/
theorem C36_isolated_partial {g : Nat} {t : Ty} {p v : Val} {fo : FOpts} {body rest : Bytes} {n : Nat}
    (hl : body.length < 2 ^ 63) (hx : exactKind Γ t.deref = true) (hk : lenKind Γ t.deref = true)
    (h : dec Γ c g t p fo false (varint body.length ++ body ++ rest) = .ok n v) :
    n = (varint body.length).length + body.length ∧
      ∀ rest', dec Γ c g t p fo false (varint body.length ++ body ++ rest') = .ok n v := by
  cases g with
  | zero => cases h
  | succ g =>
    have := decBody_framed (rec := dec Γ c g) hl hx hk h
    rw [List.length_append] at this
    exact this

/-- C36, the enclosing struct: after a field of exact type the decoder goes on with the next field, right after the
declared length. -/
theorem C36_resumes_partial {g : Nat} {f : Field} {fs : List Field} {p : Val} {ps vs : List Val} {num last n m : Nat}
    {body rest : Bytes} (hl : body.length < 2 ^ 63) (hv : f.visible = true) (hr : repeated Γ f = false)
    (hx : exactKind Γ f.ty.deref = true) (hk : lenKind Γ f.ty.deref = true) (hnum : num + 1 < 2 ^ 29)
    (h : decFields Γ c (dec Γ c g) (f :: fs) (p :: ps) num last
      (varint (8 * (num + 1) + 2) ++ (varint body.length ++ body ++ rest)) n = .ok m vs) :
    ∃ v vs', vs = v :: vs' ∧
      (∀ rest', dec Γ c g f.ty p { f.opts with fnum := num + 1 } false (varint body.length ++ body ++ rest') =
        .ok ((varint body.length).length + body.length) v) ∧
      decFields Γ c (dec Γ c g) fs ps (num + 1) (num + 1) rest
        (n + (varint (8 * (num + 1) + 2)).length + ((varint body.length).length + body.length)) = .ok m vs' := by
  have hv' := varint_length_pos (8 * (num + 1) + 2)
  have htyp : Γ.typ3 f.ty.deref { f.opts with fnum := num + 1 } = 2 := (isLen_iff (Γ := Γ)).mp hk
  simp only [decFields, hv, Bool.not_true, Bool.false_eq_true, if_false] at h
  obtain ⟨_, h⟩ := infoThen_inv h
  rw [if_neg (by rw [List.length_append]; omega), if_neg (by rw [← repeated_eq, hr]; simp),
    decodeKey_varint _ _ hnum (by omega)] at h
  simp only at h
  rw [if_neg (by omega)] at h
  split at h
  · cases h
  rw [slideThen_append, if_neg (by simp), if_neg (by rw [htyp]; simp)] at h
  obtain ⟨j, v, hj, hjl, h⟩ := andSlide_inv h
  obtain ⟨h1, h2⟩ := C36_isolated_partial hl hx hk hj
  subst h1
  rw [show (varint body.length).length + body.length = (varint body.length ++ body).length by simp, List.drop_left] at h
  obtain ⟨vs', h', rfl⟩ := map_inv h
  exact ⟨v, vs', rfl, h2, by rw [List.length_append] at h'; exact h'⟩

/-- The hypotheses hold for the field `D *Msg` of `Msg`, with contents and more fields behind. -/
example : exactKind Demo.prog (Ty.ptr (.base Demo.msgT)).deref = true ∧
    lenKind Demo.prog (Ty.ptr (.base Demo.msgT)).deref = true ∧
    dec Demo.prog Demo.codecFoo 5 (.ptr (.base Demo.msgT)) .nil { fnum := 4 } false ([2] ++ [8, 3] ++ [42, 0]) =
      .ok 3 (.ptr (.struct [.int 3, .str [], .nil, .nil, .nil, .nil, .time 0 0])) := by
  refine ⟨by decide, by decide, by decide +kernel⟩

/-- C36 is false for lengths that are not minimal varints: the length 2 of field `D`, written in three bytes, is
counted as one byte, so the contents `2a 00` of `D` are read again as field `E` of the enclosing message. -/
theorem C36_nonMinimal_refuted :
    unmarshalBare Demo.prog Demo.codecFoo 6 (.base Demo.msgT) (Demo.prog.zeroTy (.base Demo.msgT))
      [0x22, 0x82, 0x80, 0x00, 0x2a, 0x00] =
      .ok (.struct [.int 0, .str [], .nil,
        .ptr (.struct [.int 0, .str [], .nil, .nil, .list [.struct [.int 0, .bool false]], .nil, .time 0 0]),
        .list [.struct [.int 0, .bool false]], .nil, .time 0 0]) := by
  decide +kernel

/-- `struct { L *[]Sub; N int64 }` -/
def Demo.ptrListProg : Prog :=
  { Demo.prog with
    shape := fun id => if id = 30 then .struct [{ ty := .ptr (.base Demo.subsT) }, { ty := .base Demo.int64T }] else Demo.shape id
    zero := fun id => if id = 30 then .struct [.nil, .int 0] else Demo.zero id }

/-- C36 is false for a pointer to a list: the list ends at a field with another number, and the rest of its
payload, here `10 05`, is read as field `N` of the enclosing struct. -/
theorem C36_pointerToList_refuted :
    unmarshalBare Demo.ptrListProg Demo.codecFoo 6 (.base 30) (.struct [.nil, .int 0]) [10, 4, 10, 0, 16, 5] =
      .ok (.struct [.ptr (.list [.struct [.int 0, .bool false]]), .int 5]) := by
  decide +kernel

end Amino
