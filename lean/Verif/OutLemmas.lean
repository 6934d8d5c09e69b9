import Verif.SpecOut
import Verif.AminoApi
import Verif.PrimLemmas
import Verif.TypedLemmas

/-!
# How long the binary encoding of a value is
-/

namespace Amino.OutB
open Spec

theorem putUvarintAux_len : ∀ {k : Nat} {x : UInt64} {b : Bytes}, putUvarintAux k x = some b → b.length ≤ k
  | 0, _, _, h => by simp [putUvarintAux] at h
  | k + 1, x, b, h => by
    simp only [putUvarintAux] at h
    split at h
    · cases hr : putUvarintAux k (x >>> 7) with
      | none => rw [hr] at h; cases h
      | some r =>
        rw [hr] at h; cases h
        have := putUvarintAux_len hr
        simp only [List.length_cons]; omega
    · cases h; simp

theorem uvarint_len {u : UInt64} {b : Bytes} (h : encodeUvarint u = .ok b) : b.length ≤ 10 := by
  unfold encodeUvarint at h
  split at h
  · cases h; rename_i hb; exact putUvarintAux_len hb
  · cases h

theorem key_len {n t : Nat} {b : Bytes} (h : encodeKey n t = .ok b) : b.length ≤ 10 := by
  unfold encodeKey at h
  split at h
  · cases h
  · split at h
    · cases h
    · exact uvarint_len h

theorem byteSlice_len {bz b : Bytes} (h : encodeByteSlice bz = .ok b) : b.length ≤ 10 + bz.length := by
  obtain ⟨p, hp, h⟩ := Res.bind_eq_ok h
  cases h
  have := uvarint_len hp
  simp only [List.length_append]; omega

theorem framed_len {bare : Bool} {buf b : Bytes} (h : framed bare buf = .ok b) : b.length ≤ 10 + buf.length := by
  unfold framed at h
  split at h
  · cases h; omega
  · exact byteSlice_len h

theorem half_len {P : Prop} [Decidable P] {x : Int} {Q : Prop} [Decidable Q] {n : Nat} {b : Bytes}
    (h : (if P then (if Q then Res.err Err.badTime else (encodeKey n typ3Varint).bind fun k =>
      (encodeUvarint (u64OfInt x)).bind fun v => Res.ok (k ++ v)) else Res.ok []) = .ok b) : b.length ≤ 20 := by
  split at h
  · split at h
    · cases h
    · obtain ⟨k, hk, h⟩ := Res.bind_eq_ok h
      obtain ⟨v, hv, h⟩ := Res.bind_eq_ok h
      cases h
      have := key_len hk
      have := uvarint_len hv
      simp only [List.length_append]; omega
  · cases h; simp

theorem time_len {s ns : Int} {b : Bytes} (h : encodeTime s ns = .ok b) : b.length ≤ 40 := by
  unfold encodeTime at h
  obtain ⟨x, hx, h⟩ := Res.bind_eq_ok h
  obtain ⟨y, hy, h⟩ := Res.bind_eq_ok h
  cases h
  have := half_len hx
  have := half_len hy
  simp only [List.length_append]; omega

theorem ok_putLE {k : Nat} {u : UInt64} {b : Bytes} (h : (Res.ok (putLE k u) : Res Bytes) = .ok b) : b.length = k := by
  cases h; exact putLE_length k u

theorem encInt_len {k : IntKind} {fo : FOpts} {i : Int} {b : Bytes} (h : encInt k fo i = .ok b) : b.length ≤ 10 := by
  cases k <;> simp only [encInt] at h
  all_goals first
    | exact uvarint_len h
    | (split at h
       · have := ok_putLE h; omega
       · exact uvarint_len h)

theorem vsize_pos' (v : Val) : 1 ≤ vsize v := by
  cases v <;> simp only [vsize] <;> omega

theorem derefVal_size : ∀ {t : Ty} {v dv : Val}, derefVal t v = some dv → vsize dv ≤ vsize v
  | .base _, v, dv, h => by cases h; exact Nat.le_refl _
  | .ptr t, .ptr v, dv, h => by
    have := derefVal_size (t := t) h
    simp only [vsize]; omega

section
variable {Γ : Prog} {c : Codec} {B A : Nat}

/-- Lengths with room for a key. -/
def Fits (A : Nat) (v : Val) (b : Bytes) : Prop := b.length + 10 ≤ A * vsize v

theorem Fits.mono {v w : Val} {b : Bytes} (h : Fits A v b) (hs : vsize v ≤ vsize w) : Fits A w b :=
  Nat.le_trans h (Nat.mul_le_mul_left _ hs)

theorem fits_small {v : Val} {b : Bytes} (hA : 60 ≤ A) (h : b.length ≤ 50) : Fits A v b := by
  have h1 := vsize_pos' v
  have : A * 1 ≤ A * vsize v := Nat.mul_le_mul_left _ h1
  unfold Fits; omega

def RecFits (A : Nat) (rec : TId → Val → FOpts → Bool → Res Bytes) : Prop :=
  ∀ id v fo bare b, rec id v fo bare = .ok b → Fits A v b

variable {rec : TId → Val → FOpts → Bool → Res Bytes}

theorem zero_size (hz : ∀ id, HasTy Γ (.base id) (Γ.zero id)) {id : TId} {fo : FOpts}
    (h : Γ.typ3 id fo ≠ typ3ByteLength) : vsize (Γ.zero id) = 1 := by
  have h0 := hz id
  unfold Prog.typ3 at h
  generalize Γ.zero id = z at h0
  cases h0 <;> simp_all [vsize]

theorem packed_len (hz : ∀ id, HasTy Γ (.base id) (Γ.zero id)) (hr : RecFits A rec) {e : Ty} {fo : FOpts}
    (ht : Γ.typ3 e.deref fo ≠ typ3ByteLength) : ∀ {vs : List Val} {b : Bytes}, encPacked Γ rec e fo vs = .ok b →
    b.length ≤ A * vsizes vs
  | [], b, h => by cases h; simp
  | v :: vs, b, h => by
    obtain ⟨x, hx, h⟩ := Res.bind_eq_ok h
    obtain ⟨y, hy, h⟩ := Res.bind_eq_ok h
    cases h
    have h1 := hr _ _ _ _ _ hx
    have h2 := packed_len hz hr ht hy
    have h3 : vsize (Γ.derefZero e v) ≤ vsize v := by
      unfold Prog.derefZero
      split
      · rename_i hd; exact derefVal_size hd
      · rw [zero_size hz ht]; exact vsize_pos' v
    have h4 := h1.mono h3
    unfold Fits at h4
    simp only [List.length_append, vsizes, Nat.mul_add]
    omega

theorem elem_len (hA : 60 ≤ A) (hr : RecFits A rec) {e : Ty} {fo : FOpts} {v : Val} {b : Bytes}
    (h : encElem Γ rec e fo v = .ok b) : Fits A v b := by
  unfold encElem at h
  split at h
  · split at h
    · cases h
    · exact fits_small hA (Nat.le_trans (uvarint_len h) (by decide))
  · rename_i hd
    split at h
    · split at h
      · cases h
      · exact fits_small hA (Nat.le_trans (uvarint_len h) (by decide))
    · exact (hr _ _ _ _ _ h).mono (derefVal_size hd)

theorem unpacked_len (hA : 60 ≤ A) (hr : RecFits A rec) {e : Ty} {fo : FOpts} : ∀ {vs : List Val} {b : Bytes},
    encUnpacked Γ rec e fo vs = .ok b → b.length ≤ A * vsizes vs
  | [], b, h => by cases h; simp
  | v :: vs, b, h => by
    obtain ⟨k, hk, h⟩ := Res.bind_eq_ok h
    obtain ⟨x, hx, h⟩ := Res.bind_eq_ok h
    obtain ⟨y, hy, h⟩ := Res.bind_eq_ok h
    cases h
    have h1 := elem_len hA hr hx
    have h2 := unpacked_len hA hr hy
    have h3 := key_len hk
    unfold Fits at h1
    simp only [List.length_append, vsizes, Nat.mul_add]
    omega

theorem list_len (hz : ∀ id, HasTy Γ (.base id) (Γ.zero id)) (hA : 60 ≤ A) (hr : RecFits A rec) {e : Ty} {v : Val}
    {fo : FOpts} {bare : Bool} {b : Bytes} (h : encList Γ c rec e v fo bare = .ok b) : Fits A v b := by
  obtain ⟨_, _, h⟩ := Res.bind_eq_ok h
  cases v with
  | nil => exact fits_small hA (Nat.le_trans (framed_len h) (by decide))
  | list vs =>
    obtain ⟨buf, hb, h⟩ := Res.bind_eq_ok h
    have h1 := framed_len h
    have h2 : buf.length ≤ A * vsizes vs := by
      split at hb
      · rename_i ht; exact packed_len hz hr ht hb
      · exact unpacked_len hA hr hb
    unfold Fits
    simp only [vsize, Nat.mul_add]
    omega
  | _ => cases h

theorem field_len (hz : ∀ id, HasTy Γ (.base id) (Γ.zero id)) (hA : 60 ≤ A) (hr : RecFits A rec) {f : Field} {n : Nat}
    {v : Val} {b : Bytes} (h : encField Γ c rec f n v = .ok b) : b.length ≤ A * vsize v := by
  obtain ⟨_, _, h⟩ := Res.bind_eq_ok h
  split at h
  · split at h
    · cases h
    · cases h; simp
  · rename_i dv hd
    have hs := derefVal_size hd
    split at h
    · cases h; simp
    · split at h
      · split at h
        · have := (list_len hz hA hr h).mono hs
          unfold Fits at this; omega
        · cases h
      · obtain ⟨k, hk, h⟩ := Res.bind_eq_ok h
        obtain ⟨x, hx, h⟩ := Res.bind_eq_ok h
        have h1 := key_len hk
        have h2 := (hr _ _ _ _ _ hx).mono hs
        unfold Fits at h2
        split at h
        · cases h; simp
        · cases h
          simp only [List.length_append]; omega

theorem fields_len (hz : ∀ id, HasTy Γ (.base id) (Γ.zero id)) (hA : 60 ≤ A) (hr : RecFits A rec) :
    ∀ {n : Nat} {fs : List Field} {vs : List Val} {b : Bytes}, encFields Γ c rec n fs vs = .ok b → b.length ≤ A * vsizes vs
  | _, [], [], b, h => by cases h; simp
  | n, f :: fs, v :: vs, b, h => by
    simp only [encFields] at h
    split at h
    · have := fields_len hz hA hr h
      simp only [vsizes, Nat.mul_add]; omega
    · obtain ⟨x, hx, h⟩ := Res.bind_eq_ok h
      obtain ⟨y, hy, h⟩ := Res.bind_eq_ok h
      cases h
      have h1 := field_len hz hA hr hx
      have h2 := fields_len hz hA hr hy
      simp only [List.length_append, vsizes, Nat.mul_add]; omega
  | _, [], _ :: _, _, h => by cases h
  | _, _ :: _, [], _, h => by cases h

theorem iface_len (hc : PrefixBytes c) (hA : 60 ≤ A) (hr : RecFits A rec) {id : TId} {v : Val} {fo : FOpts} {bare : Bool} {b : Bytes}
    (h : encIface Γ c rec id v fo bare = .ok b) : Fits A v b := by
  cases v with
  | nil => cases h; exact fits_small hA (by simp)
  | iface t cv =>
    simp only [encIface] at h
    split at h
    · cases h
    · rename_i crv hd
      split at h
      · cases h
      · obtain ⟨_, _, h⟩ := Res.bind_eq_ok h
        split at h
        · cases h
        · rename_i ci hci
          split at h
          · cases h
          · obtain ⟨x, hx, h⟩ := Res.bind_eq_ok h
            have h1 := (hr _ _ _ _ _ hx).mono (derefVal_size hd)
            have h2 := framed_len h
            obtain ⟨h3, h4⟩ := hc _ _ hci
            unfold Fits at h1 ⊢
            simp only [vsize, Nat.mul_add]
            simp only [List.length_append] at h2
            split at h2 <;> simp only [List.length_cons, List.length_nil] at h2 <;> omega
  | _ => cases h

theorem shape_out (hz : ∀ id, HasTy Γ (.base id) (Γ.zero id)) (hc : PrefixBytes c) (hA : 60 ≤ A) (hr : RecFits A rec)
    {fuel : Nat} {id : TId} {v : Val} {fo : FOpts} {bare : Bool} {b : Bytes}
    (h : encShape Γ c rec fuel id v fo bare = .ok b) : Fits A v b := by
  have bs : ∀ {x b : Bytes} {v : Val}, vsize v = 1 + x.length → encodeByteSlice x = .ok b → Fits A v b := by
    intro x b v hv h
    have h1 := byteSlice_len h
    unfold Fits
    rw [hv]
    have : 60 * x.length ≤ A * x.length := Nat.mul_le_mul_right _ hA
    simp only [Nat.mul_add]; omega
  unfold encShape at h
  split at h
  · exact iface_len hc hA hr h
  · split at h
    · split at h
      · exact fits_small hA (Nat.le_trans (byteSlice_len h) (by decide))
      · exact bs rfl h
      · cases h
    · split at h
      · split at h
        · cases h
        · cases h; exact fits_small hA (by simp)
        · cases h
      · exact list_len hz hA hr h
  · split at h
    · split at h
      · exact bs rfl h
      · cases h
    · split at h
      · split at h
        · cases h
        · cases h; exact fits_small hA (by simp)
        · cases h
      · exact list_len hz hA hr h
  · split at h
    · obtain ⟨x, hx, h⟩ := Res.bind_eq_ok h
      have h1 := fields_len hz hA hr hx
      have h2 := framed_len h
      unfold Fits
      simp only [vsize, Nat.mul_add]; omega
    · cases h
  · split at h
    · obtain ⟨x, hx, h⟩ := Res.bind_eq_ok h
      have h1 := time_len hx
      have h2 := framed_len h
      exact fits_small hA (by omega)
    · cases h
  · split at h
    · exact fits_small hA (Nat.le_trans (encInt_len h) (by decide))
    · cases h
  · split at h
    · unfold encodeBool at h
      split at h <;> exact fits_small hA (Nat.le_trans (uvarint_len h) (by decide))
    · cases h
  · split at h
    · cases h
    · split at h
      · have := ok_putLE h; exact fits_small hA (by omega)
      · cases h
  · split at h
    · cases h
    · split at h
      · have := ok_putLE h; exact fits_small hA (by omega)
      · cases h
  · split at h
    · exact bs rfl h
    · cases h
  · cases h

/-- A string or bytes without MarshalAmino. -/
theorem flat_len {fuel : Nat} {id : TId} {v : Val} {fo : FOpts} {bare : Bool} {b : Bytes} (hv : (∃ s, v = .str s) ∨ ∃ x, v = .bytes x)
    (h : encShape Γ c rec fuel id v fo bare = .ok b) : b.length ≤ 10 + vsize v := by
  have bs : ∀ {x b : Bytes} {v : Val}, vsize v = 1 + x.length → encodeByteSlice x = .ok b → b.length ≤ 10 + vsize v := by
    intro x b v hv h
    have h1 := byteSlice_len h
    omega
  have no : ∀ {e : Ty}, ¬ encList Γ c rec e v fo bare = .ok b := by
    intro e h
    obtain ⟨_, _, h⟩ := Res.bind_eq_ok h
    rcases hv with ⟨s, rfl⟩ | ⟨x, rfl⟩ <;> cases h
  unfold encShape at h
  split at h
  · rcases hv with ⟨s, rfl⟩ | ⟨x, rfl⟩ <;> cases h
  · split at h
    · rcases hv with ⟨s, rfl⟩ | ⟨x, rfl⟩
      · cases h
      · exact bs rfl h
    · split at h
      · split at h
        · cases h
        · cases h; simp
        · cases h
      · exact absurd h no
  · split at h
    · rcases hv with ⟨s, rfl⟩ | ⟨x, rfl⟩
      · cases h
      · exact bs rfl h
    · split at h
      · split at h
        · cases h
        · cases h; simp
        · cases h
      · exact absurd h no
  · rcases hv with ⟨s, rfl⟩ | ⟨x, rfl⟩ <;> cases h
  · rcases hv with ⟨s, rfl⟩ | ⟨x, rfl⟩ <;> cases h
  · rcases hv with ⟨s, rfl⟩ | ⟨x, rfl⟩ <;> cases h
  · rcases hv with ⟨s, rfl⟩ | ⟨x, rfl⟩ <;> cases h
  · split at h
    · cases h
    · rcases hv with ⟨s, rfl⟩ | ⟨x, rfl⟩ <;> cases h
  · split at h
    · cases h
    · rcases hv with ⟨s, rfl⟩ | ⟨x, rfl⟩ <;> cases h
  · rcases hv with ⟨s, rfl⟩ | ⟨x, rfl⟩
    · exact bs rfl h
    · cases h
  · cases h

theorem enc_fits (hz : ∀ id, HasTy Γ (.base id) (Γ.zero id)) (hm : ReprSmall Γ B) (hc : PrefixBytes c) :
    ∀ fuel, RecFits (B + 60) (enc Γ c fuel)
  | 0 => by intro id v fo bare b h; cases h
  | fuel + 1 => by
    intro id v fo bare b h
    have ih := enc_fits hz hm hc fuel
    simp only [enc, encBody] at h
    split at h
    · rename_i rid m hmi
      obtain ⟨r, hr, h⟩ := Res.bind_eq_ok h
      obtain ⟨_, _, h⟩ := Res.bind_eq_ok h
      rcases hm.marsh hmi hr with h1 | ⟨h1, h2, h3⟩
      · exact (ih _ _ _ _ _ h).mono h1
      · cases fuel with
        | zero => cases h
        | succ f =>
          simp only [enc, encBody, h1] at h
          have h4 := flat_len h2 h
          have h5 := vsize_pos' v
          unfold Fits
          rw [Nat.add_mul]; omega
    · exact shape_out hz hc (by omega) ih h

theorem marshalBare_len (hz : ∀ id, HasTy Γ (.base id) (Γ.zero id)) (hm : ReprSmall Γ B) (hc : PrefixBytes c) {fuel : Nat}
    {t : Ty} {v : Val} {b : Bytes} (h : marshalBare Γ c fuel t v = .ok b) : b.length ≤ (B + 60) * vsize v + 4 := by
  unfold marshalBare at h
  split at h
  · cases h
  · rename_i rv hd
    obtain ⟨_, _, h⟩ := Res.bind_eq_ok h
    obtain ⟨x, hx, h⟩ := Res.bind_eq_ok h
    have h1 : x.length ≤ (B + 60) * vsize v := by
      split at hx
      · obtain ⟨k, hk, hx⟩ := Res.bind_eq_ok hx
        obtain ⟨y, hy, hx⟩ := Res.bind_eq_ok hx
        have h1 := key_len hk
        have h2 := (enc_fits hz hm hc fuel _ _ _ _ _ hy).mono (derefVal_size hd)
        unfold Fits at h2
        split at hx
        · cases hx; simp
        · cases hx; simp only [List.length_append]; omega
      · have h2 := (enc_fits hz hm hc fuel _ _ _ _ _ hx).mono (derefVal_size hd)
        unfold Fits at h2; omega
    split at h
    · rename_i ci hci
      cases h
      have := (hc _ _ hci).1
      simp only [List.length_append]; omega
    · cases h; omega

theorem marshalLP_len (hz : ∀ id, HasTy Γ (.base id) (Γ.zero id)) (hm : ReprSmall Γ B) (hc : PrefixBytes c) {fuel : Nat}
    {t : Ty} {v : Val} {b : Bytes} (h : marshalLP Γ c fuel t v = .ok b) : b.length ≤ (B + 60) * vsize v + 14 := by
  obtain ⟨x, hx, h⟩ := Res.bind_eq_ok h
  obtain ⟨p, hp, h⟩ := Res.bind_eq_ok h
  cases h
  have := uvarint_len hp
  have := marshalBare_len hz hm hc hx
  simp only [List.length_append]; omega

end

end Amino.OutB
