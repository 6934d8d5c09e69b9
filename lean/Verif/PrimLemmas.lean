import Verif.Prim
import Verif.SpecPrim

/-! # Lemmas linking the bit-level coders with the arithmetic specification -/

namespace Amino
open Spec

theorem u8_toNat_lt (b : UInt8) : b.toNat < 256 := b.toNat_lt

theorem varint_length_pos (n : Nat) : 0 < (varint n).length := by
  unfold varint; split <;> simp

theorem varint_ne_nil (n : Nat) : varint n ≠ [] := by
  unfold varint; split <;> simp

theorem readVarint_len {bz : Bytes} {v l : Nat} (h : readVarint bz = some (v, l)) :
    0 < l ∧ l ≤ bz.length := by
  induction bz generalizing v l with
  | nil => simp [readVarint] at h
  | cons b bs ih =>
    unfold readVarint at h
    split at h
    · simp at h; simp; omega
    · cases h2 : readVarint bs with
      | none => simp [h2] at h
      | some p =>
        obtain ⟨v', l'⟩ := p
        simp [h2] at h
        have := ih h2
        simp; omega

theorem readVarint_varint (n : Nat) (rest : Bytes) :
    readVarint (varint n ++ rest) = some (n, (varint n).length) := by
  induction n using Nat.strongRecOn with
  | _ n ih =>
    unfold varint
    split
    · rename_i h
      simp [readVarint, Nat.mod_eq_of_lt (show n < 256 by omega), h]
    · rename_i h
      have h1 : (n % 128 + 128) % 256 = n % 128 + 128 := by omega
      have ih' := ih (n / 128) (by omega)
      simp only [List.cons_append, readVarint, ih', List.length_cons]
      have : (UInt8.ofNat (n % 128 + 128)).toNat = n % 128 + 128 := by simp [h1]
      rw [this]
      have h2 : ¬ (n % 128 + 128 < 128) := by omega
      simp only [h2, if_false, Option.map_some, Nat.add_sub_cancel]
      rw [Nat.mod_add_div]

theorem putUvarintAux_eq (k : Nat) (x : UInt64) (h : x.toNat < 128 ^ k) (hk : 0 < k) :
    putUvarintAux k x = some (varint x.toNat) := by
  induction k generalizing x with
  | zero => omega
  | succ k ih =>
    have e128 : (128 : UInt64).toNat = 128 := rfl
    unfold putUvarintAux varint
    by_cases hx : x.toNat < 128
    · have hn : ¬ x ≥ 0x80 := by
        intro h'; have := UInt64.le_iff_toNat_le.mp h'; rw [e128] at this; omega
      simp [hn, hx]
    · have hn : x ≥ 0x80 := by
        apply UInt64.le_iff_toNat_le.mpr; rw [e128]; omega
      have hs : (x >>> 7).toNat = x.toNat / 128 := by
        simp [UInt64.toNat_shiftRight, Nat.shiftRight_eq_div_pow]
      have hk' : 0 < k := by
        rcases Nat.eq_zero_or_pos k with h0 | h0
        · subst h0; simp at h; omega
        · exact h0
      have := ih (x >>> 7) (by rw [hs]; rw [Nat.pow_succ] at h; omega) hk'
      simp only [hn, if_true, this, hx, if_false, Option.map_some]
      rw [hs]
      congr 2
      apply UInt8.toNat_inj.mp
      have h7 : (x.toUInt8 ||| 128).toNat = x.toNat % 256 ||| 128 := by
        simp [UInt8.toNat_or]
      rw [h7]
      have hor : x.toNat % 256 ||| 128 = x.toNat % 128 + 128 := by
        have hb : ∀ m : Fin 256, m.val ||| 128 = m.val % 128 + 128 := by decide +kernel
        have := hb ⟨x.toNat % 256, by omega⟩
        simp only at this
        rw [this]; omega
      rw [hor]
      simp
      omega

theorem encodeUvarint_eq (u : UInt64) : encodeUvarint u = .ok (varint u.toNat) := by
  unfold encodeUvarint
  rw [putUvarintAux_eq 10 u (by have := u.toNat_lt; omega) (by omega)]

theorem shl64_toNat (x : UInt64) (s : Nat) (h : x.toNat * 2 ^ s < 2 ^ 64) :
    (shl64 x s).toNat = x.toNat * 2 ^ s := by
  unfold shl64
  rw [Nat.shiftLeft_eq]
  simp [Nat.mod_eq_of_lt h]

theorem or_shl64_toNat (x y : UInt64) (s : Nat) (hx : x.toNat < 2 ^ s)
    (h : y.toNat * 2 ^ s < 2 ^ 64) :
    (x ||| shl64 y s).toNat = x.toNat + y.toNat * 2 ^ s := by
  rw [UInt64.toNat_or, shl64_toNat _ _ h, Nat.or_comm, ← Nat.shiftLeft_eq,
    ← Nat.shiftLeft_add_eq_or_of_lt hx, Nat.add_comm]

/-- Beyond ten bytes nothing is ever accepted. -/
theorem uvarintLoop_late (bz : Bytes) (i : Nat) (x : UInt64) (s : Nat) (hi : 10 ≤ i) :
    uvarintLoop bz i x s =
      match readVarint bz with
      | none => (0, 0)
      | some (_, l) => (0, -((i : Int) + l)) := by
  induction bz generalizing i x s with
  | nil => simp [uvarintLoop, readVarint]
  | cons b bs ih =>
    unfold uvarintLoop readVarint
    by_cases hb : b.toNat < 128
    · have hb' : b < 0x80 := UInt8.lt_iff_toNat_lt.mpr hb
      have : i > 9 ∨ i = 9 ∧ b > 1 := Or.inl (by omega)
      simp [hb, hb', this]
    · have hb' : ¬ b < 0x80 := fun h => hb (UInt8.lt_iff_toNat_lt.mp h)
      simp only [hb, hb', if_false]
      rw [ih _ _ _ (by omega)]
      cases readVarint bs with
      | none => simp
      | some p => simp; omega

theorem uvarintLoop_eq (bz : Bytes) (i : Nat) (x : UInt64) (hi : i ≤ 9)
    (hx : x.toNat < 2 ^ (7 * i)) :
    uvarintLoop bz i x (7 * i) =
      match readVarint bz with
      | none => (0, 0)
      | some (v, l) =>
        if i + l ≤ 10 ∧ x.toNat + 2 ^ (7 * i) * v < 2 ^ 64 then
          (UInt64.ofNat (x.toNat + 2 ^ (7 * i) * v), ((i + l : Nat) : Int))
        else (0, -((i : Int) + l)) := by
  induction bz generalizing i x with
  | nil => simp [uvarintLoop, readVarint]
  | cons b bs ih =>
    have hpow : 2 ^ (7 * i) ≤ 2 ^ 63 := Nat.pow_le_pow_right (by omega) (by omega)
    unfold uvarintLoop readVarint
    by_cases hb : b.toNat < 128
    · have hb' : b < 0x80 := UInt8.lt_iff_toNat_lt.mpr hb
      simp only [hb, hb', if_true]
      by_cases h9 : i = 9
      · subst h9
        by_cases h1 : b > 1
        · have h1' : 1 < b.toNat := UInt8.lt_iff_toNat_lt.mp h1
          have hno : ¬ (9 + 1 ≤ 10 ∧ x.toNat + 2 ^ (7 * 9) * b.toNat < 2 ^ 64) := by
            intro h; omega
          rw [if_neg hno]
          simp [h1]
        · have h1' : b.toNat ≤ 1 := by
            have := fun h => h1 (UInt8.lt_iff_toNat_lt.mpr h); simp at this; omega
          have hok : 9 + 1 ≤ 10 ∧ x.toNat + 2 ^ (7 * 9) * b.toNat < 2 ^ 64 := by omega
          rw [if_pos hok]
          have hs := or_shl64_toNat x b.toUInt64 (7*9) hx (by simp; omega)
          simp [h1]
          apply UInt64.toNat_inj.mp
          simp at hs ⊢
          rw [hs]; omega
      · have hc : ¬ (i > 9 ∨ i = 9 ∧ b > 1) := by omega
        have hpow2 : 2 ^ (7 * i) * 128 ≤ 2 ^ 63 := by
          have : 2 ^ (7 * i) * 128 = 2 ^ (7 * i + 7) := by rw [Nat.pow_add]
          rw [this]; exact Nat.pow_le_pow_right (by omega) (by omega)
        have hmul : 2 ^ (7 * i) * b.toNat ≤ 2 ^ (7 * i) * 127 := Nat.mul_le_mul_left _ (by omega)
        have hok : i + 1 ≤ 10 ∧ x.toNat + 2 ^ (7 * i) * b.toNat < 2 ^ 64 := by omega
        rw [if_pos hok]
        simp only [hc, if_false]
        have hs := or_shl64_toNat x b.toUInt64 (7 * i) hx (by
          simp; rw [Nat.mul_comm]; omega)
        refine Prod.ext ?_ (by simp)
        apply UInt64.toNat_inj.mp
        rw [hs, UInt64.toNat_ofNat', Nat.mod_eq_of_lt hok.2]
        simp [Nat.mul_comm]
    · have hb' : ¬ b < 0x80 := fun h => hb (UInt8.lt_iff_toNat_lt.mp h)
      have hbl := u8_toNat_lt b
      simp only [hb, hb', if_false]
      have h7f : (b &&& 0x7f).toUInt64.toNat = b.toNat - 128 := by
        have : ∀ m : Fin 256, m.val &&& 127 = m.val % 128 := by decide +kernel
        have := this ⟨b.toNat, hbl⟩
        simp only at this
        simp [this]; omega
      by_cases h9 : i = 9
      · subst h9
        rw [uvarintLoop_late _ _ _ _ (by omega)]
        cases h : readVarint bs with
        | none => simp
        | some p =>
          obtain ⟨v, l⟩ := p
          have := readVarint_len h
          simp only [Option.map_some]
          rw [if_neg (by omega)]
          simp; omega
      · have hpow2 : 2 ^ (7 * i) * 128 = 2 ^ (7 * (i + 1)) := by
          rw [Nat.mul_add, Nat.pow_add]
        have hpow3 : 2 ^ (7 * (i + 1)) ≤ 2 ^ 63 := Nat.pow_le_pow_right (by omega) (by omega)
        have hmul : 2 ^ (7 * i) * (b.toNat - 128) ≤ 2 ^ (7 * i) * 127 :=
          Nat.mul_le_mul_left _ (by omega)
        have hs := or_shl64_toNat x (b &&& 0x7f).toUInt64 (7 * i) hx (by
          rw [h7f, Nat.mul_comm]; omega)
        rw [h7f] at hs
        have hx' : (x ||| shl64 (b &&& 0x7f).toUInt64 (7 * i)).toNat < 2 ^ (7 * (i + 1)) := by
          rw [hs, Nat.mul_comm (b.toNat - 128)]; omega
        have := ih (i + 1) _ (by omega) hx'
        rw [Nat.mul_add] at this
        rw [show 7 * i + 7 = 7 * i + 7 * 1 by omega, this]
        cases readVarint bs with
        | none => simp
        | some p =>
          obtain ⟨v, l⟩ := p
          simp only [Option.map_some]
          have e : (x ||| shl64 (b &&& 0x7f).toUInt64 (7 * i)).toNat + 2 ^ (7 * i + 7 * 1) * v
              = x.toNat + 2 ^ (7 * i) * (b.toNat - 128 + 128 * v) := by
            rw [hs, Nat.mul_add (2 ^ (7 * i)), ← Nat.mul_assoc, ← Nat.mul_add, ← hpow2.symm,
              Nat.mul_comm (b.toNat - 128)]
            omega
          rw [e]
          have e2 : i + 1 + l = i + (l + 1) := by omega
          rw [e2]
          split
          · rfl
          · simp; omega

theorem uvarint_eq (bz : Bytes) :
    uvarint bz =
      match readVarint bz with
      | none => (0, 0)
      | some (v, l) =>
        if l ≤ 10 ∧ v < 2 ^ 64 then (UInt64.ofNat v, (l : Int)) else (0, -(l : Int)) := by
  have := uvarintLoop_eq bz 0 0 (by omega) (by simp)
  simp only [Nat.mul_zero, Nat.pow_zero, Nat.one_mul] at this
  unfold uvarint
  rw [this]
  cases readVarint bz with
  | none => rfl
  | some p => simp

theorem decodeUvarint_eq (bz : Bytes) :
    decodeUvarint bz =
      match readVarint bz with
      | none => .err 0 .bufTooSmall
      | some (v, l) =>
        if l ≤ 10 ∧ v < 2 ^ 64 then .ok l (UInt64.ofNat v) else .err l .varintOverflow := by
  unfold decodeUvarint
  rw [uvarint_eq]
  cases h : readVarint bz with
  | none => simp
  | some p =>
    obtain ⟨v, l⟩ := p
    have := readVarint_len h
    simp only
    split
    · have h1 : ¬ ((l : Int) = 0) := by omega
      have h2 : ¬ ((l : Int) < 0) := by omega
      simp [h2]; omega
    · have h1 : ¬ (-(l : Int) = 0) := by omega
      have h2 : (-(l : Int) < 0) := by omega
      simp only [h1, h2, if_false, if_true]
      simp

theorem varint_length_le (n k : Nat) (h : n < 128 ^ k) (hk : 0 < k) : (varint n).length ≤ k := by
  induction k generalizing n with
  | zero => omega
  | succ k ih =>
    unfold varint
    split
    · simp
    · rcases Nat.eq_zero_or_pos k with h0 | h0
      · subst h0; simp at h; omega
      · have := ih (n / 128) (by rw [Nat.pow_succ] at h; omega) h0
        simp; omega

theorem varint_u64_length (n : Nat) (h : n < 2 ^ 64) : (varint n).length ≤ 10 :=
  varint_length_le n 10 (by omega) (by omega)

theorem decodeUvarint_varint (n : Nat) (h : n < 2 ^ 64) (rest : Bytes) :
    decodeUvarint (varint n ++ rest) = .ok (varint n).length (UInt64.ofNat n) := by
  rw [decodeUvarint_eq, readVarint_varint]
  simp [varint_u64_length n h]
  omega

theorem intOfU64_u64OfInt (i : Int) (h1 : -(2 ^ 63) ≤ i) (h2 : i < 2 ^ 63) :
    intOfU64 (u64OfInt i) = i := by
  unfold intOfU64 u64OfInt
  simp only [UInt64.toNat_ofNat']
  split <;> omega

theorem u64OfInt_toNat (i : Int) : (u64OfInt i).toNat = (i % 2 ^ 64).toNat := by
  unfold u64OfInt
  simp only [UInt64.toNat_ofNat']
  omega

theorem u64OfInt_intOfU64 (u : UInt64) : u64OfInt (intOfU64 u) = u := by
  apply UInt64.toNat_inj.mp
  rw [u64OfInt_toNat]
  have := u.toNat_lt
  unfold intOfU64
  split <;> omega

theorem intOfU64_range (u : UInt64) : -(2 ^ 63) ≤ intOfU64 u ∧ intOfU64 u < 2 ^ 63 := by
  have := u.toNat_lt
  unfold intOfU64
  split <;> omega

theorem zigzag_toNat (i : Int) (h1 : -(2 ^ 63) ≤ i) (h2 : i < 2 ^ 63) :
    (zigzag (u64OfInt i)).toNat = zig i := by
  have ht := u64OfInt_toNat i
  have e : ((0x8000000000000000 : UInt64)).toNat = 2 ^ 63 := rfl
  have hs : (u64OfInt i <<< 1).toNat = 2 * (u64OfInt i).toNat % 2 ^ 64 := by
    rw [UInt64.toNat_shiftLeft]; simp [Nat.shiftLeft_eq]; omega
  unfold zigzag zig
  simp only
  by_cases hi : i < 0
  · have hge : u64OfInt i ≥ 0x8000000000000000 := by
      apply UInt64.le_iff_toNat_le.mpr; rw [e, ht]; omega
    simp only [hge, if_true, hi]
    rw [UInt64.toNat_not, hs, ht]; simp [UInt64.size]; omega
  · have hge : ¬ u64OfInt i ≥ 0x8000000000000000 := by
      intro h; have := UInt64.le_iff_toNat_le.mp h; rw [e, ht] at this; omega
    simp only [hge, if_false, hi]
    rw [hs, ht]; omega

theorem unzigzag_eq (u : UInt64) : intOfU64 (unzigzag u) = zag u.toNat := by
  have hl := u.toNat_lt
  have hs : (u >>> 1).toNat = u.toNat / 2 := by
    simp [UInt64.toNat_shiftRight, Nat.shiftRight_eq_div_pow]
  have ha : (u &&& 1).toNat = u.toNat % 2 := by simp [UInt64.toNat_and]
  unfold unzigzag zag
  simp only
  by_cases h : u.toNat % 2 = 0
  · have : u &&& 1 = 0 := by apply UInt64.toNat_inj.mp; rw [ha, h]; rfl
    simp only [this, ne_eq, not_true, if_false, h, if_true]
    unfold intOfU64
    rw [hs, if_pos (by omega)]
  · have : u &&& 1 ≠ 0 := by
      intro h'; apply h; rw [← ha, h']; rfl
    simp only [this, ne_eq, not_false_eq_true, if_true, h, if_false]
    unfold intOfU64
    rw [UInt64.toNat_not, hs]; simp only [UInt64.size]
    rw [if_neg (by omega)]
    omega

theorem zag_zig (i : Int) : zag (zig i) = i := by
  unfold zag zig; split <;> split <;> omega

theorem zig_lt (i : Int) (h1 : -(2 ^ 63) ≤ i) (h2 : i < 2 ^ 63) : zig i < 2 ^ 64 := by
  unfold zig; split <;> omega

theorem encodeVarint_eq (i : Int) (h1 : -(2 ^ 63) ≤ i) (h2 : i < 2 ^ 63) :
    encodeVarint i = .ok (varint (zig i)) := by
  unfold encodeVarint
  rw [encodeUvarint_eq, zigzag_toNat i h1 h2]

theorem decodeVarint_eq (bz : Bytes) :
    decodeVarint bz =
      match readVarint bz with
      | none => .err 0 .bufTooSmall
      | some (v, l) =>
        if l ≤ 10 ∧ v < 2 ^ 64 then .ok l (zag v) else .err l .varintOverflow := by
  have h := decodeUvarint_eq bz
  unfold decodeUvarint at h
  unfold decodeVarint
  simp only at h ⊢
  cases hr : readVarint bz with
  | none =>
    rw [hr] at h
    by_cases h0 : (uvarint bz).2 = 0
    · simp [h0]
    · by_cases h1 : (uvarint bz).2 < 0
      · simp [h0, h1] at h
      · simp [h0, h1] at h
  | some p =>
    obtain ⟨v, l⟩ := p
    rw [hr] at h
    simp only at h ⊢
    by_cases hc : l ≤ 10 ∧ v < 2 ^ 64
    · simp only [hc, and_self, if_true] at h ⊢
      by_cases h0 : (uvarint bz).2 = 0
      · simp [h0] at h
      · by_cases h1 : (uvarint bz).2 < 0
        · simp [h0, h1] at h
        · simp only [h0, h1, if_false] at h ⊢
          injection h with ha hb
          rw [ha, hb, unzigzag_eq]
          simp [Nat.mod_eq_of_lt hc.2]
    · rw [if_neg hc] at h ⊢
      by_cases h0 : (uvarint bz).2 = 0
      · simp [h0] at h
      · by_cases h1 : (uvarint bz).2 < 0
        · simp only [h0, h1, if_false, if_true] at h ⊢
          injection h with ha hb
          rw [ha]
        · simp [h0, h1] at h

theorem decodeVarint_zig (i : Int) (h1 : -(2 ^ 63) ≤ i) (h2 : i < 2 ^ 63) (rest : Bytes) :
    decodeVarint (varint (zig i) ++ rest) = .ok (varint (zig i)).length i := by
  rw [decodeVarint_eq, readVarint_varint]
  simp only
  rw [if_pos ⟨varint_u64_length _ (zig_lt i h1 h2), zig_lt i h1 h2⟩, zag_zig]

/-! ## Little endian -/

theorem putLE_eq (k : Nat) (x : UInt64) : putLE k x = le k x.toNat := by
  induction k generalizing x with
  | zero => rfl
  | succ k ih =>
    unfold putLE le
    rw [ih]
    have hs : (x >>> 8).toNat = x.toNat / 256 := by
      simp [UInt64.toNat_shiftRight, Nat.shiftRight_eq_div_pow]
    rw [hs]
    congr 1
    apply UInt8.toNat_inj.mp; simp

theorem le_length (k n : Nat) : (le k n).length = k := by
  induction k generalizing n with
  | zero => rfl
  | succ k ih => simp [le, ih]

theorem unle_le (k n : Nat) : unle (le k n) = n % 256 ^ k := by
  induction k generalizing n with
  | zero => simp [le, unle]; omega
  | succ k ih =>
    simp only [le, unle, ih]
    rw [Nat.pow_succ, Nat.mul_comm (256 ^ k) 256, Nat.mod_mul]
    simp

theorem unle_lt (bz : Bytes) : unle bz < 256 ^ bz.length := by
  induction bz with
  | nil => simp [unle]
  | cons b bs ih =>
    have := u8_toNat_lt b
    simp only [unle, List.length_cons, Nat.pow_succ]; omega

theorem getLE_toNat (bz : Bytes) (h : bz.length ≤ 8) : (getLE bz).toNat = unle bz := by
  induction bz with
  | nil => rfl
  | cons b bs ih =>
    simp only [List.length_cons] at h
    have ih := ih (by omega)
    have hlt := unle_lt bs
    have hp : 256 ^ bs.length ≤ 256 ^ 7 := Nat.pow_le_pow_right (by omega) (by omega)
    unfold getLE unle
    rw [or_shl64_toNat _ _ 8 (by simpa using u8_toNat_lt b) (by rw [ih]; omega), ih]
    simp; omega

theorem getLE_putLE (k : Nat) (hk : k ≤ 8) (x : UInt64) (hx : x.toNat < 256 ^ k) :
    getLE (putLE k x) = x := by
  apply UInt64.toNat_inj.mp
  rw [getLE_toNat _ (by rw [putLE_eq, le_length]; exact hk), putLE_eq, unle_le,
    Nat.mod_eq_of_lt hx]

theorem putLE_length (k : Nat) (x : UInt64) : (putLE k x).length = k := by
  rw [putLE_eq, le_length]

/-! ## Byte slices -/

theorem encodeByteSlice_eq (bz : Bytes) (h : bz.length < 2 ^ 64) :
    encodeByteSlice bz = .ok (varint bz.length ++ bz) := by
  unfold encodeByteSlice
  rw [encodeUvarint_eq]
  simp [Nat.mod_eq_of_lt h]

theorem decodeByteSlice_varint (bz rest : Bytes) (h : bz.length < 2 ^ 63) :
    decodeByteSlice (varint bz.length ++ (bz ++ rest)) =
      .ok ((varint bz.length).length + bz.length) bz := by
  unfold decodeByteSlice
  rw [decodeUvarint_varint _ (by omega)]
  have hm : (UInt64.ofNat bz.length).toNat = bz.length := by simp; omega
  have hi : intOfU64 (UInt64.ofNat bz.length) = bz.length := by
    unfold intOfU64; rw [hm, if_pos h]
  have h1 : ¬ ((bz.length : Int) < 0) := by omega
  simp [DRes.andSlide, hi, h1]
  have : bz.length % 18446744073709551616 = bz.length := by omega
  simp [this]
  omega

/-! ## Keys -/

theorem encodeKey_eq (num typ : Nat) (hn : num < 2 ^ 29) (ht : typ < 8) :
    encodeKey num typ = .ok (varint (8 * num + typ)) := by
  unfold encodeKey
  have h1 : typ &&& 0xF8 = 0 := by
    have : ∀ m : Fin 8, m.val &&& 0xF8 = 0 := by decide
    exact this ⟨typ, ht⟩
  have h2 : ¬ num > 2 ^ 29 - 1 := by omega
  have hm : (UInt64.ofNat num).toNat = num := by simp; omega
  simp only [h1, h2, ne_eq, not_true, if_false]
  rw [encodeUvarint_eq]
  congr 2
  rw [UInt64.toNat_or]
  have hs : (UInt64.ofNat num <<< 3).toNat = num <<< 3 := by
    rw [UInt64.toNat_shiftLeft, hm]
    simp [Nat.shiftLeft_eq]; omega
  have ht' : (UInt64.ofNat typ).toNat = typ := by simp; omega
  rw [hs, ht', ← Nat.shiftLeft_add_eq_or_of_lt (by omega : typ < 2 ^ 3), Nat.shiftLeft_eq]
  omega

theorem decodeKey_eq (bz : Bytes) :
    decodeKey bz =
      match readVarint bz with
      | none => .err 0 .bufTooSmall
      | some (v, l) =>
        if l ≤ 10 ∧ v < 2 ^ 64 then
          if v < 2 ^ 32 then .ok l (v / 8, v % 8) else .err l .badFieldNum
        else .err l .varintOverflow := by
  unfold decodeKey
  rw [decodeUvarint_eq]
  cases readVarint bz with
  | none => rfl
  | some p =>
    obtain ⟨v, l⟩ := p
    simp only
    by_cases hc : l ≤ 10 ∧ v < 2 ^ 64
    · simp only [hc, and_self, if_true]
      have hm : (UInt64.ofNat v).toNat = v := by simp; omega
      have hs : (UInt64.ofNat v >>> 3).toNat = v / 8 := by
        rw [UInt64.toNat_shiftRight, hm]; simp [Nat.shiftRight_eq_div_pow]
      have ha : (UInt64.ofNat v &&& 7).toNat = v % 8 := by
        rw [UInt64.toNat_and, hm]
        have := Nat.and_two_pow_sub_one_eq_mod v 3
        simpa using this
      rw [hs, ha]
      by_cases h32 : v < 2 ^ 32
      · rw [if_neg (by omega), if_pos h32]
      · rw [if_pos (by omega), if_neg h32]
    · simp only [hc, if_false]

theorem decodeKey_varint (num typ : Nat) (hn : num < 2 ^ 29) (ht : typ < 8) (rest : Bytes) :
    decodeKey (varint (8 * num + typ) ++ rest) =
      .ok (varint (8 * num + typ)).length (num, typ) := by
  rw [decodeKey_eq, readVarint_varint]
  have h64 : 8 * num + typ < 2 ^ 64 := by omega
  simp only
  rw [if_pos ⟨varint_u64_length _ h64, h64⟩, if_pos (by omega)]
  congr 2 <;> omega

end Amino
