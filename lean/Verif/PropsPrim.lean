import Verif.PrimLemmas2

/-! # Properties C01-C10: the primitive coders -/

namespace Amino
open Spec

/-- C01: every `uint64` round trips through `EncodeUvarint`/`DecodeUvarint`, whatever bytes follow,
and exactly the written bytes are consumed. -/
theorem C01_uvarint_roundtrip (u : UInt64) (rest : Bytes) :
    ∃ bz, encodeUvarint u = .ok bz ∧ decodeUvarint (bz ++ rest) = .ok bz.length u := by
  refine ⟨_, encodeUvarint_eq u, ?_⟩
  rw [decodeUvarint_varint _ u.toNat_lt]; simp

example : encodeUvarint 300 = .ok [0xAC, 0x02] := by decide
example : decodeUvarint [0xAC, 0x02, 0xFF] = .ok 2 300 := by decide

/-- C01, wire format: the bytes written are the base-128 digits of the value. -/
theorem C01_uvarint_wire (u : UInt64) : encodeUvarint u = .ok (Spec.varint u.toNat) :=
  encodeUvarint_eq u

/-- C01, decoding side: `DecodeUvarint` succeeds exactly on strings that start with a base-128 number
of at most ten bytes and below 2^64, and returns it. -/
theorem C01_uvarint_decode_iff (bz : Bytes) (n : Nat) (u : UInt64) :
    decodeUvarint bz = .ok n u ↔
      Spec.readVarint bz = some (u.toNat, n) ∧ n ≤ 10 := by
  constructor
  · intro h; have := decodeUvarint_ok h; exact ⟨this.1, this.2.2.1⟩
  · intro ⟨h1, h2⟩
    rw [decodeUvarint_eq, h1]
    simp only
    rw [if_pos ⟨h2, u.toNat_lt⟩]; simp

example : Spec.readVarint [0xAC, 0x02, 0xFF] = some (300, 2) := by decide

/-- C02: every `int64` round trips through the zig-zag coders. -/
theorem C02_varint_roundtrip (i : Int) (h : -(2 ^ 63) ≤ i ∧ i < 2 ^ 63) (rest : Bytes) :
    ∃ bz, encodeVarint i = .ok bz ∧ decodeVarint (bz ++ rest) = .ok bz.length i :=
  ⟨_, encodeVarint_eq i h.1 h.2, decodeVarint_zig i h.1 h.2 rest⟩

example : (-(2 ^ 63) : Int) ≤ -5 ∧ (-5 : Int) < 2 ^ 63 ∧ encodeVarint (-5) = .ok [9] := by decide

/-- C02 for `int8`. -/
theorem C02_int8_roundtrip (i : Int) (h : -(2 ^ 7) ≤ i ∧ i < 2 ^ 7) (rest : Bytes) :
    ∃ bz, encodeInt8 i = .ok bz ∧ decodeInt8 (bz ++ rest) = .ok bz.length i := by
  refine ⟨_, encodeVarint_eq i (by omega) (by omega), ?_⟩
  unfold decodeInt8
  rw [decodeVarint_zig i (by omega) (by omega)]
  simp only
  rw [if_neg (by omega)]

/-- C02 for `int16`. -/
theorem C02_int16_roundtrip (i : Int) (h : -(2 ^ 15) ≤ i ∧ i < 2 ^ 15) (rest : Bytes) :
    ∃ bz, encodeInt16 i = .ok bz ∧ decodeInt16 (bz ++ rest) = .ok bz.length i := by
  refine ⟨_, encodeVarint_eq i (by omega) (by omega), ?_⟩
  unfold decodeInt16
  rw [decodeVarint_zig i (by omega) (by omega)]
  simp only
  rw [if_neg (by omega)]

example : encodeInt16 (-32768) = .ok [0xFF, 0xFF, 0x03] ∧
    decodeInt16 [0xFF, 0xFF, 0x03] = .ok 3 (-32768) := by decide

/-- C03: `UvarintSize` is the encoded length, between 1 and 10. -/
theorem C03_uvarintSize (u : UInt64) :
    ∃ bz, encodeUvarint u = .ok bz ∧ uvarintSize u = bz.length ∧ 1 ≤ bz.length ∧ bz.length ≤ 10 :=
  ⟨_, encodeUvarint_eq u, uvarintSize_eq u, varint_length_pos _, varint_u64_length _ u.toNat_lt⟩

/-- C03: `VarintSize` is the encoded length, between 1 and 10. -/
theorem C03_varintSize (i : Int) (h : -(2 ^ 63) ≤ i ∧ i < 2 ^ 63) :
    ∃ bz, encodeVarint i = .ok bz ∧ varintSize i = bz.length ∧ 1 ≤ bz.length ∧ bz.length ≤ 10 := by
  refine ⟨_, encodeVarint_eq i h.1 h.2, ?_, varint_length_pos _,
    varint_u64_length _ (zig_lt i h.1 h.2)⟩
  rw [← zigzag_toNat i h.1 h.2, ← uvarintSize_eq]
  have ht := u64OfInt_toNat i
  have e : ((0x8000000000000000 : UInt64)).toNat = 2 ^ 63 := rfl
  unfold varintSize zigzag
  simp only
  by_cases hi : i < 0
  · have hge : u64OfInt i ≥ 0x8000000000000000 := by
      apply UInt64.le_iff_toNat_le.mpr; rw [e, ht]; omega
    rw [if_pos hi, if_pos hge]
    congr 1
    have : (0xFFFFFFFFFFFFFFFF : UInt64) = -1 := by decide
    rw [this, UInt64.xor_neg_one]
  · have hge : ¬ u64OfInt i ≥ 0x8000000000000000 := by
      intro h; have := UInt64.le_iff_toNat_le.mp h; rw [e, ht] at this; omega
    rw [if_neg hi, if_neg hge]
    simp

example : varintSize (-65) = 2 ∧ varintSize (-64) = 1 := by decide

/-- C03: `ByteSliceSize` is the encoded length. -/
theorem C03_byteSliceSize (b : Bytes) (h : b.length < 2 ^ 64) :
    ∃ bz, encodeByteSlice b = .ok bz ∧ byteSliceSize b = bz.length := by
  refine ⟨_, encodeByteSlice_eq b h, ?_⟩
  unfold byteSliceSize
  rw [uvarintSize_eq]
  simp [Nat.mod_eq_of_lt h]

example : byteSliceSize [1, 2, 3] = 4 := by decide

/-- C04: no shorter byte string decodes to `u`, and the emitted one is the only one of its length. -/
theorem C04_uvarint_minimal (u : UInt64) (bz rest : Bytes) (n : Nat)
    (henc : encodeUvarint u = .ok bz) (hdec : decodeUvarint rest = .ok n u) :
    bz.length ≤ n ∧ (n = bz.length → rest.take n = bz) := by
  rw [encodeUvarint_eq] at henc
  injection henc with henc
  subst henc
  have := readVarint_minimal (decodeUvarint_ok hdec).1
  exact ⟨this.1, fun h => this.2 h.symm⟩

/-- Non-minimal strings do exist and are accepted (malleability). -/
example : decodeUvarint [0x81, 0x00] = .ok 2 1 ∧ encodeUvarint 1 = .ok [1] := by decide

/-- C05: the fixed 64-bit coders. -/
theorem C05_fixed64_roundtrip (u : UInt64) (rest : Bytes) :
    ∃ bz, encodeUint64 u = .ok bz ∧ bz = Spec.le 8 u.toNat ∧ bz.length = 8 ∧
      decodeUint64 (bz ++ rest) = .ok 8 u := by
  refine ⟨_, rfl, putLE_eq 8 u, putLE_length 8 u, ?_⟩
  have hl := putLE_length 8 u
  unfold decodeUint64
  rw [if_neg (by simp [hl]), List.take_append_of_le_length (by omega), List.take_of_length_le (by omega),
    getLE_putLE 8 (by omega) u (by have := u.toNat_lt; omega)]

/-- C05: the fixed 32-bit coders. -/
theorem C05_fixed32_roundtrip (u : UInt64) (h : u.toNat < 2 ^ 32) (rest : Bytes) :
    ∃ bz, encodeUint32 u = .ok bz ∧ bz = Spec.le 4 u.toNat ∧ bz.length = 4 ∧
      decodeUint32 (bz ++ rest) = .ok 4 u := by
  refine ⟨_, rfl, putLE_eq 4 u, putLE_length 4 u, ?_⟩
  have hl := putLE_length 4 u
  unfold decodeUint32
  rw [if_neg (by simp [hl]), List.take_append_of_le_length (by omega), List.take_of_length_le (by omega),
    getLE_putLE 4 (by omega) u (by omega)]

theorem putLE4_mod (u v : UInt64) (h : u.toNat % 2 ^ 32 = v.toNat) : putLE 4 u = putLE 4 v := by
  rw [putLE_eq, putLE_eq, ← h]
  simp only [le]
  have e : ∀ n, n % 2 ^ 32 % 256 = n % 256 := by intro n; omega
  refine List.cons_eq_cons.mpr ⟨by rw [e], List.cons_eq_cons.mpr ⟨?_, List.cons_eq_cons.mpr
    ⟨?_, List.cons_eq_cons.mpr ⟨?_, rfl⟩⟩⟩⟩ <;> congr 1 <;> omega

/-- C05: signed 64-bit. -/
theorem C05_int64_roundtrip (i : Int) (h : -(2 ^ 63) ≤ i ∧ i < 2 ^ 63) (rest : Bytes) :
    ∃ bz, encodeInt64 i = .ok bz ∧ bz.length = 8 ∧ decodeInt64 (bz ++ rest) = .ok 8 i := by
  obtain ⟨bz, h1, _, h3, h4⟩ := C05_fixed64_roundtrip (u64OfInt i) rest
  refine ⟨bz, h1, h3, ?_⟩
  unfold decodeUint64 at h4
  unfold decodeInt64
  split at h4
  · simp at h4
  · rename_i hl
    rw [if_neg hl]
    simp only [DRes.ok.injEq, true_and] at h4
    rw [h4, intOfU64_u64OfInt i h.1 h.2]

/-- C05: signed 32-bit. -/
theorem C05_int32_roundtrip (i : Int) (h : -(2 ^ 31) ≤ i ∧ i < 2 ^ 31) (rest : Bytes) :
    ∃ bz, encodeInt32 i = .ok bz ∧ bz.length = 4 ∧ decodeInt32 (bz ++ rest) = .ok 4 i := by
  refine ⟨_, rfl, putLE_length 4 _, ?_⟩
  have ht := u64OfInt_toNat i
  let v : UInt64 := UInt64.ofNat ((u64OfInt i).toNat % 2 ^ 32)
  have hv : v.toNat = (u64OfInt i).toNat % 2 ^ 32 := by
    show (UInt64.ofNat _).toNat = _
    rw [UInt64.toNat_ofNat']; omega
  obtain ⟨bz, h1, _, h3, h4⟩ := C05_fixed32_roundtrip v (by omega) rest
  simp only [encodeUint32, Res.ok.injEq] at h1
  subst h1
  rw [putLE4_mod _ v hv.symm]
  unfold decodeUint32 at h4
  unfold decodeInt32
  split at h4
  · simp at h4
  · rename_i hl
    rw [if_neg hl]
    simp only [DRes.ok.injEq, true_and] at h4
    rw [h4]
    congr 1
    unfold intOfU32
    rw [hv, ht]
    split <;> omega

/-- C05: too short inputs are rejected. -/
theorem C05_fixed_short (bz : Bytes) :
    (bz.length < 4 → decodeInt32 bz = .err 0 .eof ∧ decodeUint32 bz = .err 0 .eof) ∧
    (bz.length < 8 → decodeInt64 bz = .err 0 .eof ∧ decodeUint64 bz = .err 0 .eof) := by
  unfold decodeInt32 decodeUint32 decodeInt64 decodeUint64
  constructor <;> intro h <;> simp [h]

example : encodeInt32 (-2) = .ok [0xFE, 0xFF, 0xFF, 0xFF] ∧
    decodeInt32 [0xFE, 0xFF, 0xFF, 0xFF, 7] = .ok 4 (-2) := by decide
example : encodeUint64 258 = .ok [2, 1, 0, 0, 0, 0, 0, 0] := by decide

/-- C06: on every byte string each primitive decoder returns without panicking, having consumed at
most the given bytes, and at least one byte when it succeeds (an empty time consumes none). -/
theorem C06_decoders_safe (bz : Bytes) :
    Safe (decodeInt8 bz) bz ∧ Safe (decodeInt16 bz) bz ∧ Safe (decodeInt32 bz) bz ∧
    Safe (decodeInt64 bz) bz ∧ Safe (decodeVarint bz) bz ∧ Safe (decodeUint8 bz) bz ∧
    Safe (decodeUint16 bz) bz ∧ Safe (decodeUint32 bz) bz ∧ Safe (decodeUint64 bz) bz ∧
    Safe (decodeUvarint bz) bz ∧ Safe (decodeBool bz) bz ∧ Safe (decodeByteSlice bz) bz ∧
    Safe (decodeString bz) bz ∧ Safe (decodeKey bz) bz ∧
    ((∀ p, decodeTime bz ≠ .panic p) ∧ decodeTime bz ≠ .oof ∧ (decodeTime bz).within bz ∧
      ∀ n s ns, decodeTime bz = .ok n (s, ns) → bz ≠ [] → 0 < n) :=
  ⟨decodeInt8_safe bz, decodeInt16_safe bz, decodeInt32_safe bz, decodeInt64_safe bz,
   decodeVarint_safe bz, decodeUint8_safe bz, decodeUint16_safe bz, decodeUint32_safe bz,
   decodeUint64_safe bz, decodeUvarint_safe bz, decodeBool_safe bz, decodeByteSlice_safe bz,
   decodeByteSlice_safe bz, decodeKey_safe bz, (decodeTime_safe bz).1, (decodeTime_safe bz).2.1,
   (decodeTime_safe bz).2.2.1, fun n s ns h => ((decodeTime_safe bz).2.2.2 n s ns h).2.2.2.2⟩

/-- C07: `DecodeInt8` returns `i` exactly if the input starts with a varint for `i` and `i` fits. -/
theorem C07_int8_range (bz : Bytes) (n : Nat) (i : Int) :
    decodeInt8 bz = .ok n i ↔
      (∃ v, Spec.readVarint bz = some (v, n) ∧ n ≤ 10 ∧ v < 2 ^ 64 ∧ Spec.zag v = i) ∧
      -(2 ^ 7) ≤ i ∧ i < 2 ^ 7 := by
  unfold decodeInt8
  rw [decodeVarint_eq]
  cases hr : readVarint bz with
  | none => simp
  | some p =>
    obtain ⟨v, l⟩ := p
    simp only
    by_cases hc : l ≤ 10 ∧ v < 2 ^ 64
    · simp only [hc, and_self, if_true]
      by_cases hb : zag v < -128 ∨ zag v > 127
      · simp only [hb, if_true]
        simp; intro _ _ h1; omega
      · simp only [hb, if_false]
        simp; constructor
        · rintro ⟨rfl, rfl⟩; exact ⟨⟨v, ⟨rfl, rfl⟩, hc.1, hc.2, rfl⟩, by omega⟩
        · rintro ⟨⟨w, ⟨rfl, rfl⟩, _, _, rfl⟩, _⟩; exact ⟨rfl, rfl⟩
    · simp only [hc, if_false]
      simp; intro _ h1 h2 h3; omega

/-- C07 for `DecodeInt16`. -/
theorem C07_int16_range (bz : Bytes) (n : Nat) (i : Int) :
    decodeInt16 bz = .ok n i ↔
      (∃ v, Spec.readVarint bz = some (v, n) ∧ n ≤ 10 ∧ v < 2 ^ 64 ∧ Spec.zag v = i) ∧
      -(2 ^ 15) ≤ i ∧ i < 2 ^ 15 := by
  unfold decodeInt16
  rw [decodeVarint_eq]
  cases hr : readVarint bz with
  | none => simp
  | some p =>
    obtain ⟨v, l⟩ := p
    simp only
    by_cases hc : l ≤ 10 ∧ v < 2 ^ 64
    · simp only [hc, and_self, if_true]
      by_cases hb : zag v < -32768 ∨ zag v > 32767
      · simp only [hb, if_true]
        simp; intro _ _ h1; omega
      · simp only [hb, if_false]
        simp; constructor
        · rintro ⟨rfl, rfl⟩; exact ⟨⟨v, ⟨rfl, rfl⟩, hc.1, hc.2, rfl⟩, by omega⟩
        · rintro ⟨⟨w, ⟨rfl, rfl⟩, _, _, rfl⟩, _⟩; exact ⟨rfl, rfl⟩
    · simp only [hc, if_false]
      simp; intro _ h1 h2 h3; omega

theorem uint_range_aux (bz : Bytes) (n : Nat) (u : UInt64) (m : UInt64) (mx : Nat) (hm : m.toNat = mx) :
    (match decodeUvarint bz with
      | .ok n u => if u > m then .err n .intRange else .ok n u
      | r => r) = DRes.ok n u ↔
      (Spec.readVarint bz = some (u.toNat, n) ∧ n ≤ 10) ∧ u.toNat ≤ mx := by
  have hiff := C01_uvarint_decode_iff bz n u
  cases hr : decodeUvarint bz with
  | ok n' u' =>
    rw [hr] at hiff
    simp only
    by_cases hb : u' > m
    · simp only [hb, if_true]
      simp only [reduceCtorEq, false_iff, not_and]
      intro h
      have := hiff.mpr h
      injection this with h1 h2
      subst h2
      have := UInt64.lt_iff_toNat_lt.mp hb
      omega
    · simp only [hb, if_false]
      rw [hiff]
      constructor
      · intro h
        refine ⟨h, ?_⟩
        have := hiff.mpr h
        injection this with h1 h2
        subst h2
        have : ¬ m.toNat < u'.toNat := fun h => hb (UInt64.lt_iff_toNat_lt.mpr h)
        omega
      · exact fun h => h.1
  | err n' e => rw [hr] at hiff; simp at hiff ⊢; intro h1 h2; exact absurd h2 (by have := hiff h1; omega)
  | panic p => exact absurd hr (decodeUvarint_noPanic _ _)
  | oof => exact absurd hr (decodeUvarint_noOof _)

/-- C07 for `DecodeUint8` / `DecodeByte`. -/
theorem C07_uint8_range (bz : Bytes) (n : Nat) (u : UInt64) :
    decodeUint8 bz = .ok n u ↔
      (Spec.readVarint bz = some (u.toNat, n) ∧ n ≤ 10) ∧ u.toNat ≤ 2 ^ 8 - 1 := by
  have := uint_range_aux bz n u 255 255 rfl
  unfold decodeUint8
  rw [← this]
  cases decodeUvarint bz <;> rfl

/-- C07 for `DecodeUint16`. -/
theorem C07_uint16_range (bz : Bytes) (n : Nat) (u : UInt64) :
    decodeUint16 bz = .ok n u ↔
      (Spec.readVarint bz = some (u.toNat, n) ∧ n ≤ 10) ∧ u.toNat ≤ 2 ^ 16 - 1 := by
  have := uint_range_aux bz n u 65535 65535 rfl
  unfold decodeUint16
  rw [← this]
  cases decodeUvarint bz <;> rfl

example : decodeInt8 [0xFF, 0x01] = .ok 2 (-128) ∧ decodeInt8 [0x80, 0x02] = .err 2 .intRange := by
  decide
example : decodeUint8 [0xFF, 0x01] = .ok 2 255 ∧ decodeUint8 [0x80, 0x02] = .err 2 .intRange := by
  decide

/-- C08: byte slices (and strings) round trip, whatever follows. -/
theorem C08_bytes_roundtrip (b rest : Bytes) (h : b.length < 2 ^ 63) :
    ∃ bz, encodeByteSlice b = .ok bz ∧ encodeString b = .ok bz ∧
      decodeByteSlice (bz ++ rest) = .ok bz.length b ∧ decodeString (bz ++ rest) = .ok bz.length b := by
  have e := encodeByteSlice_eq b (by omega)
  refine ⟨_, e, e, ?_, ?_⟩ <;>
  · try simp only [decodeString]
    rw [List.append_assoc, decodeByteSlice_varint _ _ h]; simp

/-- C08: every proper prefix of the encoding is rejected. -/
theorem C08_bytes_truncated (b bz : Bytes) (h : b.length < 2 ^ 63) (he : encodeByteSlice b = .ok bz)
    (k : Nat) (hk : k < bz.length) : ∃ n e, decodeByteSlice (bz.take k) = .err n e := by
  rw [encodeByteSlice_eq b (by omega)] at he
  injection he with he
  subst he
  unfold decodeByteSlice
  by_cases hk1 : k < (varint b.length).length
  · have : (varint b.length ++ b).take k = (varint b.length).take k := by
      rw [List.take_append_of_le_length (by omega)]
    rw [this, decodeUvarint_eq, readVarint_prefix_none _ _ hk1]
    exact ⟨0, _, rfl⟩
  · have : (varint b.length ++ b).take k = varint b.length ++ b.take (k - (varint b.length).length) := by
      rw [List.take_append, List.take_of_length_le (by omega)]
    rw [this, decodeUvarint_varint _ (by omega)]
    have hm : (UInt64.ofNat b.length).toNat = b.length := by simp; omega
    have hi : intOfU64 (UInt64.ofNat b.length) = b.length := by
      unfold intOfU64; rw [hm, if_pos h]
    simp only [DRes.andSlide, hi, List.length_append, Nat.le_add_right, if_true]
    have h1 : ¬ ((b.length : Int) < 0) := by omega
    simp only [h1, if_false]
    simp only [List.length_append] at hk
    have h2 : (((varint b.length ++ b.take (k - (varint b.length).length)).drop
        (varint b.length).length).length : Int) < b.length := by
      simp; omega
    rw [if_pos h2]
    exact ⟨_, _, rfl⟩

example : encodeByteSlice [7, 8] = .ok [2, 7, 8] ∧ decodeByteSlice [2, 7] = .err 1 .insufficient := by
  decide

/-- C09: `EncodeTime` accepts exactly the times of the years 1 to 9999 (nanoseconds of a `time.Time`
are always in range). -/
theorem C09_time_encode_range (s ns : Int) (hns : 0 ≤ ns ∧ ns < 10 ^ 9) :
    (∃ bz, encodeTime s ns = .ok bz) ↔ -62135596800 ≤ s ∧ s < 253402300800 := by
  constructor
  · rintro ⟨bz, h⟩
    have := encodeTime_ok_range h hns.1
    simpa only [minSeconds, maxSeconds] using ⟨this.1, this.2.1⟩
  · intro h
    exact ⟨_, encodeTime_eq s ns (by simpa only [minSeconds, maxSeconds]) (by
      simp only [maxNanos]; omega)⟩

/-- C09: what `EncodeTime` writes, `DecodeTime` reads back as the same instant, consuming all. -/
theorem C09_time_roundtrip (s ns : Int) (hns : 0 ≤ ns ∧ ns < 10 ^ 9) (bz : Bytes)
    (h : encodeTime s ns = .ok bz) : decodeTime bz = .ok bz.length (s, ns) := by
  have hr := encodeTime_ok_range h hns.1
  rw [encodeTime_eq s ns ⟨hr.1, hr.2.1⟩ ⟨hns.1, hr.2.2⟩] at h
  injection h with h
  subst h
  exact decodeTime_encoded s ns ⟨hr.1, hr.2.1⟩ ⟨hns.1, hr.2.2⟩

/-- C09: `DecodeTime` never produces an out-of-range time, on any input. -/
theorem C09_time_decode_range (bz : Bytes) (n : Nat) (s ns : Int)
    (h : decodeTime bz = .ok n (s, ns)) :
    (-62135596800 ≤ s ∧ s < 253402300800) ∧ 0 ≤ ns ∧ ns < 10 ^ 9 := by
  have := (decodeTime_safe bz).2.2.2 n s ns h
  simp only [minSeconds, maxSeconds, maxNanos] at this
  omega

example : encodeTime (-1) 5 = .ok [8, 255, 255, 255, 255, 255, 255, 255, 255, 255, 1, 16, 5] := by
  decide
example : encodeTime 253402300800 0 = .err .badTime := by decide

/-- C10: field keys round trip. -/
theorem C10_key_roundtrip (num typ : Nat) (hn : num < 2 ^ 29) (ht : typ < 8) (rest : Bytes) :
    ∃ bz, encodeKey num typ = .ok bz ∧ decodeKey (bz ++ rest) = .ok bz.length (num, typ) :=
  ⟨_, encodeKey_eq num typ hn ht, decodeKey_varint num typ hn ht rest⟩

/-- C10: a key is accepted iff it is a base-128 number `8*num+typ` with `num < 2^29`; larger numbers
are rejected by the decoder and are a panic in the encoder. -/
theorem C10_key_range (bz : Bytes) (n num typ : Nat) :
    decodeKey bz = .ok n (num, typ) ↔
      Spec.readVarint bz = some (8 * num + typ, n) ∧ typ < 8 ∧ num < 2 ^ 29 ∧ n ≤ 10 := by
  constructor
  · intro h
    have := decodeKey_ok h
    exact ⟨this.1, this.2.1, this.2.2.1, this.2.2.2.2.1⟩
  · rintro ⟨h1, h2, h3, h4⟩
    rw [decodeKey_eq, h1]
    simp only
    rw [if_pos (by omega), if_pos (by omega)]
    congr 2 <;> omega

theorem C10_key_encode_panics (num typ : Nat) (h : 2 ^ 29 ≤ num ∧ typ < 8) :
    encodeKey num typ = .panic .badFieldNum := by
  unfold encodeKey
  have h1 : typ &&& 0xF8 = 0 := by
    have : ∀ m : Fin 8, m.val &&& 0xF8 = 0 := by decide
    exact this ⟨typ, h.2⟩
  simp only [h1, ne_eq, not_true, if_false]
  rw [if_pos (by omega)]

example : encodeKey 16 2 = .ok [0x82, 0x01] ∧ decodeKey [0x82, 0x01, 0x55] = .ok 2 (16, 2) := by decide

end Amino
