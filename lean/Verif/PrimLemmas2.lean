import Verif.PrimLemmas

/-! # More lemmas on the primitive coders: sizes, minimality, safety, time -/

namespace Amino
open Spec

theorem log2_div128 (n : Nat) (h : 128 ≤ n) : n.log2 = (n / 128).log2 + 7 := by
  have hn : n ≠ 0 := by omega
  have h2 : n / 128 ≠ 0 := by omega
  have a := (Nat.log2_eq_iff (k := (n / 128).log2) h2).mp rfl
  apply (Nat.log2_eq_iff hn).mpr
  constructor
  · have : 2 ^ ((n / 128).log2 + 7) = 2 ^ ((n / 128).log2) * 128 := by rw [Nat.pow_add]
    rw [this]; omega
  · have : 2 ^ ((n / 128).log2 + 7 + 1) = 2 ^ ((n / 128).log2 + 1) * 128 := by
      rw [show (n / 128).log2 + 7 + 1 = (n / 128).log2 + 1 + 7 by omega, Nat.pow_add]
    rw [this]; omega

theorem varint_length_log2 (n : Nat) (h : n ≠ 0) : (varint n).length = (n.log2 + 7) / 7 := by
  induction n using Nat.strongRecOn with
  | _ n ih =>
    unfold varint
    split
    · rename_i hlt
      have : n.log2 < 7 := (Nat.log2_lt h).mpr (by omega)
      simp; omega
    · rename_i hge
      have := ih (n / 128) (by omega) (by omega)
      simp only [List.length_cons, this, log2_div128 n (by omega)]
      omega

theorem uvarintSize_eq (u : UInt64) : uvarintSize u = (varint u.toNat).length := by
  unfold uvarintSize
  by_cases h : u = 0
  · subst h; rw [if_pos rfl, show (0 : UInt64).toNat = 0 from rfl]; unfold varint; simp
  · have hn : u.toNat ≠ 0 := by
      intro h'; apply h; apply UInt64.toNat_inj.mp; simpa using h'
    rw [if_neg h, varint_length_log2 _ hn]
    unfold len64
    rw [if_neg h]

theorem readVarint_minimal {bz : Bytes} {v l : Nat} (h : readVarint bz = some (v, l)) :
    (varint v).length ≤ l ∧ ((varint v).length = l → bz.take l = varint v) := by
  induction bz generalizing v l with
  | nil => simp [readVarint] at h
  | cons b bs ih =>
    unfold readVarint at h
    have hbl := u8_toNat_lt b
    split at h
    · rename_i hb
      simp at h
      obtain ⟨rfl, rfl⟩ := h
      unfold varint
      simp [hb]
    · rename_i hb
      cases h2 : readVarint bs with
      | none => simp [h2] at h
      | some p =>
        obtain ⟨v', l'⟩ := p
        simp [h2] at h
        obtain ⟨rfl, rfl⟩ := h
        have ih' := ih h2
        have hp := readVarint_len h2
        unfold varint
        split
        · simp; omega
        · rename_i hge
          have e1 : (b.toNat - 128 + 128 * v') / 128 = v' := by omega
          have e2 : (b.toNat - 128 + 128 * v') % 128 + 128 = b.toNat := by omega
          rw [e1, e2]
          refine ⟨by simp; omega, ?_⟩
          intro hl
          simp at hl
          rw [List.take_succ_cons, ih'.2 (by omega)]
          simp

theorem readVarint_prefix_none (n k : Nat) (h : k < (varint n).length) :
    readVarint ((varint n).take k) = none := by
  induction n using Nat.strongRecOn generalizing k with
  | _ n ih =>
    unfold varint at h ⊢
    split at h
    · simp at h; subst h; simp [readVarint]
    · rename_i hge
      simp only [hge, if_false]
      cases k with
      | zero => simp [readVarint]
      | succ k =>
        simp at h
        rw [List.take_succ_cons]
        unfold readVarint
        have h2 : (UInt8.ofNat (n % 128 + 128)).toNat = n % 128 + 128 := by
          rw [UInt8.toNat_ofNat']; omega
        rw [h2, if_neg (by omega), ih (n / 128) (by omega) k h]
        rfl

theorem readVarint_take {bz : Bytes} {v l : Nat} (h : readVarint bz = some (v, l)) (k : Nat)
    (hk : l ≤ k) : readVarint (bz.take k) = some (v, l) := by
  induction bz generalizing v l k with
  | nil => simp [readVarint] at h
  | cons b bs ih =>
    have hl := readVarint_len h
    cases k with
    | zero => omega
    | succ k =>
      rw [List.take_succ_cons]
      unfold readVarint at h ⊢
      split at h
      · rename_i hb; rw [if_pos hb]; exact h
      · rename_i hb
        rw [if_neg hb]
        cases h2 : readVarint bs with
        | none => simp [h2] at h
        | some p =>
          obtain ⟨v', l'⟩ := p
          simp [h2] at h
          rw [ih h2 k (by omega)]
          simp [h]

/-! ## `within` : consumed ≤ available -/

theorem andSlide_within {α β : Type} {r : DRes α} {bz : Bytes} {n : Nat}
    {k : α → Bytes → Nat → DRes β} {tot : Bytes} (hn : n + bz.length ≤ tot.length)
    (hk : ∀ m a, r = .ok m a → m ≤ bz.length → (k a (bz.drop m) (n + m)).within tot) :
    (r.andSlide bz n k).within tot := by
  unfold DRes.andSlide
  cases r with
  | ok m a => by_cases h : m ≤ bz.length <;> simp [h]; exact hk m a rfl h; trivial
  | err m e =>
    by_cases h : m ≤ bz.length
    · simp [h, DRes.within]; omega
    · simp [h, DRes.within]
  | panic p => trivial
  | oof => trivial

theorem decodeUvarint_within (bz : Bytes) : (decodeUvarint bz).within bz := by
  rw [decodeUvarint_eq]
  cases h : readVarint bz with
  | none => simp [DRes.within]
  | some p => have := readVarint_len h; simp only; split <;> simp [DRes.within, this]

theorem decodeUvarint_noPanic (bz : Bytes) (p : Pan) : decodeUvarint bz ≠ .panic p := by
  rw [decodeUvarint_eq]
  split
  · simp
  · split <;> simp

theorem decodeUvarint_noOof (bz : Bytes) : decodeUvarint bz ≠ .oof := by
  rw [decodeUvarint_eq]
  split
  · simp
  · split <;> simp

theorem decodeUvarint_ok {bz : Bytes} {n : Nat} {u : UInt64} (h : decodeUvarint bz = .ok n u) :
    readVarint bz = some (u.toNat, n) ∧ 0 < n ∧ n ≤ 10 ∧ n ≤ bz.length := by
  rw [decodeUvarint_eq] at h
  cases h2 : readVarint bz with
  | none => simp [h2] at h
  | some p =>
    obtain ⟨v, l⟩ := p
    have := readVarint_len h2
    simp only [h2] at h
    split at h
    · rename_i hc
      injection h with h3 h4
      subst h3; subst h4
      simp [Nat.mod_eq_of_lt hc.2]; omega
    · simp at h

/-- What each primitive decoder satisfies on every input: it returns (no panic, no fuel), consumes at
most what it was given, and at least one byte on success. -/
structure Safe {α : Type} (r : DRes α) (bz : Bytes) : Prop where
  noPanic : ∀ p, r ≠ .panic p
  noOof : r ≠ .oof
  within : r.within bz
  pos : ∀ n a, r = .ok n a → 0 < n

theorem decodeUvarint_safe (bz : Bytes) : Safe (decodeUvarint bz) bz :=
  ⟨decodeUvarint_noPanic bz, decodeUvarint_noOof bz, decodeUvarint_within bz,
    fun _ _ h => (decodeUvarint_ok h).2.1⟩

theorem decodeVarint_safe (bz : Bytes) : Safe (decodeVarint bz) bz := by
  rw [decodeVarint_eq]
  cases h : readVarint bz with
  | none => constructor <;> simp [DRes.within]
  | some p =>
    have := readVarint_len h
    simp only
    split
    · constructor <;> simp [DRes.within, this]
    · constructor <;> simp [DRes.within, this]

theorem Safe.range {α : Type} {r r' : DRes α} {bz : Bytes} (h : Safe r bz)
    (hr : (∃ n i e, r = .ok n i ∧ r' = .err n e) ∨ r' = r) : Safe r' bz := by
  rcases hr with ⟨n, i, e, rfl, rfl⟩ | rfl
  · exact ⟨by simp, by simp, h.within, by simp⟩
  · exact h

theorem decodeInt8_safe (bz : Bytes) : Safe (decodeInt8 bz) bz := by
  apply (decodeVarint_safe bz).range
  unfold decodeInt8
  cases decodeVarint bz with
  | ok n i => simp only; split <;> simp
  | _ => simp

theorem decodeInt16_safe (bz : Bytes) : Safe (decodeInt16 bz) bz := by
  apply (decodeVarint_safe bz).range
  unfold decodeInt16
  cases decodeVarint bz with
  | ok n i => simp only; split <;> simp
  | _ => simp

theorem decodeUint8_safe (bz : Bytes) : Safe (decodeUint8 bz) bz := by
  apply (decodeUvarint_safe bz).range
  unfold decodeUint8
  cases decodeUvarint bz with
  | ok n i => simp only; split <;> simp
  | _ => simp

theorem decodeUint16_safe (bz : Bytes) : Safe (decodeUint16 bz) bz := by
  apply (decodeUvarint_safe bz).range
  unfold decodeUint16
  cases decodeUvarint bz with
  | ok n i => simp only; split <;> simp
  | _ => simp

theorem decodeUint32_safe (bz : Bytes) : Safe (decodeUint32 bz) bz := by
  unfold decodeUint32
  split
  · constructor <;> simp [DRes.within]
  · constructor <;> simp [DRes.within]; omega

theorem decodeUint64_safe (bz : Bytes) : Safe (decodeUint64 bz) bz := by
  unfold decodeUint64
  split
  · constructor <;> simp [DRes.within]
  · constructor <;> simp [DRes.within]; omega

theorem decodeInt32_safe (bz : Bytes) : Safe (decodeInt32 bz) bz := by
  unfold decodeInt32
  split
  · constructor <;> simp [DRes.within]
  · constructor <;> simp [DRes.within]; omega

theorem decodeInt64_safe (bz : Bytes) : Safe (decodeInt64 bz) bz := by
  unfold decodeInt64
  split
  · constructor <;> simp [DRes.within]
  · constructor <;> simp [DRes.within]; omega

theorem decodeBool_safe (bz : Bytes) : Safe (decodeBool bz) bz := by
  unfold decodeBool
  split
  · constructor <;> simp [DRes.within]
  · split
    · constructor <;> simp [DRes.within]
    · split
      · constructor <;> simp [DRes.within]
      · constructor <;> simp [DRes.within]

theorem decodeByteSlice_safe (bz : Bytes) : Safe (decodeByteSlice bz) bz := by
  unfold decodeByteSlice
  have hs := decodeUvarint_safe bz
  obtain ⟨h1, h2, h3, h4⟩ := hs
  cases hr : decodeUvarint bz with
  | panic p => exact absurd hr (h1 p)
  | oof => exact absurd hr h2
  | err n e =>
    rw [hr] at h3
    simp only [DRes.within] at h3
    simp only [DRes.andSlide, h3, if_true]
    constructor <;> simp [DRes.within]; omega
  | ok n u =>
    rw [hr] at h3
    have hp := h4 _ _ hr
    simp only [DRes.within] at h3
    simp only [DRes.andSlide, h3, if_true]
    split
    · constructor <;> simp [DRes.within]; omega
    · split
      · constructor <;> simp [DRes.within]; omega
      · rename_i ha hb
        have : (u.toNat : Int) ≤ (bz.drop n).length := by
          have := u.toNat_lt
          unfold intOfU64 at ha hb
          split at ha <;> simp_all <;> omega
        constructor <;> simp [DRes.within] at this ⊢ <;> omega

theorem decodeByteSlice_ok {bz buf : Bytes} {n : Nat} (h : decodeByteSlice bz = .ok n buf) :
    ∃ l, readVarint bz = some (buf.length, l) ∧ n = l + buf.length ∧ l ≤ 10 ∧ n ≤ bz.length ∧
      buf = (bz.drop l).take buf.length ∧ buf.length < 2 ^ 63 ∧ 0 < l := by
  unfold decodeByteSlice at h
  cases hr : decodeUvarint bz with
  | panic p => simp [hr, DRes.andSlide] at h
  | oof => simp [hr, DRes.andSlide] at h
  | err n e =>
    rw [hr] at h; simp only [DRes.andSlide] at h
    split at h <;> simp at h
  | ok m u =>
    obtain ⟨g1, g2, g3, g4⟩ := decodeUvarint_ok hr
    rw [hr] at h
    simp only [DRes.andSlide, g4, if_true] at h
    split at h
    · simp at h
    · split at h
      · simp at h
      · rename_i ha hb
        injection h with hn hbuf
        have hu : u.toNat < 2 ^ 63 ∧ u.toNat ≤ (bz.drop m).length := by
          have := u.toNat_lt
          unfold intOfU64 at ha hb
          split at ha <;> simp_all <;> omega
        have hlen : buf.length = u.toNat := by rw [← hbuf]; simp at hu ⊢; omega
        refine ⟨m, by rw [g1, hlen], by omega, g3, ?_, by rw [hlen]; exact hbuf.symm, by omega, g2⟩
        simp at hu; omega

theorem decodeKey_safe (bz : Bytes) : Safe (decodeKey bz) bz := by
  rw [decodeKey_eq]
  cases h : readVarint bz with
  | none => constructor <;> simp [DRes.within]
  | some p =>
    have := readVarint_len h
    simp only
    split
    · split <;> constructor <;> simp [DRes.within, this]
    · constructor <;> simp [DRes.within, this]

theorem decodeKey_ok {bz : Bytes} {n f t : Nat} (h : decodeKey bz = .ok n (f, t)) :
    readVarint bz = some (8 * f + t, n) ∧ t < 8 ∧ f < 2 ^ 29 ∧ 0 < n ∧ n ≤ 10 ∧ n ≤ bz.length := by
  rw [decodeKey_eq] at h
  cases h2 : readVarint bz with
  | none => simp [h2] at h
  | some p =>
    obtain ⟨v, l⟩ := p
    have := readVarint_len h2
    simp only [h2] at h
    split at h
    · split at h
      · simp at h
        obtain ⟨rfl, rfl, rfl⟩ := h
        refine ⟨by congr 2; omega, ?_, ?_, ?_, ?_, ?_⟩ <;> omega
      · simp at h
    · simp at h

/-! ## Time -/

theorem decodeSeconds_safe (bz : Bytes) :
    (∀ p, decodeSeconds bz ≠ .panic p) ∧ decodeSeconds bz ≠ .oof ∧ (decodeSeconds bz).within bz ∧
    (∀ n s, decodeSeconds bz = .ok n s → minSeconds ≤ s ∧ s < maxSeconds ∧
      (n = 0 → ∃ m, decodeKey bz = .ok m (2, 0))) := by
  unfold decodeSeconds
  have hk := decodeKey_safe bz
  cases hr : decodeKey bz with
  | panic p => exact absurd hr (hk.noPanic p)
  | oof => exact absurd hr hk.noOof
  | err n e => simp [DRes.within]
  | ok m ft =>
    obtain ⟨f, t⟩ := ft
    have hok := decodeKey_ok hr
    simp only [slideThen, hok.2.2.2.2.2, if_true]
    split
    · have hu := decodeUvarint_safe (bz.drop m)
      have hw := hu.within
      cases hr2 : decodeUvarint (bz.drop m) with
      | panic p => exact absurd hr2 (hu.noPanic p)
      | oof => exact absurd hr2 hu.noOof
      | err n e =>
        rw [hr2] at hw
        simp only [DRes.within] at hw
        simp only [DRes.andSlide, hw, if_true]
        simp [DRes.within] at hw ⊢; omega
      | ok n u =>
        rw [hr2] at hw
        simp only [DRes.within] at hw
        simp only [DRes.andSlide, hw, if_true]
        split
        · simp [DRes.within] at hw ⊢; omega
        · rename_i hns
          simp [DRes.within] at hw ⊢
          simp only [minSeconds, maxSeconds] at *
          omega
    · split
      · rename_i h2
        obtain ⟨rfl, rfl⟩ := h2
        simp [DRes.within, minSeconds, maxSeconds, typ3Varint]
      · simp [DRes.within]

theorem decodeNanos_safe (bz : Bytes) (n : Nat) :
    (∀ p, decodeNanos bz n ≠ .panic p) ∧ decodeNanos bz n ≠ .oof ∧
    (∀ m ns, decodeNanos bz n = .ok m ns → n ≤ m ∧ m ≤ n + bz.length ∧ 0 ≤ ns ∧ ns ≤ maxNanos ∧
      ((∃ k, decodeKey bz = .ok k (2, 0)) → n < m)) ∧
    (∀ m e, decodeNanos bz n = .err m e → n ≤ m ∧ m ≤ n + bz.length) := by
  unfold decodeNanos
  have hk := decodeKey_safe bz
  cases hr : decodeKey bz with
  | panic p => exact absurd hr (hk.noPanic p)
  | oof => exact absurd hr hk.noOof
  | err m e => simp
  | ok m ft =>
    obtain ⟨f, t⟩ := ft
    have hok := decodeKey_ok hr
    simp only [slideThen, hok.2.2.2.2.2, if_true]
    split
    · have hu := decodeUvarint_safe (bz.drop m)
      have hw := hu.within
      cases hr2 : decodeUvarint (bz.drop m) with
      | panic p => exact absurd hr2 (hu.noPanic p)
      | oof => exact absurd hr2 hu.noOof
      | err k e =>
        rw [hr2] at hw
        simp only [DRes.within] at hw
        simp only [DRes.andSlide, hw, if_true]
        simp at hw ⊢; omega
      | ok k u =>
        rw [hr2] at hw
        simp only [DRes.within] at hw
        simp only [DRes.andSlide, hw, if_true]
        split
        · simp at hw ⊢; omega
        · simp at hw ⊢; omega
    · rename_i hne
      simp only [typ3Varint] at hne
      simp [maxNanos]
      intro h1 h2
      exact absurd (And.intro h1 h2) hne

theorem decodeTime_safe (bz : Bytes) :
    (∀ p, decodeTime bz ≠ .panic p) ∧ decodeTime bz ≠ .oof ∧ (decodeTime bz).within bz ∧
    (∀ n s ns, decodeTime bz = .ok n (s, ns) →
      minSeconds ≤ s ∧ s < maxSeconds ∧ 0 ≤ ns ∧ ns ≤ maxNanos ∧ (bz ≠ [] → 0 < n)) := by
  unfold decodeTime
  by_cases hl : bz.length > 0
  · simp only [hl, if_true]
    obtain ⟨h1, h2, h3, h4⟩ := decodeSeconds_safe bz
    cases hr : decodeSeconds bz with
    | panic p => exact absurd hr (h1 p)
    | oof => exact absurd hr h2
    | err n e =>
      rw [hr] at h3; simp only [DRes.within] at h3
      simp only [DRes.andSlide, h3, if_true]
      simp [DRes.within, h3]
    | ok n s =>
      rw [hr] at h3; simp only [DRes.within] at h3
      have h5 := h4 n s hr
      simp only [DRes.andSlide, h3, if_true]
      by_cases hd : (bz.drop n).length > 0
      · simp only [hd, if_true]
        obtain ⟨g1, g2, g3, g4⟩ := decodeNanos_safe (bz.drop n) (0 + n)
        cases hr2 : decodeNanos (bz.drop n) (0 + n) with
        | panic p => exact absurd hr2 (g1 p)
        | oof => exact absurd hr2 g2
        | err m e =>
          have := g4 m e hr2
          simp [DRes.within] at this ⊢; omega
        | ok m ns =>
          have := g3 m ns hr2
          simp [DRes.within] at this ⊢
          refine ⟨by omega, ?_⟩
          refine ⟨h5.1, h5.2.1, by omega, by omega, fun _ => ?_⟩
          by_cases hn0 : n = 0
          · obtain ⟨k, hk⟩ := h5.2.2 hn0
            subst hn0
            exact this.2.2.2.2 k (by simpa using hk)
          · omega
      · simp only [hd, if_false]
        simp [DRes.within, h3]
        refine ⟨h5.1, h5.2.1, by simp [maxNanos], fun _ => ?_⟩
        simp at hd; omega
  · simp only [hl, if_false]
    have : bz = [] := List.length_eq_zero_iff.mp (by omega)
    subst this
    simp [DRes.andSlide, DRes.within, minSeconds, maxSeconds, maxNanos]

theorem key1_length : varint (8 * 1 + 0) = [8] := by
  unfold varint; rfl
theorem key2_length : varint (8 * 2 + 0) = [16] := by
  unfold varint; rfl

/-- The wire form of an in-range time. -/
theorem encodeTime_eq (s ns : Int) (hs : minSeconds ≤ s ∧ s < maxSeconds)
    (hns : 0 ≤ ns ∧ ns ≤ maxNanos) :
    encodeTime s ns = .ok ((if s ≠ 0 then 8 :: varint (u64OfInt s).toNat else []) ++
      (if ns ≠ 0 then 16 :: varint (u64OfInt ns).toNat else [])) := by
  unfold encodeTime
  rw [encodeKey_eq 1 typ3Varint (by decide) (by decide), encodeKey_eq 2 typ3Varint (by decide) (by decide)]
  rw [encodeUvarint_eq, encodeUvarint_eq]
  rw [show 8 * 1 + typ3Varint = 8 * 1 + 0 from rfl, show 8 * 2 + typ3Varint = 8 * 2 + 0 from rfl,
    key1_length, key2_length]
  have h1 : ¬ (s < minSeconds ∨ s ≥ maxSeconds) := by omega
  have h2 : ¬ (ns < 0 ∨ ns > maxNanos) := by omega
  simp only [h1, h2, if_false]
  by_cases hs0 : s ≠ 0 <;> by_cases hn0 : ns ≠ 0 <;> simp [hs0, hn0]

theorem encodeTime_ok_range {s ns : Int} {bz : Bytes} (h : encodeTime s ns = .ok bz)
    (hns : 0 ≤ ns) : minSeconds ≤ s ∧ s < maxSeconds ∧ ns ≤ maxNanos := by
  unfold encodeTime at h
  obtain ⟨a, h1, h2⟩ := Res.bind_eq_ok h
  obtain ⟨b, h3, h4⟩ := Res.bind_eq_ok h2
  have hs : minSeconds ≤ s ∧ s < maxSeconds := by
    by_cases hs0 : s ≠ 0
    · rw [if_pos hs0] at h1
      split at h1
      · simp at h1
      · omega
    · simp at hs0; subst hs0; simp [minSeconds, maxSeconds]
  refine ⟨hs.1, hs.2, ?_⟩
  by_cases hn0 : ns ≠ 0
  · rw [if_pos hn0] at h3
    split at h3
    · simp at h3
    · omega
  · simp at hn0; subst hn0; simp [maxNanos]

theorem decodeKey_one (b : UInt8) (bs : Bytes) (hb : b.toNat < 128) :
    decodeKey (b :: bs) = .ok 1 (b.toNat / 8, b.toNat % 8) := by
  rw [decodeKey_eq]
  simp only [readVarint, hb, if_true]
  rw [if_pos (by omega), if_pos (by omega)]

theorem decodeTime_encoded (s ns : Int) (hs : minSeconds ≤ s ∧ s < maxSeconds)
    (hns : 0 ≤ ns ∧ ns ≤ maxNanos) :
    let bz := (if s ≠ 0 then 8 :: varint (u64OfInt s).toNat else []) ++
      (if ns ≠ 0 then 16 :: varint (u64OfInt ns).toNat else [])
    decodeTime bz = .ok bz.length (s, ns) := by
  have hi := intOfU64_u64OfInt s (by simp only [minSeconds, maxSeconds] at hs; omega)
    (by simp only [minSeconds, maxSeconds] at hs; omega)
  have hn : ((u64OfInt ns).toNat : Int) = ns := by
    rw [u64OfInt_toNat]; simp only [maxNanos] at hns; omega
  have hdec : ∀ (u : UInt64) (r : Bytes), decodeUvarint (varint u.toNat ++ r) =
      .ok (varint u.toNat).length u := by
    intro u r
    rw [decodeUvarint_varint _ u.toNat_lt]; simp
  have h1 : ¬ (s < minSeconds ∨ s ≥ maxSeconds) := by omega
  have h2 : ¬ (maxNanos < ns) := by omega
  have hnan : ∀ n : Nat, ns ≠ 0 → decodeNanos (16 :: varint (u64OfInt ns).toNat) n =
      .ok (n + 1 + (varint (u64OfInt ns).toNat).length) ns := by
    intro n _
    unfold decodeNanos
    rw [decodeKey_one 16 _ (by decide)]
    have := hdec (u64OfInt ns) []
    simp only [List.append_nil] at this
    simp [slideThen, typ3Varint, this, DRes.andSlide, hn, h2]
  by_cases hs0 : s = 0
  · by_cases hn0 : ns = 0
    · subst hs0; subst hn0; rfl
    · subst hs0
      unfold decodeTime decodeSeconds
      simp only [ne_eq, not_true, if_false, hn0, not_false_eq_true, if_true, List.nil_append]
      rw [decodeKey_one 16 _ (by decide)]
      simp [DRes.andSlide, typ3Varint, hnan _ hn0]
      omega
  · have hsec : ∀ r, decodeSeconds (8 :: (varint (u64OfInt s).toNat ++ r)) =
        .ok ((varint (u64OfInt s).toNat).length + 1) s := by
      intro r
      unfold decodeSeconds
      rw [decodeKey_one 8 _ (by decide)]
      simp [slideThen, typ3Varint, hdec, DRes.andSlide, hi, h1, Nat.add_comm]
    by_cases hn0 : ns = 0
    · subst hn0
      unfold decodeTime
      have := hsec []
      simp only [List.append_nil] at this
      simp [hs0, this, DRes.andSlide]
    · unfold decodeTime
      have := hsec (16 :: varint (u64OfInt ns).toNat)
      have hdrop : List.drop ((varint (u64OfInt s).toNat).length + 1)
          (8 :: (varint (u64OfInt s).toNat ++ 16 :: varint (u64OfInt ns).toNat)) =
          16 :: varint (u64OfInt ns).toNat := by
        rw [List.drop_succ_cons, List.drop_left]
      simp [hs0, hn0, this, DRes.andSlide, hdrop, hnan _ hn0]
      omega

end Amino
