import Verif.BinDecode
import Verif.DecSafe
import Verif.PropsPrim

/-! # Integers on the wire: specification and `decInt` -/

namespace Amino
open Spec

namespace Spec

/-- The number a byte string starts with, in the wire form of the integer kind `k`: zig-zag varints for
int8/int16, two's complement varints for the other signed kinds, plain varints for unsigned kinds, or
little-endian fixed width.  Second component: bytes used. -/
def wireInt (k : IntKind) (fixed64 fixed32 : Bool) (bz : Bytes) : Option (Int × Nat) :=
  let fixed (w : Nat) : Option (Nat × Nat) := if bz.length < w then none else some (unle (bz.take w), w)
  let vint : Option (Nat × Nat) := (readVarint bz).filter fun p => p.2 ≤ 10 && p.1 < 2 ^ 64
  let signed (w : Nat) (p : Nat × Nat) : Int × Nat :=
    (if p.1 < 2 ^ (w - 1) then (p.1 : Int) else (p.1 : Int) - 2 ^ w, p.2)
  let plain (p : Nat × Nat) : Int × Nat := ((p.1 : Int), p.2)
  match k with
  | .int8 | .int16 => vint.map fun p => (zag p.1, p.2)
  | .int => vint.map (signed 64)
  | .int64 => if fixed64 then (fixed 8).map (signed 64) else vint.map (signed 64)
  | .int32 => if fixed32 then (fixed 4).map (signed 32) else vint.map (signed 64)
  | .uint8 | .uint16 | .uint => vint.map plain
  | .uint64 => if fixed64 then (fixed 8).map plain else vint.map plain
  | .uint32 => if fixed32 then (fixed 4).map plain else vint.map plain

end Spec

theorem slideMap {α β : Type} {r : DRes α} {bz : Bytes} (h : Safe r bz) (g : α → β) (n : Nat) (b : β) :
    (r.andSlide bz 0 fun a _ n => .ok n (g a)) = .ok n b ↔ ∃ a, r = .ok n a ∧ g a = b := by
  have hw := h.within
  cases r with
  | ok m a =>
    simp only [DRes.within] at hw
    simp [DRes.andSlide, hw, and_assoc]
  | err m e =>
    simp only [DRes.within] at hw
    simp [DRes.andSlide, hw]
  | panic => simp [DRes.andSlide]
  | oof => simp [DRes.andSlide]

/-- The varint on the wire. -/
def wireVar (bz : Bytes) : Option (Nat × Nat) :=
  (readVarint bz).filter fun p => p.2 ≤ 10 && p.1 < 2 ^ 64

theorem wireVar_iff (bz : Bytes) (v n : Nat) :
    wireVar bz = some (v, n) ↔ readVarint bz = some (v, n) ∧ n ≤ 10 ∧ v < 2 ^ 64 := by
  unfold wireVar
  cases readVarint bz with
  | none => simp
  | some p =>
    obtain ⟨w, m⟩ := p
    simp [Option.filter]
    omega

theorem uvar_iff {β : Type} (bz : Bytes) (g : UInt64 → β) (n : Nat) (b : β) :
    ((decodeUvarint bz).andSlide bz 0 fun u _ n => .ok n (g u)) = .ok n b ↔
      ∃ v, wireVar bz = some (v, n) ∧ g (UInt64.ofNat v) = b := by
  rw [slideMap (decodeUvarint_safe bz)]
  constructor
  · rintro ⟨u, h, rfl⟩
    have := decodeUvarint_ok h
    exact ⟨u.toNat, (wireVar_iff _ _ _).mpr ⟨this.1, this.2.2.1, u.toNat_lt⟩, by simp⟩
  · rintro ⟨v, h, rfl⟩
    obtain ⟨h1, h2, h3⟩ := (wireVar_iff _ _ _).mp h
    refine ⟨_, ?_, rfl⟩
    rw [decodeUvarint_eq, h1]
    simp [h2, h3]

theorem getLE_take (bz : Bytes) (w : Nat) (hw : w ≤ 8) :
    getLE (bz.take w) = UInt64.ofNat (unle (bz.take w)) := by
  rw [← getLE_toNat _ (by simp; omega)]; simp

theorem unle_take_lt (bz : Bytes) (w : Nat) : unle (bz.take w) < 256 ^ w := by
  refine Nat.lt_of_lt_of_le (unle_lt _) (Nat.pow_le_pow_right (by omega) (by simp; omega))

theorem ofNat_toNat_lt {v : Nat} (h : v < 2 ^ 64) : (UInt64.ofNat v).toNat = v := by
  simp [Nat.mod_eq_of_lt h]

theorem intOfU64_ofNat {v : Nat} (h : v < 2 ^ 64) :
    intOfU64 (UInt64.ofNat v) = if v < 2 ^ 63 then (v : Int) else (v : Int) - 2 ^ 64 := by
  unfold intOfU64; rw [ofNat_toNat_lt h]

theorem intOfU32_ofNat {v : Nat} (h : v < 2 ^ 64) :
    intOfU32 (UInt64.ofNat v) = if v < 2 ^ 31 then (v : Int) else (v : Int) - 2 ^ 32 := by
  unfold intOfU32; rw [ofNat_toNat_lt h]

theorem wireInt_var (k : IntKind) (f64 f32 : Bool) (bz : Bytes) (g : Nat × Nat → Int × Nat)
    (h : wireInt k f64 f32 bz = (wireVar bz).map g) (hg : ∀ p, (g p).2 = p.2) (i : Int) (n : Nat) :
    wireInt k f64 f32 bz = some (i, n) ↔ ∃ v, wireVar bz = some (v, n) ∧ (g (v, n)).1 = i := by
  rw [h]
  constructor
  · intro hh
    obtain ⟨⟨v, m⟩, h1, h2⟩ := Option.map_eq_some_iff.mp hh
    have h3 := hg (v, m)
    rw [h2] at h3
    simp at h3
    subst h3
    exact ⟨v, h1, by rw [h2]⟩
  · rintro ⟨v, h1, h2⟩
    rw [h1]
    simp only [Option.map_some, Option.some.injEq]
    exact Prod.ext h2 (hg _)

/-- `decInt` against the wire specification, for the kinds that are checked. -/
theorem decInt_wire (k : IntKind) (fo : FOpts) (bz : Bytes) (n : Nat) (i : Int)
    (hk : k = .uint32 → fo.fixed32 = true) :
    decInt k fo bz = .ok n i ↔ wireInt k fo.fixed64 fo.fixed32 bz = some (i, n) ∧ k.inRange i := by
  have lt64 : ∀ {v n}, wireVar bz = some (v, n) → v < 2 ^ 64 := fun h => ((wireVar_iff _ _ _).mp h).2.2
  have two : ∀ {v : Nat} {i : Int}, v < 2 ^ 64 → (if v < 2 ^ 63 then (v : Int) else (v : Int) - 2 ^ 64) = i →
      -(2 ^ 63) ≤ i ∧ i < 2 ^ 63 := by
    intro v i h1 h2; subst h2; split <;> omega
  have u8 := unle_take_lt bz 8
  have u4 := unle_take_lt bz 4
  have unsignedVar : ∀ k, k.bits = 64 → k.signed = false →
      wireInt k fo.fixed64 fo.fixed32 bz = (wireVar bz).map (fun p => ((p.1 : Int), p.2)) →
      (((decodeUvarint bz).andSlide bz 0 fun u _ n => .ok n (u.toNat : Int)) = .ok n i ↔
        wireInt k fo.fixed64 fo.fixed32 bz = some (i, n) ∧ k.inRange i) := by
    intro k hb hs hw
    rw [wireInt_var k _ _ bz (fun p => ((p.1 : Int), p.2)) hw (fun _ => rfl)]
    rw [uvar_iff bz (fun u => (u.toNat : Int))]
    simp only [IntKind.inRange, hb, hs, Bool.false_eq_true, if_false]
    constructor
    · rintro ⟨v, h, rfl⟩
      have := lt64 h
      rw [ofNat_toNat_lt this]
      exact ⟨⟨v, h, rfl⟩, by omega⟩
    · rintro ⟨⟨v, h, rfl⟩, _⟩
      exact ⟨v, h, by rw [ofNat_toNat_lt (lt64 h)]⟩
  have fixedW : ∀ (w : Nat) (k : IntKind) (g : Nat → Int) (r : DRes Int),
      wireInt k fo.fixed64 fo.fixed32 bz =
        (if bz.length < w then none else some (unle (bz.take w), w)).map (fun p => (g p.1, p.2)) →
      (r = if bz.length < w then .err 0 .eof else .ok w (g (unle (bz.take w)))) →
      k.inRange (g (unle (bz.take w))) →
      (r.andSlide bz 0 (fun i _ n => DRes.ok n i) = .ok n i ↔
        wireInt k fo.fixed64 fo.fixed32 bz = some (i, n) ∧ k.inRange i) := by
    intro w k g r hw hr hin
    rw [hw, hr]
    by_cases hl : bz.length < w
    · simp [hl, DRes.andSlide]
    · have : w ≤ bz.length := by omega
      simp only [hl, if_false, DRes.andSlide, this, if_true, Option.map_some, Option.some.injEq,
        Prod.mk.injEq, DRes.ok.injEq, Nat.zero_add]
      constructor
      · rintro ⟨rfl, rfl⟩; exact ⟨⟨rfl, rfl⟩, hin⟩
      · rintro ⟨⟨rfl, rfl⟩, _⟩; exact ⟨rfl, rfl⟩
  have smap : ∀ (r : DRes UInt64), (r.andSlide bz 0 fun u _ n => DRes.ok n (u.toNat : Int)) =
      (r.map fun u => (u.toNat : Int)).andSlide bz 0 fun i _ n => DRes.ok n i := by
    intro r; cases r <;> rfl
  cases k with
  | int8 =>
    rw [wireInt_var .int8 _ _ bz (fun p => (zag p.1, p.2)) rfl (fun _ => rfl)]
    unfold decInt
    rw [slideMap (decodeInt8_safe bz) (fun i => i)]
    simp only [C07_int8_range, wireVar_iff, IntKind.inRange, IntKind.signed, IntKind.bits,
      if_true, and_assoc]
    constructor
    · rintro ⟨_, ⟨v, h⟩, h1, h2, rfl⟩; exact ⟨⟨v, h⟩, h1, h2⟩
    · rintro ⟨⟨v, h⟩, h1, h2⟩; exact ⟨_, ⟨v, h⟩, h1, h2, rfl⟩
  | int16 =>
    rw [wireInt_var .int16 _ _ bz (fun p => (zag p.1, p.2)) rfl (fun _ => rfl)]
    unfold decInt
    rw [slideMap (decodeInt16_safe bz) (fun i => i)]
    simp only [C07_int16_range, wireVar_iff, IntKind.inRange, IntKind.signed, IntKind.bits,
      if_true, and_assoc]
    constructor
    · rintro ⟨_, ⟨v, h⟩, h1, h2, rfl⟩; exact ⟨⟨v, h⟩, h1, h2⟩
    · rintro ⟨⟨v, h⟩, h1, h2⟩; exact ⟨_, ⟨v, h⟩, h1, h2, rfl⟩
  | uint8 =>
    rw [wireInt_var .uint8 _ _ bz (fun p => ((p.1 : Int), p.2)) rfl (fun _ => rfl)]
    unfold decInt
    rw [slideMap (decodeUint8_safe bz) (fun u => (u.toNat : Int))]
    simp only [C07_uint8_range, wireVar_iff, IntKind.inRange, IntKind.signed, IntKind.bits,
      Bool.false_eq_true, if_false]
    constructor
    · rintro ⟨u, ⟨⟨h1, h2⟩, h3⟩, rfl⟩
      exact ⟨⟨u.toNat, ⟨h1, h2, u.toNat_lt⟩, rfl⟩, by omega⟩
    · rintro ⟨⟨v, ⟨h1, h2, h3⟩, rfl⟩, h4⟩
      refine ⟨UInt64.ofNat v, ?_, by rw [ofNat_toNat_lt h3]⟩
      rw [ofNat_toNat_lt h3]
      exact ⟨⟨h1, h2⟩, by omega⟩
  | uint16 =>
    rw [wireInt_var .uint16 _ _ bz (fun p => ((p.1 : Int), p.2)) rfl (fun _ => rfl)]
    unfold decInt
    rw [slideMap (decodeUint16_safe bz) (fun u => (u.toNat : Int))]
    simp only [C07_uint16_range, wireVar_iff, IntKind.inRange, IntKind.signed, IntKind.bits,
      Bool.false_eq_true, if_false]
    constructor
    · rintro ⟨u, ⟨⟨h1, h2⟩, h3⟩, rfl⟩
      exact ⟨⟨u.toNat, ⟨h1, h2, u.toNat_lt⟩, rfl⟩, by omega⟩
    · rintro ⟨⟨v, ⟨h1, h2, h3⟩, rfl⟩, h4⟩
      refine ⟨UInt64.ofNat v, ?_, by rw [ofNat_toNat_lt h3]⟩
      rw [ofNat_toNat_lt h3]
      exact ⟨⟨h1, h2⟩, by omega⟩
  | uint => exact unsignedVar .uint rfl rfl rfl
  | int =>
    rw [wireInt_var .int _ _ bz
      (fun p => (if p.1 < 2 ^ (64 - 1) then (p.1 : Int) else (p.1 : Int) - 2 ^ 64, p.2)) rfl (fun _ => rfl)]
    have : ∀ u : UInt64, ¬ (intOfU64 u > 9223372036854775807 ∨ intOfU64 u < -9223372036854775808) := by
      intro u; have := intOfU64_range u; omega
    simp only [decInt, this, if_false]
    rw [uvar_iff bz intOfU64]
    simp only [IntKind.inRange, IntKind.signed, IntKind.bits, if_true]
    constructor
    · rintro ⟨v, h, rfl⟩
      rw [intOfU64_ofNat (lt64 h)]
      exact ⟨⟨v, h, rfl⟩, two (lt64 h) rfl⟩
    · rintro ⟨⟨v, h, rfl⟩, _⟩
      exact ⟨v, h, by rw [intOfU64_ofNat (lt64 h)]⟩
  | int64 =>
    cases hf : fo.fixed64 with
    | false =>
      rw [wireInt_var .int64 _ _ bz
        (fun p => (if p.1 < 2 ^ (64 - 1) then (p.1 : Int) else (p.1 : Int) - 2 ^ 64, p.2)) rfl (fun _ => rfl)]
      simp only [decInt, hf, Bool.false_eq_true, if_false]
      rw [uvar_iff bz intOfU64]
      simp only [IntKind.inRange, IntKind.signed, IntKind.bits, if_true]
      constructor
      · rintro ⟨v, h, rfl⟩
        rw [intOfU64_ofNat (lt64 h)]
        exact ⟨⟨v, h, rfl⟩, two (lt64 h) rfl⟩
      · rintro ⟨⟨v, h, rfl⟩, _⟩
        exact ⟨v, h, by rw [intOfU64_ofNat (lt64 h)]⟩
    | true =>
      rw [← hf]
      unfold decInt
      simp only [hf, if_true]
      rw [← hf]
      refine fixedW 8 .int64 (fun v => if v < 2 ^ 63 then (v : Int) else (v : Int) - 2 ^ 64) _ ?_ ?_ ?_
      · unfold wireInt; simp only [hf, if_true]
      · unfold decodeInt64
        rw [getLE_take bz 8 (by omega), intOfU64_ofNat (by omega)]
      · exact two (by omega) rfl
  | int32 =>
    cases hf : fo.fixed32 with
    | false =>
      rw [wireInt_var .int32 _ _ bz
        (fun p => (if p.1 < 2 ^ (64 - 1) then (p.1 : Int) else (p.1 : Int) - 2 ^ 64, p.2)) rfl (fun _ => rfl)]
      simp only [decInt, hf, Bool.false_eq_true, if_false]
      simp only [IntKind.inRange, IntKind.signed, IntKind.bits, if_true]
      have key : ((decodeUvarint bz).andSlide bz 0 fun u _ n =>
          if intOfU64 u > 2147483647 ∨ intOfU64 u < -2147483648 then DRes.err n .intRange
          else .ok n (intOfU64 u)) = .ok n i ↔
          ((decodeUvarint bz).andSlide bz 0 fun u _ n => DRes.ok n (intOfU64 u)) = .ok n i ∧
            -(2 ^ 31) ≤ i ∧ i < 2 ^ 31 := by
        cases decodeUvarint bz with
        | ok m u =>
          simp only [DRes.andSlide]
          split
          · split
            · simp; intro _ h; omega
            · simp; intro _ h; omega
          · simp
        | err m e => simp only [DRes.andSlide]; split <;> simp
        | panic => simp [DRes.andSlide]
        | oof => simp [DRes.andSlide]
      rw [key, uvar_iff bz intOfU64]
      constructor
      · rintro ⟨⟨v, h, rfl⟩, h2⟩
        refine ⟨⟨v, h, ?_⟩, h2⟩
        rw [intOfU64_ofNat (lt64 h)]
      · rintro ⟨⟨v, h, rfl⟩, h2⟩
        exact ⟨⟨v, h, by rw [intOfU64_ofNat (lt64 h)]⟩, h2⟩
    | true =>
      unfold decInt
      simp only [hf, if_true]
      rw [← hf]
      refine fixedW 4 .int32 (fun v => if v < 2 ^ 31 then (v : Int) else (v : Int) - 2 ^ 32) _ ?_ ?_ ?_
      · unfold wireInt; simp only [hf, if_true]
      · unfold decodeInt32
        rw [getLE_take bz 4 (by omega), intOfU32_ofNat (by omega)]
      · simp only [IntKind.inRange, IntKind.signed, IntKind.bits, if_true]
        split <;> omega
  | uint64 =>
    cases hf : fo.fixed64 with
    | false =>
      unfold decInt
      simp only [hf, Bool.false_eq_true, if_false]
      rw [← hf]
      exact unsignedVar .uint64 rfl rfl (by unfold wireInt wireVar; simp [hf])
    | true =>
      unfold decInt
      simp only [hf, if_true]
      rw [← hf, smap]
      refine fixedW 8 .uint64 (fun v => (v : Int)) _ ?_ ?_ ?_
      · unfold wireInt; simp only [hf, if_true]
      · unfold decodeUint64
        rw [getLE_take bz 8 (by omega)]
        split
        · rfl
        · simp only [DRes.map_ok]; rw [ofNat_toNat_lt (by omega)]
      · simp only [IntKind.inRange, IntKind.signed, IntKind.bits, Bool.false_eq_true, if_false]; omega
  | uint32 =>
    have hf := hk rfl
    unfold decInt
    simp only [hf, if_true]
    rw [← hf, smap]
    refine fixedW 4 .uint32 (fun v => (v : Int)) _ ?_ ?_ ?_
    · unfold wireInt; simp only [hf, if_true]
    · unfold decodeUint32
      rw [getLE_take bz 4 (by omega)]
      split
      · rfl
      · simp only [DRes.map_ok]; rw [ofNat_toNat_lt (by omega)]
    · simp only [IntKind.inRange, IntKind.signed, IntKind.bits, Bool.false_eq_true, if_false]; omega

end Amino
