import Verif.WorkLow
import Verif.PropsSize

/-!
# C117: the work of Unmarshal
-/

namespace Amino
open Spec

/-- What a type of some rank may do without consuming anything, in steps. -/
def idle (F : Nat) : Nat → Nat
  | 0 => F + 5
  | r + 1 => 5 + F * (1 + idle F r) + idle F r

theorem idle_mono {F r r' : Nat} (h : r ≤ r') : idle F r ≤ idle F r' := by
  induction r' with
  | zero => cases Nat.le_zero.1 h; exact Nat.le_refl _
  | succ r' ih =>
    rcases Nat.lt_or_eq_of_le h with h | h
    · have := ih (by omega); simp only [idle]; omega
    · rw [h]; exact Nat.le_refl _

theorem rates (F R : Nat) {A : Nat} (hA : 1 ≤ A) :
    Rates A F R (fun r => A * idle F r) (fun r => A * (R - r + 1)) (A * (idle F R + R + 6)) where
  one := hA
  base r := by
    have := idle_mono (F := F) (Nat.zero_le r)
    rw [Nat.mul_comm]
    exact Nat.mul_le_mul_left _ (by simp only [idle] at this; omega)
  mono h := Nat.mul_le_mul_left _ (idle_mono h)
  step := by
    intro r r' h
    have h1 := idle_mono (F := F) (show r' + 1 ≤ r from h)
    have h2 := Nat.mul_le_mul_left A h1
    simp only [idle, Nat.mul_add, Nat.mul_one] at h2
    have h3 : F * (A * idle F r') = A * (F * idle F r') := Nat.mul_left_comm _ _ _
    have h4 : F * A = A * F := Nat.mul_comm _ _
    simp only [Nat.mul_add, h3, h4]
    omega
  wide r := by
    have := Nat.mul_le_mul_left A (idle_mono (F := F) (Nat.zero_le r))
    simp only [idle, Nat.mul_add] at this
    rw [Nat.mul_comm F A]
    omega
  left := by
    intro r r' h h'
    have : A * (R - r + 1 + 1) ≤ A * (R - r' + 1) := Nat.mul_le_mul_left _ (by omega)
    rw [Nat.mul_add] at this
    omega
  some r := by rw [Nat.mul_add]; omega
  pay := by
    intro r r' h
    have h1 := Nat.mul_le_mul_left A (idle_mono (F := F) h)
    have h2 : A * (R - r' + 1) ≤ A * (R + 1) := Nat.mul_le_mul_left _ (by omega)
    simp only [Nat.mul_add] at h2 ⊢
    omega

theorem work_square {Γ : Prog} {rank : TId → Nat} {R F : Nat} (hu : Γ.UserOk) (hR : DecRank Γ rank R) (hW : Wide Γ F)
    (c : Codec) (f : Nat) (t : Ty) (p : Val) (fo : FOpts) (bare : Bool) (bz : Bytes) (N : Nat) (hN : bz.length ≤ N) :
    work Γ c f t p fo bare bz ≤ (idle F R + R + 6) * (N + 1) ^ 2 := by
  have h := (work_le (c := c) (rates F R (A := N + 1) (by omega)) hW hR hu f).any t p fo bare bz (by omega)
  have hup : upTo (dec Γ c f t p fo bare bz) bz.length ≤ N := by
    have := dec_fits (c := c) hu f t p fo bare bz
    generalize dec Γ c f t p fo bare bz = d at *
    cases d with
    | ok n v => exact Nat.le_trans this.2.1 hN
    | _ => exact hN
  have h1 : (N + 1) * idle F (rank t.deref) ≤ (N + 1) * (idle F R + R + 6) :=
    Nat.mul_le_mul_left _ (by have := idle_mono (F := F) (hR.bound t.deref); omega)
  have h2 := Nat.mul_le_mul_left ((N + 1) * (idle F R + R + 6)) hup
  have h3 : (idle F R + R + 6) * (N + 1) ^ 2 =
      (N + 1) * (idle F R + R + 6) * N + (N + 1) * (idle F R + R + 6) := by
    rw [Nat.pow_two, Nat.mul_comm, Nat.mul_assoc, ← Nat.mul_add_one, Nat.mul_assoc]
    congr 1
    exact Nat.mul_comm _ _
  omega

/-- C117: the work of `UnmarshalBinaryBare`, with or without an error, on any bytes and with any target, grows at
most with the square of their number; the factor depends only on the types of the program (how many fields and array
elements they have, `F`, and how deep their values without length nest, `R`). -/
theorem C117_bare {Γ : Prog} {rank : TId → Nat} {R F : Nat} (hu : Γ.UserOk) (hR : DecRank Γ rank R) (hW : Wide Γ F) :
    ∃ K, ∀ (c : Codec) (f : Nat) (t : Ty) (p : Val) (bz : Bytes),
      workBare Γ c f t p bz ≤ K * (bz.length + 1) ^ 2 := by
  refine ⟨idle F R + R + 6, fun c f t p bz => ?_⟩
  have hw : ∀ bz' : Bytes, bz'.length ≤ bz.length → ∀ p fo bare,
      work Γ c f t p fo bare bz' ≤ (idle F R + R + 6) * (bz.length + 1) ^ 2 :=
    fun bz' hl p fo bare => work_square hu hR hW c f t p fo bare bz' _ hl
  unfold workBare
  split
  · cases hs : stripPrefix c t.deref bz with
    | ok bz' =>
      have hl : bz'.length ≤ bz.length := by
        unfold stripPrefix at hs
        split at hs
        · split at hs
          · cases hs
          split at hs
          · cases hs
          · cases hs; simp
        · cases hs; exact Nat.le_refl _
      simp only
      unfold workContents
      split
      · exact hw _ hl _ _ _
      split
      · exact Nat.zero_le _
      split
      · split
        · split
          · exact Nat.zero_le _
          split
          · exact Nat.zero_le _
          · exact hw _ (by rw [List.length_drop]; omega) _ _ _
        · exact Nat.zero_le _
      · exact hw _ hl _ _ _
    | _ => exact Nat.zero_le _
  · exact Nat.zero_le _

/-- C117 for `UnmarshalBinaryLengthPrefixed`. -/
theorem C117_prefixed {Γ : Prog} {rank : TId → Nat} {R F : Nat} (hu : Γ.UserOk) (hR : DecRank Γ rank R) (hW : Wide Γ F) :
    ∃ K, ∀ (c : Codec) (f : Nat) (t : Ty) (p : Val) (bz : Bytes),
      workLP Γ c f t p bz ≤ K * (bz.length + 1) ^ 2 := by
  obtain ⟨K, hK⟩ := C117_bare hu hR hW
  refine ⟨K, fun c f t p bz => ?_⟩
  unfold workLP
  split
  · exact Nat.zero_le _
  simp only
  split
  · exact Nat.zero_le _
  split
  · exact Nat.zero_le _
  split
  · exact Nat.zero_le _
  · refine Nat.le_trans (hK c f t p _) (Nat.mul_le_mul_left _ (Nat.pow_le_pow_left ?_ 2))
    rw [List.length_drop]; omega

/-- C117, from below: a call of `UnmarshalBinaryBare` that succeeds does at least one step for every 60 bytes. -/
theorem C117_counted {Γ : Prog} (hz : ∀ id, HasTy Γ (.base id) (Γ.zero id)) {c : Codec} {f : Nat} {t : Ty} {p v : Val}
    {bz : Bytes} (hp : HasTy Γ t p) (h : unmarshalBare Γ c f t p bz = .ok v) :
    bz.length ≤ 60 * workBare Γ c f t p bz + 14 := by
  have all : ∀ {bare : Bool} {bz' : Bytes}, decodeAll Γ c f t p bare bz' = .ok v →
      bz'.length ≤ 60 * work Γ c f t p { fnum := 1 } bare bz' := by
    intro bare bz' h
    unfold decodeAll at h
    split at h
    · rename_i n w hd
      have := work_low hz f _ _ _ _ _ _ _ hp hd
      split at h
      · cases h
      · omega
    · cases h
    · cases h
    · cases h
  unfold unmarshalBare at h
  obtain ⟨_, hi, h⟩ := Res.bind_eq_ok h
  obtain ⟨bz', hs, h⟩ := Res.bind_eq_ok h
  have hl : bz.length ≤ bz'.length + 4 := by
    unfold stripPrefix at hs
    split at hs
    · split at hs
      · cases hs
      split at hs
      · cases hs
      · cases hs; rw [List.length_drop]; omega
    · cases hs; omega
  have main : bz'.length ≤ 60 * workContents Γ c f t p bz' + 10 := by
    unfold unmarshalContents at h
    unfold workContents
    split at h
    · rename_i h1
      rw [if_pos h1]
      have := all h
      omega
    rename_i h1
    rw [if_neg h1]
    split at h
    · cases h
    rename_i h2
    rw [if_neg h2]
    split at h
    · rename_i h3
      rw [if_pos h3]
      cases hk : decodeKey bz' with
      | ok j ft =>
        obtain ⟨fnum, typ⟩ := ft
        have hj := short_key _ _ _ hk
        simp only [hk] at h ⊢
        split at h
        · cases h
        rename_i h4
        rw [if_neg h4]
        split at h
        · cases h
        rename_i h5
        rw [if_neg h5]
        split at h
        · have := all h
          rw [List.length_drop] at this
          omega
        · cases h
      | _ => simp [hk] at h
    · rename_i h3
      rw [if_neg h3]
      have := all h
      omega
  unfold workBare
  simp only [hi, hs]
  omega

/-- Three messages inside each other: 6 bytes are read in 38 steps. -/
example : unmarshalBare Demo.prog Demo.codec 40 (.base Demo.msgT) (Demo.prog.zero Demo.msgT) [34, 4, 34, 2, 34, 0] ≠ .oof ∧
    workBare Demo.prog Demo.codec 40 (.base Demo.msgT) (Demo.prog.zero Demo.msgT) [34, 4, 34, 2, 34, 0] = 38 := by
  refine ⟨?_, ?_⟩ <;> decide +kernel

theorem Demo.wide : Wide Demo.prog 8 where
  fields := fun h => (Demo.bounded.fields h).1
  array := by
    intro id n e h
    match id with
    | 0 | 1 | 2 | 3 | 4 | 5 | 6 | 7 | 8 | 9 | 10 | 11 | 12 | 13 | 14 | 15 | 16 | 17 | 18 | 19 | 20 | 21 | 22 | 23 | 25 =>
      simp [Demo.prog, Demo.shape] at h
    | 24 =>
      simp only [Demo.prog, Demo.shape, Shape.array.injEq] at h
      omega
    | n + 26 => simp [Demo.prog, Demo.shape] at h

example : ∃ K, ∀ (c : Codec) (f : Nat) (t : Ty) (p : Val) (bz : Bytes),
    workBare Demo.prog c f t p bz ≤ K * (bz.length + 1) ^ 2 := C117_bare Demo.prog_user Demo.rank Demo.wide

/-! ## The square is needed -/

/-- `k` messages, each the field `D` of the one around it. -/
def Demo.nest : Nat → Bytes
  | 0 => []
  | k + 1 => 34 :: (varint (Demo.nest k).length ++ Demo.nest k)

theorem Demo.nest_len (k : Nat) : 2 * k ≤ (Demo.nest k).length ∧ (k < 2 ^ 59 → (Demo.nest k).length ≤ 11 * k) := by
  induction k with
  | zero => simp [Demo.nest]
  | succ k ih =>
    have h1 := varint_length_pos (Demo.nest k).length
    simp only [Demo.nest, List.length_cons, List.length_append]
    refine ⟨by omega, fun hk => ?_⟩
    have h2 := ih.2 (by omega)
    have h3 := varint_length_le (Demo.nest k).length 10 (Nat.lt_of_le_of_lt h2 (by omega)) (by omega)
    omega

/-- The fields of a nested message. -/
def Demo.nestFields (f k : Nat) : Nat :=
  workFields Demo.prog Demo.codec (dec Demo.prog Demo.codec f) (work Demo.prog Demo.codec f) Demo.msgFields
    [.int 0, .str [], .nil, .nil, .nil, .nil, Demo.zeroTime] 0 0 (Demo.nest k)

theorem Demo.nest_call (f k : Nat) (fo : FOpts) (hk : k < 2 ^ 59) :
    work Demo.prog Demo.codec (f + 1) (.ptr (.base Demo.msgT)) .nil fo false (varint (Demo.nest k).length ++ Demo.nest k) =
      1 + ((Demo.nest k).length + Demo.nestFields f k) := by
  have h := decodeByteSlice_varint (Demo.nest k) [] (by have := (Demo.nest_len k).2 hk; omega)
  rw [List.append_nil] at h
  show 1 + workFrame false _ _ = _
  unfold workFrame
  simp only [Bool.false_eq_true, if_false, h]
  rfl

theorem Demo.nest_fields (f k : Nat) :
    ∃ fo, work Demo.prog Demo.codec f (.ptr (.base Demo.msgT)) .nil fo false (varint (Demo.nest k).length ++ Demo.nest k) ≤
      Demo.nestFields f (k + 1) := by
  have hk : decodeKey (Demo.nest (k + 1)) = .ok 1 (4, 2) := by
    unfold Demo.nest
    exact decodeKey_one 34 _ (by decide)
  have hl : (Demo.nest (k + 1)).length ≠ 0 := by simp [Demo.nest]
  have hd : (Demo.nest (k + 1)).drop 1 = varint (Demo.nest k).length ++ Demo.nest k := by simp [Demo.nest]
  refine ⟨{ fnum := 4 }, ?_⟩
  rw [← hd]
  unfold Demo.nestFields
  generalize Demo.nest (k + 1) = bz at *
  have skip : ∀ (f' : Field) fs p ps num last, f'.visible = true → getInfo Demo.prog Demo.codec f'.ty.deref = .ok () →
      Demo.prog.unpackedList f' = false → num + 1 < 4 →
      workFields Demo.prog Demo.codec (dec Demo.prog Demo.codec f) (work Demo.prog Demo.codec f) fs ps (num + 1) last bz ≤
      workFields Demo.prog Demo.codec (dec Demo.prog Demo.codec f) (work Demo.prog Demo.codec f) (f' :: fs) (p :: ps) num last bz := by
    intro f' fs p ps num last h1 h2 h3 h4
    rw [workFields.eq_2, h1, h2, h3, hk]
    simp only [Bool.not_true, Bool.false_eq_true, if_false, if_neg hl, if_pos h4]
    omega
  have hit : ∀ (f' : Field) fs p ps last, f'.visible = true → getInfo Demo.prog Demo.codec f'.ty.deref = .ok () →
      Demo.prog.unpackedList f' = false → last < 4 → Demo.prog.typ3 f'.ty.deref { f'.opts with fnum := 3 + 1 } = 2 →
      work Demo.prog Demo.codec f f'.ty p { f'.opts with fnum := 3 + 1 } false (bz.drop 1) ≤
      workFields Demo.prog Demo.codec (dec Demo.prog Demo.codec f) (work Demo.prog Demo.codec f) (f' :: fs) (p :: ps) 3 last bz := by
    intro f' fs p ps last h1 h2 h3 h4 h5
    rw [workFields.eq_2, h1, h2, h3, hk]
    simp only [Bool.not_true, Bool.false_eq_true, if_false, if_neg hl]
    rw [if_neg (by omega), if_neg (by omega), if_neg (by omega), if_neg (by rw [h5]; omega)]
    omega
  refine Nat.le_trans ?_ (skip _ _ _ _ _ _ rfl (by decide +kernel) (by decide +kernel) (by omega))
  refine Nat.le_trans ?_ (skip _ _ _ _ _ _ rfl (by decide +kernel) (by decide +kernel) (by omega))
  refine Nat.le_trans ?_ (skip _ _ _ _ _ _ rfl (by decide +kernel) (by decide +kernel) (by omega))
  exact hit { ty := .ptr (.base Demo.msgT) } _ _ _ _ rfl (by decide +kernel) (by decide +kernel) (by omega) (by decide +kernel)

theorem Demo.nest_square (f k : Nat) (hf : k ≤ f) (hk : k < 2 ^ 59) : k * k ≤ Demo.nestFields f k := by
  induction k generalizing f with
  | zero => omega
  | succ k ih =>
    obtain ⟨f, rfl⟩ : ∃ f', f = f' + 1 := ⟨f - 1, by omega⟩
    obtain ⟨fo, h⟩ := Demo.nest_fields (f + 1) k
    rw [Demo.nest_call f k fo (by omega)] at h
    have h1 := ih f (by omega) (by omega)
    have h2 := (Demo.nest_len k).1
    have : (k + 1) * (k + 1) = k * k + 2 * k + 1 := by
      rw [Nat.add_mul, Nat.mul_add]; omega
    omega

/-- C117, the bound cannot be improved to a multiple of the number of bytes: a message of at most `11 * k` bytes makes
`UnmarshalBinaryBare` do at least `k * k` steps.  Every level of nesting copies everything inside it. -/
theorem C117_square_reached (k f : Nat) (hf : k < f) (hk : k < 2 ^ 59) : ∃ bz : Bytes, bz.length ≤ 11 * k ∧
    k * k ≤ workBare Demo.prog Demo.codec f (.base Demo.msgT) (Demo.prog.zero Demo.msgT) bz := by
  obtain ⟨f, rfl⟩ : ∃ f', f = f' + 1 := ⟨f - 1, by omega⟩
  refine ⟨Demo.nest k, (Demo.nest_len k).2 hk, Nat.le_trans (Demo.nest_square f k (by omega) hk) ?_⟩
  have : workBare Demo.prog Demo.codec (f + 1) (.base Demo.msgT) (Demo.prog.zero Demo.msgT) (Demo.nest k) =
      1 + Demo.nestFields f k := by
    have g : getInfo Demo.prog Demo.codec (Ty.base Demo.msgT).deref = .ok () := by decide +kernel
    have s : stripPrefix Demo.codec (Ty.base Demo.msgT).deref (Demo.nest k) = .ok (Demo.nest k) := by rfl
    have r : Demo.prog.structOrRep (Ty.base Demo.msgT).deref = true := by decide +kernel
    unfold workBare workContents
    simp only [g, s, r, if_true]
    rfl
  omega

/-- These messages are read without an error: three levels. -/
example : ∃ v, unmarshalBare Demo.prog Demo.codec 40 (.base Demo.msgT) (Demo.prog.zero Demo.msgT)
    [34, 4, 34, 2, 34, 0] = .ok v := ⟨_, rfl⟩

example : Demo.nest 3 = [34, 4, 34, 2, 34, 0] := by
  have h0 : Demo.nest 1 = [34, 0] := by unfold Demo.nest Demo.nest varint; rfl
  have h1 : Demo.nest 2 = [34, 2, 34, 0] := by
    rw [show Demo.nest 2 = 34 :: (varint (Demo.nest 1).length ++ Demo.nest 1) from rfl, h0]; unfold varint; rfl
  rw [show Demo.nest 3 = 34 :: (varint (Demo.nest 2).length ++ Demo.nest 2) from rfl, h1]; unfold varint; rfl

end Amino
