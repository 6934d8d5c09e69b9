import Verif.SizeLemmas
import Verif.PropsDec
import Verif.Demo

/-!
# C69: decoding does not amplify
-/

namespace Amino
open Spec

theorem decodeAll_size {Γ : Prog} {c : Codec} {rank : TId → Nat} {R B f : Nat} (hu : Γ.UserOk) (hR : DecRank Γ rank R)
    (hB : Bounded Γ B) {t : Ty} {p v : Val} {bare : Bool} {bz : Bytes} (ht : depth t ≤ B)
    (h : decodeAll Γ c f t p bare bz = .ok v) :
    vsize v ≤ vsize p + 2 * B + excess B R + perByte R B * bz.length := by
  unfold decodeAll at h
  cases hd : dec Γ c f t p { fnum := 1 } bare bz with
  | err => rw [hd] at h; cases h
  | panic => rw [hd] at h; cases h
  | oof => rw [hd] at h; cases h
  | ok n w =>
    rw [hd] at h
    simp only at h
    split at h
    · cases h
    · rename_i hn
      simp only [Res.ok.injEq] at h
      subst h
      have := (dec_size (c := c) (Nat.le_refl _) hB hR hu f).any hd
      have hx := excess_mono (B := B) (hR.bound t.deref)
      have hp := ptrSize_le ht
      have hn : n = bz.length := by simpa using hn
      rw [hn] at this
      omega

theorem perByte_drop {K m : Nat} {bz : Bytes} : K * (bz.drop m).length ≤ K * bz.length :=
  Nat.mul_le_mul_left _ (by simp)

/-- C69: what `UnmarshalBinaryBare` puts into memory is at most proportional to the input, with a factor that depends
on the types of the program alone: not on the input, the registrations or the variable decoded into. -/
theorem C69_bare {Γ : Prog} {rank : TId → Nat} {R B : Nat} (hu : Γ.UserOk) (hR : DecRank Γ rank R) (hB : Bounded Γ B) :
    ∃ K, ∀ (c : Codec) (f : Nat) (t : Ty) (p v : Val) (bz : Bytes), depth t ≤ B →
      unmarshalBare Γ c f t p bz = .ok v → vsize v ≤ vsize p + K * (bz.length + 1) := by
  refine ⟨perByte R B, fun c f t p v bz ht h => ?_⟩
  have hall : ∀ {bare bz'}, (bz'.length ≤ bz.length) → decodeAll Γ c f t p bare bz' = .ok v →
      vsize v ≤ vsize p + perByte R B * (bz.length + 1) := by
    intro bare bz' hl h
    have h1 := decodeAll_size hu hR hB ht h
    have h2 : perByte R B * bz'.length ≤ perByte R B * bz.length := Nat.mul_le_mul_left _ hl
    have h3 : 2 * B + excess B R ≤ perByte R B := by unfold perByte; omega
    rw [Nat.mul_add]
    omega
  unfold unmarshalBare at h
  cases hg : getInfo Γ c t.deref with
  | err => rw [hg] at h; cases h
  | panic => rw [hg] at h; cases h
  | oof => rw [hg] at h; cases h
  | ok =>
    rw [hg] at h
    simp only [Res.bind] at h
    cases hs : stripPrefix c t.deref bz with
    | err => rw [hs] at h; cases h
    | panic => rw [hs] at h; cases h
    | oof => rw [hs] at h; cases h
    | ok bz1 =>
      have hl : bz1.length ≤ bz.length := by
        unfold stripPrefix at hs
        split at hs
        · split at hs
          · cases hs
          split at hs
          · cases hs
          simp only [Res.ok.injEq] at hs
          subst hs
          simp
        · simp only [Res.ok.injEq] at hs
          subst hs
          exact Nat.le_refl _
      rw [hs] at h
      simp only at h
      unfold unmarshalContents at h
      split at h
      · exact hall hl h
      split at h
      · cases h
      split at h
      · cases hk : decodeKey bz1 with
        | err => rw [hk] at h; cases h
        | panic => rw [hk] at h; cases h
        | oof => rw [hk] at h; cases h
        | ok m ft =>
          rw [hk] at h
          simp only at h
          split at h
          · cases h
          split at h
          · cases h
          split at h
          · exact hall (by simp only [List.length_drop]; omega) h
          · cases h
      · exact hall hl h

/-- C69 for `UnmarshalBinaryLengthPrefixed`. -/
theorem C69_prefixed {Γ : Prog} {rank : TId → Nat} {R B : Nat} (hu : Γ.UserOk) (hR : DecRank Γ rank R)
    (hB : Bounded Γ B) :
    ∃ K, ∀ (c : Codec) (f : Nat) (t : Ty) (p v : Val) (bz : Bytes), depth t ≤ B →
      unmarshalLP Γ c f t p bz = .ok v → vsize v ≤ vsize p + K * (bz.length + 1) := by
  obtain ⟨K, hKK⟩ := C69_bare hu hR hB
  refine ⟨K, fun c f t p v bz ht h => ?_⟩
  unfold unmarshalLP at h
  split at h
  · cases h
  simp only at h
  split at h
  · cases h
  split at h
  · cases h
  split at h
  · cases h
  have h1 := hKK c f t p v _ ht h
  have h2 : K * ((bz.drop (uvarint bz).2.toNat).length + 1) ≤ K * (bz.length + 1) :=
    Nat.mul_le_mul_left _ (by simp)
  omega

/-- The types of the demo program are finite things. -/
theorem Demo.bounded : Bounded Demo.prog 8 where
  zero := by
    intro id
    match id with
    | 0 | 1 | 2 | 3 | 4 | 5 | 6 | 7 | 8 | 9 | 10 | 11 | 12 | 13 | 14 | 15 | 16 | 17 | 18 | 19 | 20 | 21 | 22 | 23 | 24 | 25 =>
      decide +kernel
    | n + 26 => simp [Demo.prog, Demo.zero, vsize]
  fields := by
    intro id fs h
    match id with
    | 0 | 1 | 2 | 3 | 6 | 7 | 10 | 11 | 13 | 14 | 15 | 16 | 19 | 21
    | 22 | 23 | 24 => simp [Demo.prog, Demo.shape] at h
    | 4 | 5 | 8 | 9 | 12 | 17 | 18 | 20 | 25 =>
      simp only [Demo.prog, Demo.shape, Shape.struct.injEq, Demo.msgFields] at h
      subst h
      simp only [List.mem_cons, List.not_mem_nil, or_false, forall_eq_or_imp, forall_eq]
      decide
    | n + 26 => simp [Demo.prog, Demo.shape] at h
  elem := by
    intro id e h
    match id with
    | 0 | 1 | 2 | 4 | 5 | 7 | 8 | 9 | 10 | 11 | 12 | 13 | 14 | 16 | 17 | 18 | 20 | 25 =>
      simp [Demo.prog, Demo.shape, Shape.elem?] at h
    | 3 | 6 | 15 | 19 | 21 | 22 | 23 | 24 =>
      simp only [Demo.prog, Demo.shape, Shape.elem?, Option.some.injEq] at h
      subst h
      decide
    | n + 26 => simp [Demo.prog, Demo.shape, Shape.elem?] at h
  array := by intros; rfl
  user := by simp [Demo.prog]

/-- Every decoding by the demo program, which has recursive types, interfaces and lists, obeys one bound. -/
example : ∃ K, ∀ (c : Codec) (f : Nat) (t : Ty) (p v : Val) (bz : Bytes), depth t ≤ 8 →
    unmarshalBare Demo.prog c f t p bz = .ok v → vsize v ≤ vsize p + K * (bz.length + 1) :=
  C69_bare Demo.prog_user Demo.rank Demo.bounded

/-- A decoding that succeeds: 6 bytes become a list of two structs. -/
example : unmarshalBare Demo.prog Demo.codec 9 (.base Demo.subsT) .nil [10, 0, 10, 2, 8, 1] =
    .ok (.list [.struct [.int 0, .bool false], .struct [.int 1, .bool false]]) := by decide +kernel

end Amino
