import Verif.PropsWrite
import Verif.PropsDec

/-!
# Property C87: one message, one byte string
-/

namespace Amino
open Spec

variable {Γ : Prog} {c : Codec} {S : TId → FOpts → Prop} {S' : TId → Prop}

theorem typed_result (hT : Γ.Typed) (hu : Γ.UserOk) (hD : DecUniv Γ c S') {id : TId} (hS' : S' id) {g : Nat} {bz : Bytes} {v : Val}
    (h : unmarshalBare Γ c g (.base id) (Γ.zero id) bz = .ok v) : HasTy Γ (.base id) v :=
  C35_result_in_range hT hu hD g (.base id) _ ⟨hS', rfl⟩ (hT.zero id) rfl bz v h

/-- C87: of the byte strings accepted for a value, encoding the value again singles out the one (if any) that an encoder
has written. -/
theorem C87_strict_partial (hU : Universe Γ c S) (hZ : ZeroOk Γ) (hT : Γ.Typed) (hum : UserTotal Γ) (hp4 : Prefix4 c)
    (hSt : Stable Γ S) (hu : Γ.UserOk) (hD : DecUniv Γ c S') {id : TId} (hs : Γ.structOrRep id = true)
    (hS : S id { fnum := 1 }) (hS' : S' id) {g : Nat} {bz : Bytes} {v : Val} (hl : bz.length < 2 ^ 63)
    (h : unmarshalBare Γ c g (.base id) (Γ.zero id) bz = .ok v) :
    (∃ k, marshalBare Γ c k (.base id) v = .ok bz) ↔ ∃ k v₀, HasTy Γ (.base id) v₀ ∧ marshalBare Γ c k (.base id) v₀ = .ok bz := by
  constructor
  · rintro ⟨k, hk⟩
    exact ⟨k, v, typed_result hT hu hD hS' h, hk⟩
  · rintro ⟨k, v₀, ht, hk⟩
    obtain ⟨u, h1, h2⟩ := C13_reencode (t := .base id) (t' := .base id) hU hZ hT hum hp4 hSt hs hS ht hk hl
      (Nat.le_max_left (2 * k) g) rfl
    have : u = v := by
      rcases unmarshalBare_le (Γ := Γ) (c := c) (Nat.le_max_right (2 * k) g) (.base id) (Γ.zero id) bz with hh | hh
      · rw [h] at hh; cases hh
      · rw [h] at hh
        exact Res.ok.inj (h1.symm.trans hh)
    subst this
    exact ⟨_, h2 _ (Nat.le_refl _)⟩

/-- C87: every accepted byte string has a canonical form: the encoding of what was read, which is accepted, and is its
own canonical form. -/
theorem C87_canonical_partial (hN : ∀ id fs, Γ.shape id = .struct fs → fs.length < 2 ^ 29) (hU : Universe Γ c S) (hZ : ZeroOk Γ)
    (hT : Γ.Typed) (hum : UserTotal Γ) (hp4 : Prefix4 c) (hSt : Stable Γ S) (hR : Rewritable Γ c S) (hu : Γ.UserOk)
    (hD : DecUniv Γ c S') {id : TId} (hs : Γ.structOrRep id = true) (hS : S id { fnum := 1 }) (hS' : S' id) {g : Nat}
    {bz : Bytes} {v : Val} (h : unmarshalBare Γ c g (.base id) (Γ.zero id) bz = .ok v) :
    ∃ k bz', marshalBare Γ c k (.base id) v = .ok bz' ∧ (bz'.length < 2 ^ 63 →
      ∃ u, unmarshalBare Γ c (2 * k) (.base id) (Γ.zero id) bz' = .ok u ∧ marshalBare Γ c (k + 1) (.base id) u = .ok bz') := by
  obtain ⟨k, bz', hk⟩ := C79_rewrite_partial hN hU hZ hR (t := .base id) hS h
  refine ⟨k, bz', hk, fun hl => ?_⟩
  obtain ⟨u, h1, h2⟩ := C13_reencode (t := .base id) (t' := .base id) hU hZ hT hum hp4 hSt hs hS
    (typed_result hT hu hD hS' h) hk hl (Nat.le_refl _) rfl
  exact ⟨u, h1, h2 _ (Nat.le_refl _)⟩

namespace EvoDemo

theorem steady_all (id : TId) : Steady prog id := by
  have leaf : ∀ {id}, prog.isStruct id = false → Steady prog id := fun h => .leaf rfl h
  match id with
  | 0 | 1 | 2 | 3 | 4 | 7 | 8 | 9 | 10 | 15 => exact leaf rfl
  | 5 | 6 | 11 | 12 | 13 | 14 | 16 | 17 =>
    refine .struct rfl rfl ?_
    simp [subNew, fooNew, msgNew]
    repeat (first | exact leaf rfl | refine ⟨leaf rfl, ?_⟩)
  | n + 18 => exact leaf rfl

theorem not_time (id : TId) : prog.shape id ≠ .time := by
  intro h
  match id with
  | 0 | 1 | 2 | 3 | 4 | 5 | 6 | 7 | 8 | 9 | 10 | 11 | 12 | 13 | 14 | 15 | 16 | 17 => simp [prog, shape] at h
  | n + 18 => simp [prog, shape] at h

theorem stable : Stable prog EvoDemo.S where
  field _ _ _ _ _ := ⟨fun h => absurd h (not_time _), fun i _ => .inr (steady_all i), fun _ _ _ i _ => .inr (steady_all i)⟩
  time _ h := absurd h (not_time _)
  elem _ _ _ _ := fun i _ => .inr (steady_all i)
  lawful := by intro id fo rid m um _ h; simp [prog] at h

theorem userOk : prog.UserOk := ⟨by simp [prog], by simp [prog]⟩

theorem decUniv : DecUniv prog codecNew (fun _ => True) where
  noMap := by
    intro id e _ h
    match id with
    | 0 | 1 | 2 | 3 | 4 | 5 | 6 | 7 | 8 | 9 | 10 | 11 | 12 | 13 | 14 | 15 | 16 | 17 => simp [prog, shape] at h
    | n + 18 => simp [prog, shape] at h
  slice := by
    intro id e _ h
    match id with
    | 0 | 1 | 2 | 3 | 4 | 5 | 6 | 9 | 10 | 11 | 12 | 13 | 14 | 15 | 16 | 17 => simp [prog, shape] at h
    | 7 | 8 =>
      simp only [prog, shape, Shape.slice.injEq] at h
      subst h
      exact ⟨trivial, rfl⟩
    | n + 18 => simp [prog, shape] at h
  array := by
    intro id n e _ h
    match id with
    | 0 | 1 | 2 | 3 | 4 | 5 | 6 | 7 | 8 | 9 | 10 | 11 | 12 | 13 | 14 | 15 | 16 | 17 => simp [prog, shape] at h
    | n + 18 => simp [prog, shape] at h
  struct := by
    intro id fs _ h
    match id with
    | 0 | 1 | 2 | 3 | 4 | 7 | 8 | 9 | 10 | 15 => simp [prog, shape] at h
    | 5 | 6 | 11 | 12 | 13 | 14 | 16 | 17 =>
      simp only [prog, shape, Shape.struct.injEq, subNew, fooNew, msgNew] at h
      subst h
      simp only [List.mem_cons, List.not_mem_nil, or_false, forall_eq_or_imp, forall_eq]
      simp only [OkTy, true_and]
      decide
    | n + 18 => simp [prog, shape] at h
  unmarsh := by simp [prog]
  disfix := fun _ => trivial
  impls := fun _ _ => trivial

/-- Whatever bytes are accepted as a `Msg`: comparing them with the encoding of what was read tells whether an encoder may
have written them. -/
example (bz : Bytes) (v : Val) (hl : bz.length < 2 ^ 63) (h : unmarshalBare prog codecNew 16 (.base 14) (prog.zero 14) bz = .ok v) :
    (∃ k, marshalBare prog codecNew k (.base 14) v = .ok bz) ↔
      ∃ k v₀, HasTy prog (.base 14) v₀ ∧ marshalBare prog codecNew k (.base 14) v₀ = .ok bz :=
  C87_strict_partial univ zeroOk typed userTotal prefix4 stable userOk decUniv rfl (by simp [EvoDemo.S]) trivial hl h

example (bz : Bytes) (v : Val) (h : unmarshalBare prog codecNew 16 (.base 14) (prog.zero 14) bz = .ok v) :
    ∃ k bz', marshalBare prog codecNew k (.base 14) v = .ok bz' ∧ (bz'.length < 2 ^ 63 →
      ∃ u, unmarshalBare prog codecNew (2 * k) (.base 14) (prog.zero 14) bz' = .ok u ∧
        marshalBare prog codecNew (k + 1) (.base 14) u = .ok bz') :=
  C87_canonical_partial fewFields univ zeroOk typed userTotal prefix4 stable rewritable userOk decUniv rfl (by simp [EvoDemo.S]) trivial h

end EvoDemo

/-- C87 is violated: the decoder accepts other byte strings for the same value: a number in more bytes than needed, a field
that should have been left out, a field the type does not have. -/
theorem C87_malleable_refuted : ∃ v, marshalBare EvoDemo.prog EvoDemo.codecNew 9 (.base 6) v = .ok [8, 5, 18, 1, 0x78] ∧
    ∀ bz ∈ [[8, 5, 18, 1, 0x78], [8, 0x85, 0, 18, 1, 0x78], [8, 5, 18, 1, 0x78, 24, 0], [8, 5, 18, 1, 0x78, 32, 7]],
      unmarshalBare EvoDemo.prog EvoDemo.codecNew 9 (.base 6) (EvoDemo.prog.zero 6) bz = .ok v :=
  ⟨.struct [.int 5, .str [0x78], .bool false], by decide +kernel⟩

end Amino
