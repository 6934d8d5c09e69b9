import Verif.PropsReg

/-!
# C27: which bytes of the digest
-/

namespace Amino

/-- `b` is `n` bytes of which the first is not zero. -/
def Spec.Marked (n : Nat) (b : Bytes) : Prop := b.length = n ∧ 0 < n ∧ b.head? ≠ some 0

/-- The digest: zero bytes, the three disambiguation bytes, zero bytes, the four prefix bytes, and the rest. -/
def Spec.DigestOf (d p h : Bytes) : Prop :=
  ∃ i j r, h = List.replicate i 0 ++ (d ++ (List.replicate j 0 ++ (p ++ r))) ∧ Marked 3 d ∧ Marked 4 p

open Spec

theorem skipZeros_iff (b r : Bytes) : skipZeros b = .ok r ↔ ∃ i, b = List.replicate i 0 ++ r ∧ r ≠ [] ∧ r.head? ≠ some 0 := by
  induction b with
  | nil =>
    constructor
    · intro h; cases h
    · rintro ⟨i, h, hr, _⟩
      have := congrArg List.length h
      simp only [List.length_nil, List.length_append] at this
      exact absurd (List.eq_nil_of_length_eq_zero (by omega)) hr
  | cons x b ih =>
    rw [skipZeros]
    by_cases hx : x = 0
    · subst hx
      rw [if_pos rfl, ih]
      constructor
      · rintro ⟨i, rfl, h⟩; exact ⟨i + 1, rfl, h⟩
      · rintro ⟨i, e, h1, h2⟩
        cases i with
        | zero =>
          rw [List.replicate_zero, List.nil_append] at e
          subst e; exact absurd rfl h2
        | succ i =>
          rw [List.replicate_succ, List.cons_append] at e
          exact ⟨i, (List.cons.inj e).2, h1, h2⟩
    · rw [if_neg hx]
      constructor
      · intro h; cases h
        exact ⟨0, rfl, by simp, by simpa using hx⟩
      · rintro ⟨i, e, h1, h2⟩
        cases i with
        | zero => rw [e]; rfl
        | succ i => exact absurd (List.cons.inj e).1 hx

theorem marked_skip {n : Nat} {b : Bytes} (h : Marked n b) (i : Nat) (r : Bytes) : skipZeros (List.replicate i 0 ++ (b ++ r)) = .ok (b ++ r) := by
  obtain ⟨h1, h2, h3⟩ := h
  refine (skipZeros_iff _ _).2 ⟨i, rfl, ?_, ?_⟩ <;> (cases b with
    | nil => simp at h1; omega
    | cons x b => first | exact List.cons_ne_nil _ _ | exact h3)

theorem skip_marked {b r : Bytes} (h : skipZeros b = .ok r) (n : Nat) (hn : 0 < n) (hl : ¬ r.length < n) : Marked n (r.take n) := by
  obtain ⟨_, _, h1, h2⟩ := (skipZeros_iff _ _).1 h
  refine ⟨by rw [List.length_take]; omega, hn, ?_⟩
  cases r with
  | nil => exact absurd rfl h1
  | cons x r =>
    cases n with
    | zero => omega
    | succ n => simpa using h2

/-- C27, exactly: the bytes of a name are the first three of its digest from the first that is not zero, and the first four
behind these from the first that is not zero.  Missing for the full statement: digests without such bytes, for which there is
a panic. -/
theorem C27_exact_partial (H : Bytes → Bytes) (name d p : Bytes) : nameToDisfix H name = .ok (d, p) ↔ DigestOf d p (H name) := by
  unfold nameToDisfix
  constructor
  · intro h
    obtain ⟨r, h1, h⟩ := Res.bind_eq_ok h
    split at h
    · cases h
    · rename_i hr
      obtain ⟨r', h2, h⟩ := Res.bind_eq_ok h
      split at h
      · cases h
      · rename_i hr'
        cases h
        obtain ⟨i, e, _⟩ := (skipZeros_iff _ _).1 h1
        obtain ⟨j, e', _⟩ := (skipZeros_iff _ _).1 h2
        refine ⟨i, j, r'.drop 4, ?_, skip_marked h1 3 (by decide) hr, skip_marked h2 4 (by decide) hr'⟩
        rw [List.take_append_drop, ← e', List.take_append_drop, ← e]
  · rintro ⟨i, j, r, e, hd, hp⟩
    rw [e, marked_skip hd, Res.bind_ok, if_neg (by rw [List.length_append, hd.1]; omega)]
    have e3 : (d ++ (List.replicate j 0 ++ (p ++ r))).drop 3 = List.replicate j 0 ++ (p ++ r) := by rw [← hd.1, List.drop_left]
    rw [e3, marked_skip hp, Res.bind_ok, if_neg (by rw [List.length_append, hp.1]; omega)]
    have e4 : (d ++ (List.replicate j 0 ++ (p ++ r))).take 3 = d := by rw [← hd.1, List.take_left]
    have e5 : (p ++ r).take 4 = p := by rw [← hp.1, List.take_left]
    rw [e4, e5]

/-- If there are no such bytes, `NameToDisfix` panics. -/
theorem C27_panics (H : Bytes → Bytes) (name : Bytes) : nameToDisfix H name = .panic .index ↔ ∀ d p, ¬ DigestOf d p (H name) := by
  have hs : ∀ b, skipZeros b = .panic .index ∨ ∃ r, skipZeros b = .ok r := by
    intro b
    induction b with
    | nil => exact .inl rfl
    | cons x b ih =>
      rw [skipZeros]
      split
      · exact ih
      · exact .inr ⟨_, rfl⟩
  have h2 : nameToDisfix H name = .panic .index ∨ ∃ x, nameToDisfix H name = .ok x := by
    unfold nameToDisfix
    rcases hs (H name) with h | ⟨r, h⟩
    · rw [h]; exact .inl rfl
    · rw [h, Res.bind_ok]
      split
      · exact .inl rfl
      · rcases hs (r.drop 3) with h | ⟨r', h⟩
        · rw [h]; exact .inl rfl
        · rw [h, Res.bind_ok]
          split
          · exact .inl rfl
          · exact .inr ⟨_, rfl⟩
  constructor
  · intro h d p hd
    rw [(C27_exact_partial H name d p).2 hd] at h
    cases h
  · intro h
    rcases h2 with h2 | ⟨⟨d, p⟩, h2⟩
    · exact h2
    · exact absurd ((C27_exact_partial H name d p).1 h2) (h d p)

/-- `00 07 07 07 00 00 01 02 03 04 09 …`. -/
example : DigestOf [7, 7, 7] [1, 2, 3, 4] (Demo.hash [102]) :=
  ⟨1, 2, List.replicate 22 9, by decide, ⟨rfl, by decide, by decide⟩, ⟨rfl, by decide, by decide⟩⟩

end Amino
