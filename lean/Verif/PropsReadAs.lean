import Verif.JReadAs

/-!
# C101: which JSON texts UnmarshalJSON accepts, and what it makes of them
-/

namespace Amino
open Spec

variable {Γ : Prog} {c : Codec} {J : JLib}

/-- UnmarshalJSON reads whatever the specification reads, given enough recursion. -/
theorem C101_accepts {t : Ty} {old v : Val} {bz : Bytes} (h : Reading Γ c J t old bz v) :
    ∃ N, ∀ g, N ≤ g → unmarshalJSON Γ c J g t old bz = .ok v := by
  cases h with
  | plain hb hk hc h =>
    obtain ⟨N, hN⟩ := jdec_complete h
    refine ⟨N, fun g hg => ?_⟩
    unfold unmarshalJSON
    rw [if_neg hb, known_iff.mp hk, hc]
    exact hN g hg
  | registered hk hc ha ho hw hn h =>
    obtain ⟨N, hN⟩ := jdec_complete h
    refine ⟨N, fun g hg => ?_⟩
    unfold unmarshalJSON
    have hb : bz ≠ [] := by
      rintro rfl
      obtain ⟨w1, w2, _, _, h⟩ := ha
      cases ho
      simp at h
    rw [if_neg hb, known_iff.mp hk, hc, wrapper_iff.mpr ⟨_, _, _, ha, ho, hw, rfl⟩]
    simp only [Res.bind]
    rw [if_neg (by simp [hn])]
    exact hN g hg

/-- **C101** UnmarshalJSON into a variable that holds `old` succeeds with `v` exactly if the specification reads the text as `v`. -/
theorem C101_exactly (hT : Γ.Typed) {t : Ty} {old v : Val} {bz : Bytes} (ht : HasTy Γ t old) :
    (∃ g, unmarshalJSON Γ c J g t old bz = .ok v) ↔ Reading Γ c J t old bz v := by
  constructor
  · rintro ⟨g, h⟩
    unfold unmarshalJSON at h
    split at h
    · cases h
    rename_i hb
    obtain ⟨_, hinfo, h⟩ := Res.bind_eq_ok h
    cases hc : c.conc? t.deref with
    | none =>
      rw [hc] at h
      exact .plain hb (known_iff.mpr hinfo) hc (jdec_sound hT g _ _ _ _ ht h)
    | some ci =>
      rw [hc] at h
      simp only at h
      obtain ⟨⟨name, data⟩, hd, h⟩ := Res.bind_eq_ok h
      simp only at h
      split at h
      · cases h
      rename_i hn
      obtain ⟨o, l, cs, ha, ho, hw, rfl⟩ := wrapper_iff.mp hd
      exact .registered (known_iff.mpr hinfo) hc ha ho hw (Decidable.of_not_not hn).symm (jdec_sound hT g _ _ _ _ ht h)
  · intro h
    obtain ⟨N, hN⟩ := C101_accepts h
    exact ⟨N, hN N (Nat.le_refl _)⟩

/-- No text has two readings. -/
theorem C101_unique {t : Ty} {old v v' : Val} {bz : Bytes} (h : Reading Γ c J t old bz v) (h' : Reading Γ c J t old bz v') :
    v = v' := by
  obtain ⟨N, hN⟩ := C101_accepts h
  obtain ⟨M, hM⟩ := C101_accepts h'
  have := (hN (N + M) (by omega)).symm.trans (hM (N + M) (by omega))
  cases this
  rfl

/-- A text without a reading is refused, however deep the recursion may go. -/
theorem C101_refuses (hT : Γ.Typed) {t : Ty} {old : Val} {bz : Bytes} (ht : HasTy Γ t old)
    (h : ∀ v, ¬ Reading Γ c J t old bz v) (g : Nat) (v : Val) : unmarshalJSON Γ c J g t old bz ≠ .ok v :=
  fun hg => h v ((C101_exactly hT ht).mp ⟨g, hg⟩)

/-! ## Concrete cases -/

namespace JDemo

/-- `{"type":"f","value":{"N":"5","N":" 6 "}}` into a `Foo` that holds 1: the last member counts, and the white space within the
quotes does no harm. -/
def fooText : Bytes :=
  [0x7b, 0x22, 0x74, 0x79, 0x70, 0x65, 0x22, 0x3a, 0x22, 0x66, 0x22, 0x2c, 0x22, 0x76, 0x61, 0x6c, 0x75, 0x65, 0x22, 0x3a,
    0x7b, 0x22, 0x4e, 0x22, 0x3a, 0x22, 0x35, 0x22, 0x2c, 0x22, 0x4e, 0x22, 0x3a, 0x22, 0x20, 0x36, 0x20, 0x22, 0x7d, 0x7d]

example : Reading prog codec lib (.base fooT) (.struct [.int 1]) fooText (.struct [.int 6]) :=
  (C101_exactly typed (.struct (fs := [{ ty := .base int64T, opts := { jsonName := [0x4e] } }]) rfl rfl
    (by simp only [List.zip_cons_cons, List.zip_nil_left, List.mem_singleton, forall_eq]
        exact .int (k := .int64) rfl (by decide)))).mp ⟨3, by decide +kernel⟩

/-- ` 5 ` into an `int32`, from the rules. -/
example : unmarshalJSON prog codec lib 1 (.base int32T) (.int 0) [0x20, 0x35, 0x20] = .ok (.int 5) := by decide +kernel
example : Reading prog codec lib (.base int32T) (.int 0) [0x20, 0x35, 0x20] (.int 5) :=
  .plain (by decide) (known_iff.mpr (by decide +kernel)) rfl
    (.int (k := .int32) (ds := [0x35]) (.inr ⟨rfl, rfl⟩) rfl (by decide) ⟨[0x20], [0x20], by simp [White], by simp [White], rfl⟩
      (show IntText (decVal [0x35]) [0x35] from .pos (.pos (by decide) (by decide) (by simp))) (by decide) (by decide))

/-- `"6` has no reading as an `int64`. -/
example (v : Val) : ¬ Reading prog codec lib (.base int64T) (.int 0) [0x22, 0x36] v := by
  intro h
  obtain ⟨N, hN⟩ := C101_accepts h
  have := hN (N + 1) (by omega)
  revert this
  rw [show unmarshalJSON prog codec lib (N + 1) (.base int64T) (.int 0) [0x22, 0x36] = .err .json from rfl]
  intro h; cases h

end JDemo
end Amino
