import Verif.JOrderLemmas
import Verif.JDemo

/-!
# C108: the order in which Go walks maps

`SameVal v v'`: the same value, but for the order in which its maps are walked.
-/

namespace Amino
open Spec

variable {Γ : Prog} {c : Codec} {J : JLib} {S : TId → Prop}

/-- C108: whether MarshalJSON succeeds does not depend on the order in which maps are walked, and the texts differ at most in the
order of members of objects; in particular they consist of the same bytes. -/
theorem C108_order (hO : OrderBlind Γ J) {t : Ty} {v v' : Val} (h : SameVal v v') {fuel : Nat} {b : Bytes}
    (he : marshalJSON Γ c J fuel (some (t, v)) = .ok b) :
    ∃ b', marshalJSON Γ c J fuel (some (t, v')) = .ok b' ∧ Reordered b b' ∧ b.Perm b' := by
  suffices ∃ b', marshalJSON Γ c J fuel (some (t, v')) = .ok b' ∧ Reordered b b' by
    obtain ⟨b', h1, h2⟩ := this
    exact ⟨b', h1, h2, h2.perm⟩
  unfold marshalJSON at he ⊢
  obtain ⟨u, hu, he⟩ := Res.bind_eq_ok he
  obtain ⟨x, hx, he⟩ := Res.bind_eq_ok he
  obtain ⟨y, hy, hxy⟩ := jenc_order hO fuel _ _ _ _ _ _ h hx
  simp only [hu, hy, Res.bind]
  cases hc : c.conc? t.deref with
  | none => rw [hc] at he; cases he; exact ⟨y, rfl, hxy⟩
  | some ci => rw [hc] at he; cases he; exact ⟨_, rfl, reordered_wrap hxy⟩

/-- C108: UnmarshalJSON makes the same value of all of these texts, provided that the keys of maps are valid UTF-8.  Partial: the
universe is the one of C46, and keys that are not valid UTF-8 are excluded (see `C108_keys_refuted`). -/
theorem C108_reading_partial (hO : OrderBlind Γ J) (hU : JUniv Γ c J false S) (hL : LibOk J) (hT : Γ.Typed) (hZ : ZeroOk Γ)
    (hum : UserTotal Γ) (hM : ∀ {id rid m v r}, Γ.marsh id = some (rid, m) → TextKeys v → m v = .ok r → TextKeys r)
    {fuel : Nat} {t : Ty} {v v' : Val} {b b' : Bytes} (hS : JOk Γ S t) (ht : HasTy Γ t v)
    (hN : ∀ ci, c.conc? t.deref = some ci → PlainName ci.name) (hk : TextKeys v) (h : SameVal v v')
    (he : marshalJSON Γ c J fuel (some (t, v)) = .ok b) (he' : marshalJSON Γ c J fuel (some (t, v')) = .ok b') :
    ∃ w w', SameVal w w' ∧ ∀ g, fuel ≤ g →
      unmarshalJSON Γ c J g t (zeroOf Γ t) b = .ok w ∧ unmarshalJSON Γ c J g t (zeroOf Γ t) b' = .ok w' := by
  obtain ⟨w, hw, _, hr⟩ := C46_json_roundtrip_partial hU hL hT hZ hum hS ht hN he
  obtain ⟨w', hw', _, hr'⟩ := C46_json_roundtrip_partial hU hL hT hZ hum hS (hasTy_same h ht) hN he'
  obtain ⟨w1, hw1, hs⟩ := jnorm_order (c := c) hO hM fuel _ _ _ _ h hk hw
  rw [hw'] at hw1
  cases hw1
  exact ⟨w, w', hs, fun g hg => ⟨hr g hg, hr' g hg⟩⟩

namespace JDemo

theorem small_struct1 {v : Val} (h : SmallMaps v) : SmallMaps (.struct [v]) := .struct (by simpa using h)

theorem orderBlind : OrderBlind prog lib where
  zero := by
    intro id
    match id with
    | 0 | 1 | 15 => exact .int
    | 2 => exact .str
    | 3 | 5 | 6 | 11 => exact .nil
    | 4 =>
      refine .struct ?_
      simp only [List.mem_cons, List.not_mem_nil, or_false, forall_eq_or_imp, forall_eq]
      exact ⟨.int, .str, .nil, .nil, .nil, .time, .nil, .nil, .list (by simp; exact .int), small_struct1 .int, .bool, .int⟩
    | 7 | 12 => exact small_struct1 .int
    | 8 => exact .time
    | 9 => exact .f64
    | 10 => exact small_struct1 .f64
    | 13 => exact small_struct1 .str
    | 14 => exact .list (by simp; exact .int)
    | n + 16 => exact .bool
  marsh := by
    intro id rid m v v' r hm hv hr
    simp only [prog] at hm
    split at hm
    · cases hm
      unfold centsOut at hr
      split at hr
      · rw [sameVal_small hv.symm (small_struct1 .int)]
        cases hr
        exact ⟨_, rfl, .refl⟩
      · cases hr
    · cases hm
  unmarsh := by
    intro id rid um p r r' w hm hv hr
    simp only [prog] at hm
    split at hm
    · cases hm
      unfold centsIn at hr
      split at hr
      · rw [sameVal_int hv]
        cases hr
        exact ⟨_, rfl, .refl⟩
      · cases hr
    · cases hm
  json := by intro id a m v v' b h; cases h

/-- A map of two entries, walked in the two orders. -/
def ab : Val := .map [([0x61], .int 1), ([0x62], .int 2)]
def ba : Val := .map [([0x62], .int 2), ([0x61], .int 1)]

theorem ab_ba : SameVal ab ba := by
  refine .map (m := [([0x61], .int 1), ([0x62], .int 2)]) rfl ?_ ?_ (List.Perm.swap _ _ _)
  · simp
  · simp only [List.zip_cons_cons, List.zip_nil_left, List.mem_cons, List.not_mem_nil, or_false, forall_eq_or_imp, forall_eq]
    exact ⟨.refl, .refl⟩

theorem ab_typed : HasTy prog (.base mapT) ab := by
  refine .map (e := .base int64T) rfl ?_
  simp
  exact ⟨.int rfl (by decide), .int rfl (by decide)⟩

theorem ab_keys : TextKeys ab := by
  refine .map (by decide) ?_ ?_
  · simp only [List.mem_cons, List.not_mem_nil, or_false, forall_eq_or_imp, forall_eq]
    exact ⟨utf8_ascii (by decide), utf8_ascii (by decide)⟩
  · simp only [List.mem_cons, List.not_mem_nil, or_false, forall_eq_or_imp, forall_eq]
    exact ⟨.int, .int⟩

/-- `{"a":"1","b":"2"}` -/
def abText : Bytes := [0x7b, 0x22, 0x61, 0x22, 0x3a, 0x22, 0x31, 0x22, 0x2c, 0x22, 0x62, 0x22, 0x3a, 0x22, 0x32, 0x22, 0x7d]
/-- `{"b":"2","a":"1"}` -/
def baText : Bytes := [0x7b, 0x22, 0x62, 0x22, 0x3a, 0x22, 0x32, 0x22, 0x2c, 0x22, 0x61, 0x22, 0x3a, 0x22, 0x31, 0x22, 0x7d]

/-- The hypotheses of C108 are met, by two texts that are different. -/
example : ∃ b', marshalJSON prog codec lib 5 (some (.base mapT, ba)) = .ok b' ∧ Reordered abText b' ∧ abText.Perm b' :=
  C108_order orderBlind ab_ba (by decide +kernel)

example : marshalJSON prog codec lib 5 (some (.base mapT, ba)) = .ok baText := by decide +kernel

example : ∃ w w', SameVal w w' ∧ ∀ g, 5 ≤ g → unmarshalJSON prog codec lib g (.base mapT) (zeroOf prog (.base mapT)) abText = .ok w ∧
    unmarshalJSON prog codec lib g (.base mapT) (zeroOf prog (.base mapT)) baText = .ok w' :=
  C108_reading_partial (S := JDemo.S false) orderBlind (univ false) libOk typed zeroOk user_total
    (by
      intro id rid m v r hm _ hr
      simp only [prog] at hm
      split at hm
      · cases hm
        unfold centsOut at hr
        split at hr
        · cases hr; exact .int
        · cases hr
      · cases hm)
    (fuel := 5) (base_ok (by decide) (by decide)) ab_typed (by intro ci h; rw [(conc_foo h).1]; exact plain_f) ab_keys ab_ba
    (by decide +kernel) (by decide +kernel)

/-- `map[string]int64{"\xff": 1, "\xfe": 2}`, walked in the two orders. -/
def fffe : Val := .map [([0xff], .int 1), ([0xfe], .int 2)]
def feff : Val := .map [([0xfe], .int 2), ([0xff], .int 1)]

end JDemo

/-- C108 is violated for keys that are not valid UTF-8: both keys of the map are written as U+FFFD, so that the value read back is
the one written last, which depends on the order in which Go happened to walk the map. -/
theorem C108_keys_refuted : SameVal JDemo.fffe JDemo.feff ∧ HasTy JDemo.prog (.base JDemo.mapT) JDemo.fffe ∧
    ∃ b b', marshalJSON JDemo.prog JDemo.codec JDemo.lib 5 (some (.base JDemo.mapT, JDemo.fffe)) = .ok b ∧
      marshalJSON JDemo.prog JDemo.codec JDemo.lib 5 (some (.base JDemo.mapT, JDemo.feff)) = .ok b' ∧
      unmarshalJSON JDemo.prog JDemo.codec JDemo.lib 5 (.base JDemo.mapT) .nil b = .ok (.map [([0xef, 0xbf, 0xbd], .int 2)]) ∧
      unmarshalJSON JDemo.prog JDemo.codec JDemo.lib 5 (.base JDemo.mapT) .nil b' = .ok (.map [([0xef, 0xbf, 0xbd], .int 1)]) ∧
      ¬ SameVal (.map [([0xef, 0xbf, 0xbd], .int 2)]) (.map [([0xef, 0xbf, 0xbd], .int 1)]) := by
  refine ⟨?_, ?_, _, _, rfl, rfl, by decide +kernel, by decide +kernel, ?_⟩
  · refine .map (m := [([0xff], .int 1), ([0xfe], .int 2)]) rfl ?_ ?_ (List.Perm.swap _ _ _)
    · simp
    · simp only [List.zip_cons_cons, List.zip_nil_left, List.mem_cons, List.not_mem_nil, or_false, forall_eq_or_imp, forall_eq]
      exact ⟨.refl, .refl⟩
  · refine .map (e := .base JDemo.int64T) rfl ?_
    simp
    exact ⟨.int rfl (by decide), .int rfl (by decide)⟩
  · intro h
    have hs : SmallMaps (.map [([0xef, 0xbf, 0xbd], .int 1)]) := .map (by simp) (by simp; exact .int)
    have := sameVal_small h hs
    simp at this

end Amino
