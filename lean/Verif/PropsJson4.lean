import Verif.PropsJson
import Verif.JsonFix

/-!
# C73, C74: what a JSON text determines, repeated round trips
-/

namespace Amino
open Spec

variable {Γ : Prog} {c : Codec} {J : JLib} {S : TId → Prop}

/-- C73: values of a type that MarshalJSON writes the same way come back as the same value. -/
theorem C73_json_injective (hU : JUniv Γ c J false S) (hL : LibOk J) (hT : Γ.Typed) (hZ : ZeroOk Γ)
    (hum : UserTotal Γ) {f1 f2 : Nat} {t : Ty} {v1 v2 : Val} {bz : Bytes} (hS : JOk Γ S t) (ht1 : HasTy Γ t v1)
    (ht2 : HasTy Γ t v2) (hN : ∀ ci, c.conc? t.deref = some ci → PlainName ci.name)
    (he1 : marshalJSON Γ c J f1 (some (t, v1)) = .ok bz) (he2 : marshalJSON Γ c J f2 (some (t, v2)) = .ok bz) :
    ∃ w, jnorm Γ c f1 t v1 = some w ∧ jnorm Γ c f2 t v2 = some w := by
  obtain ⟨w1, h1, _, d1⟩ := C46_json_roundtrip_partial hU hL hT hZ hum hS ht1 hN he1
  obtain ⟨w2, h2, _, d2⟩ := C46_json_roundtrip_partial hU hL hT hZ hum hS ht2 hN he2
  have e := (d1 (max f1 f2) (Nat.le_max_left _ _)).symm.trans (d2 (max f1 f2) (Nat.le_max_right _ _))
  cases e
  exact ⟨w1, h1, h2⟩

/-- C73: different values that JSON has an exact notation for have different texts. -/
theorem C73_json_exact_injective (hU : JUniv Γ c J false S) (hL : LibOk J) (hT : Γ.Typed) (hZ : ZeroOk Γ)
    (hum : UserTotal Γ) {f1 f2 : Nat} {t : Ty} {v1 v2 : Val} {bz : Bytes} (hS : JOk Γ S t) (ht1 : HasTy Γ t v1)
    (ht2 : HasTy Γ t v2) (hN : ∀ ci, c.conc? t.deref = some ci → PlainName ci.name)
    (hx1 : Exact Γ c t v1) (hx2 : Exact Γ c t v2)
    (he1 : marshalJSON Γ c J f1 (some (t, v1)) = .ok bz) (he2 : marshalJSON Γ c J f2 (some (t, v2)) = .ok bz) :
    v1 = v2 := by
  obtain ⟨w, h1, h2⟩ := C73_json_injective hU hL hT hZ hum hS ht1 ht2 hN he1 he2
  rw [← jnorm_exact hx1 h1, ← jnorm_exact hx2 h2]

theorem append_quote {a b r s : Bytes} (ha : ∀ x ∈ a, x ≠ 0x22) (hb : ∀ x ∈ b, x ≠ 0x22)
    (h : a ++ 0x22 :: r = b ++ 0x22 :: s) : a = b ∧ r = s := by
  induction a generalizing b with
  | nil =>
    cases b with
    | nil => simpa using h
    | cons y b =>
      simp only [List.nil_append, List.cons_append, List.cons.injEq] at h
      exact absurd h.1.symm (hb y (by simp))
  | cons x a ih =>
    cases b with
    | nil =>
      simp only [List.nil_append, List.cons_append, List.cons.injEq] at h
      exact absurd h.1 (ha x (by simp))
    | cons y b =>
      simp only [List.cons_append, List.cons.injEq] at h
      obtain ⟨h1, h2⟩ := ih (fun z hz => ha z (by simp [hz])) (fun z hz => hb z (by simp [hz])) h.2
      exact ⟨by rw [h.1, h1], h2⟩

theorem wrapText_inj {n1 n2 b1 b2 : Bytes} (h1 : PlainName n1) (h2 : PlainName n2) (h : wrapText n1 b1 = wrapText n2 b2) :
    n1 = n2 ∧ b1 = b2 := by
  unfold wrapText wrapMid at h
  simp only [List.append_assoc, List.append_cancel_left_eq, List.cons_append, List.nil_append] at h
  obtain ⟨e1, e2⟩ := append_quote (fun x hx => (h1.2.2 x hx).2.1) (fun x hx => (h2.2.2 x hx).2.1) h
  simp only [List.cons.injEq, true_and] at e2
  exact ⟨e1, List.append_inj_left' e2 rfl⟩

/-- C73: values of registered types with the same text have the same type. -/
theorem C73_json_type {f1 f2 : Nat} {t1 t2 : Ty} {v1 v2 : Val} {bz : Bytes} {ci1 ci2 : ConcInfo}
    (h1 : c.conc? t1.deref = some ci1) (h2 : c.conc? t2.deref = some ci2) (hp1 : PlainName ci1.name)
    (hp2 : PlainName ci2.name) (hn1 : c.name? ci1.name = some ci1) (hn2 : c.name? ci2.name = some ci2)
    (he1 : marshalJSON Γ c J f1 (some (t1, v1)) = .ok bz) (he2 : marshalJSON Γ c J f2 (some (t2, v2)) = .ok bz) :
    t1.deref = t2.deref := by
  obtain ⟨_, b1, _, e1⟩ := marshalJSON_inv he1
  obtain ⟨_, b2, _, e2⟩ := marshalJSON_inv he2
  rw [h1] at e1
  rw [h2] at e2
  have hw := (wrapText_inj hp1 hp2 (e1.symm.trans e2)).1
  rw [hw, hn2] at hn1
  cases hn1
  exact (conc?_tid h1).symm.trans (conc?_tid h2)

/-- C74: what a JSON round trip made of a value is exactly what any further round trip makes of it.  Partial: for types
without pointers to slices (see `C74_refuted`), with MarshalAmino methods as `Settled` asks for. -/
theorem C74_json_settles_partial (hU : JUniv Γ c J false S) (hP : Settled Γ S) (hL : LibOk J) (hT : Γ.Typed) (hZ : ZeroOk Γ)
    (hum : UserTotal Γ) {f g f' : Nat} {t : Ty} {v w : Val} {bz bz' : Bytes} (hS : JOk Γ S t) (hs : SliceFree Γ t)
    (ht : HasTy Γ t v) (hN : ∀ ci, c.conc? t.deref = some ci → PlainName ci.name)
    (he : marshalJSON Γ c J f (some (t, v)) = .ok bz) (hg : f ≤ g) (hd : unmarshalJSON Γ c J g t (zeroOf Γ t) bz = .ok w)
    (he' : marshalJSON Γ c J f' (some (t, w)) = .ok bz') :
    ∀ g', f' ≤ g' → unmarshalJSON Γ c J g' t (zeroOf Γ t) bz' = .ok w := by
  obtain ⟨w1, h1, ht1, d1⟩ := C46_json_roundtrip_partial hU hL hT hZ hum hS ht hN he
  rw [d1 g hg] at hd
  cases hd
  obtain ⟨htw, hx, _⟩ := jnorm_backs hU hT hP hZ f t v w hS hs ht h1
  exact fun g' hg' => C46_json_exact_partial hU hL hT hZ hum hS htw hN hx he' hg'

/-- C74 is violated as stated: a pointer to an empty slice is written as `[]`, comes back as a pointer to a nil slice, is
then written as `null`, and comes back as a nil pointer. -/
theorem C74_refuted :
    marshalJSON JDemo.prog JDemo.codec JDemo.lib 3 (some (.ptr (.base JDemo.int64sT), .ptr (.list []))) = .ok [0x5b, 0x5d] ∧
    unmarshalJSON JDemo.prog JDemo.codec JDemo.lib 3 (.ptr (.base JDemo.int64sT)) .nil [0x5b, 0x5d] = .ok (.ptr .nil) ∧
    marshalJSON JDemo.prog JDemo.codec JDemo.lib 3 (some (.ptr (.base JDemo.int64sT), .ptr .nil)) = .ok jNull ∧
    unmarshalJSON JDemo.prog JDemo.codec JDemo.lib 3 (.ptr (.base JDemo.int64sT)) .nil jNull = .ok .nil := by
  refine ⟨?_, ?_, ?_, ?_⟩ <;> decide +kernel

namespace JDemo

theorem settled : Settled prog (JDemo.S false) where
  law := by
    intro id rid m um r v _ hm hu hr hv
    simp only [prog] at hm hu
    split at hm
    · rename_i h
      cases hm
      rw [if_pos h] at hu
      cases hu
      obtain ⟨i, rfl⟩ := hasTy_int64 hr
      cases hv
      rfl
    · cases hm
  repr := by
    intro id rid m f r _ hm hr
    simp only [prog] at hm
    split at hm
    · cases hm
      cases f with
      | zero => rfl
      | succ f => cases r <;> rfl
    · cases hm
  kind := by
    intro id rid m _ hm
    simp only [prog] at hm
    split at hm
    · rename_i h
      subst h
      exact ⟨by decide, fun e => by simp [prog, shape, centsT], fun n e => by simp [prog, shape, centsT]⟩
    · cases hm
  slice := by
    intro id e _ h
    match id with
    | 0 | 1 | 2 | 4 | 5 | 6 | 7 | 8 | 9 | 10 | 12 | 13 | 14 | 15 => simp [prog, shape] at h
    | 3 | 11 =>
      simp only [prog, shape, Shape.slice.injEq] at h
      subst h
      simp [SliceFree, Ty.isPtr]
    | n + 16 => simp [prog, shape] at h
  array := by
    intro id n e _ h
    rw [(shape_array h).2.2]
    simp [SliceFree, Ty.isPtr]
  map := by
    intro id e _ h
    rw [shape_map h]
    simp [SliceFree, Ty.isPtr]
  field := by
    intro id fs f _ h hf hv
    match id with
    | 0 | 1 | 2 | 3 | 5 | 6 | 8 | 9 | 11 | 14 | 15 => simp [prog, shape] at h
    | 4 | 7 | 10 | 12 | 13 =>
      simp only [prog, shape, Shape.struct.injEq] at h
      subst h
      intro hp e
      have : ∀ f ∈ recFields ++ flFields ++ [{ ty := .base int64T, opts := { jsonName := [0x4e] } },
          { ty := .base int64T, visible := false }, { ty := .base stringT, opts := { jsonName := [0x42] } }],
          f.ty.isPtr = true → f.ty.deref = int64T := by decide +kernel
      rw [this f (by simp only [List.mem_append, List.mem_cons] at hf ⊢; simp at hf ⊢; simp [hf]) hp]
      simp [prog, shape, int64T]
    | n + 16 => simp [prog, shape] at h

/-- Two spellings of the same: strings of bytes that are not UTF-8 have the same text. -/
example : ∃ w, jnorm prog codec 3 (.base stringT) (.str [0xff]) = some w ∧ jnorm prog codec 3 (.base stringT) (.str [0xfe]) = some w :=
  C73_json_injective (univ false) libOk typed zeroOk user_total (base_ok (by decide) (by decide)) (.str rfl) (.str rfl)
    (by intro ci h; rw [(conc_foo h).1]; exact plain_f) (f1 := 3) (f2 := 3) rfl (by decide +kernel)

/-- `Foo{9}` and `Foo{8}` have different texts. -/
example {f1 f2 : Nat} : marshalJSON prog codec lib f1 (some (.base fooT, .struct [.int 9])) =
      .ok (wrapText [0x66] [0x7b, 0x22, 0x4e, 0x22, 0x3a, 0x22, 0x39, 0x22, 0x7d]) →
    marshalJSON prog codec lib f2 (some (.base fooT, .struct [.int 8])) ≠
      .ok (wrapText [0x66] [0x7b, 0x22, 0x4e, 0x22, 0x3a, 0x22, 0x39, 0x22, 0x7d]) := by
  intro h1 h2
  have ht : ∀ i : Int, IntKind.int64.inRange i → HasTy prog (.base fooT) (.struct [.int i]) := by
    intro i hi
    refine .struct (fs := [{ ty := .base int64T, opts := { jsonName := [0x4e] } }]) rfl rfl ?_
    simp
    exact .int rfl hi
  have hx : ∀ i : Int, Exact prog codec (.base fooT) (.struct [.int i]) := by
    intro i
    refine .struct (fs := [{ ty := .base int64T, opts := { jsonName := [0x4e] } }]) rfl rfl rfl ?_ ?_
    · simp [FieldBack]
    · simp
      exact .int rfl rfl
  have := C73_json_exact_injective (univ false) libOk typed zeroOk user_total (base_ok (by decide) (by decide))
    (ht 9 (by decide)) (ht 8 (by decide)) (by intro ci h; rw [(conc_foo h).1]; exact plain_f) (hx 9) (hx 8) h1 h2
  simp at this

/-- A `Foo` and a `*Foo` with the same text. -/
example : (Ty.base fooT).deref = (Ty.ptr (.base fooT)).deref :=
  C73_json_type (Γ := prog) (J := lib) (c := codec) (ci1 := foo) (ci2 := foo) (f1 := 4) (f2 := 4) (v1 := .struct [.int 9])
    (v2 := .ptr (.struct [.int 9])) rfl rfl plain_f plain_f rfl rfl rfl (by decide +kernel)

/-- The text of `rec1` as it comes back. -/
example : ∃ bz', marshalJSON prog codec lib 5 (some (.base recT, rec1Back)) = .ok bz' ∧
    unmarshalJSON prog codec lib 5 (.base recT) (zeroOf prog (.base recT)) bz' = .ok rec1Back := by
  refine ⟨_, rfl, ?_⟩
  exact C74_json_settles_partial (univ false) settled libOk typed zeroOk user_total (f := 5) (g := 5) (f' := 5)
    (base_ok (by decide) (by decide)) (by simp [SliceFree, Ty.isPtr]) rec1_typed
    (by intro ci h; rw [(conc_foo h).1]; exact plain_f) rec1_marshals (Nat.le_refl _) (by decide +kernel) rfl 5 (Nat.le_refl _)

end JDemo

end Amino
