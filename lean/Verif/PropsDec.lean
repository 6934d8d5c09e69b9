import Verif.Demo
import Verif.FuelMono
import Verif.IntWire

/-!
# Properties C15, C16, C17, C35: decoding arbitrary bytes

All theorems quantify over the program `Γ` (types, methods), the codec, the target's type and old
content, and every byte string.
-/

namespace Amino
open Spec

/-- The number of bytes a decoding call reports is at most what it was given. -/
def FitsIn {α : Type} (bz : Bytes) : DRes α → Prop
  | .ok n _ => n ≤ bz.length
  | .err n _ => n ≤ bz.length
  | .panic _ => True
  | .oof => True

/-- C15: every (recursive) decoding step reports a count within the bytes it was given, and never hits
the "impossible slide" panic. -/
theorem C15_step_fits {Γ : Prog} (c : Codec) (hu : Γ.UserOk) (f : Nat) (t : Ty) (p : Val) (fo : FOpts)
    (bare : Bool) (bz : Bytes) :
    FitsIn bz (dec Γ c f t p fo bare bz) ∧ dec Γ c f t p fo bare bz ≠ .panic .slide := by
  have h := dec_fits (c := c) hu f t p fo bare bz
  unfold Post at h
  unfold FitsIn
  split at h <;> simp_all

/-- C15: a successful length delimited step consumes at least one byte. -/
theorem C15_step_progress {Γ : Prog} (c : Codec) (hu : Γ.UserOk) (f : Nat) (t : Ty) (p v : Val) (fo : FOpts)
    (bz : Bytes) (n : Nat) (hbz : bz ≠ []) (h : dec Γ c f t p fo false bz = .ok n v) : 0 < n := by
  have hh := dec_fits (c := c) hu f t p fo false bz
  rw [h] at hh
  simp [Post, lo, hbz] at hh
  omega

theorem decodeAll_no_slide {Γ : Prog} (c : Codec) (hu : Γ.UserOk) (f : Nat) (t : Ty) (p : Val)
    (bare : Bool) (bz : Bytes) : decodeAll Γ c f t p bare bz ≠ .panic .slide := by
  have := C15_step_fits c hu f t p { fnum := 1 } bare bz
  unfold decodeAll
  split
  · split <;> simp
  · simp
  · rename_i hp; rw [hp] at this; simpa using this.2
  · simp

theorem unmarshalContents_no_slide {Γ : Prog} (c : Codec) (hu : Γ.UserOk) (f : Nat) (t : Ty) (p : Val)
    (bz : Bytes) : unmarshalContents Γ c f t p bz ≠ .panic .slide := by
  unfold unmarshalContents
  split
  · exact decodeAll_no_slide c hu _ _ _ _ _
  split
  · simp
  split
  · split
    · simp
    · rename_i q hq; exact absurd hq ((decodeKey_safe bz).noPanic q)
    · simp
    · rename_i m fnum typ hk
      split
      · simp
      split
      · simp
      rw [if_pos (decodeKey_ok hk).2.2.2.2.2]
      exact decodeAll_no_slide c hu _ _ _ _ _
  · exact decodeAll_no_slide c hu _ _ _ _ _

theorem stripPrefix_noPanic (c : Codec) (id : TId) (bz : Bytes) (q : Pan) :
    stripPrefix c id bz ≠ .panic q := by
  unfold stripPrefix
  split
  · split
    · simp
    split <;> simp
  · simp

theorem stripPrefix_noOof (c : Codec) (id : TId) (bz : Bytes) : stripPrefix c id bz ≠ .oof := by
  unfold stripPrefix
  split
  · split
    · simp
    split <;> simp
  · simp

theorem stripPrefix_le {c : Codec} {id : TId} {bz bz' : Bytes} (h : stripPrefix c id bz = .ok bz') :
    bz'.length ≤ bz.length := by
  unfold stripPrefix at h
  split at h
  · split at h
    · simp at h
    split at h
    · simp at h
    · simp at h; subst h; simp
  · simp at h; subst h; exact Nat.le_refl _

/-- C15: `UnmarshalBinaryBare` never panics with "impossible slide". -/
theorem C15_unmarshal_no_slide {Γ : Prog} (c : Codec) (hu : Γ.UserOk) (f : Nat) (t : Ty) (p : Val)
    (bz : Bytes) : unmarshalBare Γ c f t p bz ≠ .panic .slide := by
  unfold unmarshalBare
  cases hg : getInfo Γ c t.deref with
  | err => simp
  | oof => simp
  | panic q => simpa using infoPanic q hg
  | ok =>
    rw [Res.bind_ok]
    cases hs : stripPrefix c t.deref bz with
    | ok bz' => exact unmarshalContents_no_slide c hu _ _ _ _
    | panic q => exact absurd hs (stripPrefix_noPanic _ _ _ _)
    | _ => simp

theorem C15_unmarshalLP_no_slide {Γ : Prog} (c : Codec) (hu : Γ.UserOk) (f : Nat) (t : Ty) (p : Val)
    (bz : Bytes) : unmarshalLP Γ c f t p bz ≠ .panic .slide := by
  unfold unmarshalLP
  split
  · simp
  simp only
  split
  · simp
  split
  · simp
  split
  · simp
  exact C15_unmarshal_no_slide c hu _ _ _ _

example : Demo.prog.UserOk ∧
    dec Demo.prog Demo.codec 5 (.base Demo.msgT) (Demo.zero Demo.msgT) {} true [8, 5, 18, 200] =
      .err 3 .bufTooSmall := ⟨Demo.prog_user, by decide +kernel⟩

/-! ## C16 -/

theorem typed_out {Q : Pan → Prop} {V : Val → Prop} {L N : Nat} {r : DRes Val} (h : Post Q V L N r) :
    (∀ p, r = .panic p → Q p) ∧ (∀ n v, r = .ok n v → V v) := by
  cases r <;> simp_all [Post]

theorem decodeAll_typed {Γ : Prog} {c : Codec} {S : TId → Prop} {Q : Pan → Prop} (hT : Γ.Typed)
    (hu : Γ.UserOk) (hS : DecUniv Γ c S) (hres : ResidOk Γ c Q) (hq : Q .user) (f : Nat) (t : Ty) (p : Val)
    (ht : OkTy Γ S t) (hp : HasTy Γ t p) (bare : Bool) (bz : Bytes) :
    (∀ q, decodeAll Γ c f t p bare bz = .panic q → Q q) ∧
    (∀ v, decodeAll Γ c f t p bare bz = .ok v → HasTy Γ t v) := by
  have := typed_out (dec_typed hT hu hS hres hq f t p { fnum := 1 } bare bz ht hp)
  unfold decodeAll
  split
  · rename_i n v h
    split
    · simp
    · simp; exact this.2 _ _ h
  · simp
  · rename_i q h; simp; exact this.1 _ h
  · simp

theorem unmarshalContents_typed {Γ : Prog} {c : Codec} {S : TId → Prop} {Q : Pan → Prop} (hT : Γ.Typed)
    (hu : Γ.UserOk) (hS : DecUniv Γ c S) (hres : ResidOk Γ c Q) (hq : Q .user) (f : Nat) (t : Ty) (p : Val)
    (ht : OkTy Γ S t) (hp : HasTy Γ t p) (hl : ptrToListPanics Γ t p = false) (bz : Bytes) :
    (∀ q, unmarshalContents Γ c f t p bz = .panic q → Q q) ∧
    (∀ v, unmarshalContents Γ c f t p bz = .ok v → HasTy Γ t v) := by
  have key := fun bare bz => decodeAll_typed hT hu hS hres hq f t p ht hp bare bz
  unfold unmarshalContents
  split
  · exact key _ _
  rw [hl]
  simp only [Bool.false_eq_true, if_false]
  split
  · split
    · simp
    · rename_i q hq; exact absurd hq ((decodeKey_safe bz).noPanic q)
    · simp
    · rename_i m fnum typ hk
      split
      · simp
      split
      · simp
      rw [if_pos (decodeKey_ok hk).2.2.2.2.2]
      exact key _ _
  · exact key _ _

theorem unmarshalBare_typed {Γ : Prog} {c : Codec} {S : TId → Prop} {Q : Pan → Prop} (hT : Γ.Typed)
    (hu : Γ.UserOk) (hS : DecUniv Γ c S) (hres : ResidOk Γ c Q) (hq : Q .user) (f : Nat) (t : Ty) (p : Val)
    (ht : OkTy Γ S t) (hp : HasTy Γ t p) (hl : ptrToListPanics Γ t p = false) (bz : Bytes) :
    (∀ q, unmarshalBare Γ c f t p bz = .panic q → Q q) ∧
    (∀ v, unmarshalBare Γ c f t p bz = .ok v → HasTy Γ t v) := by
  unfold unmarshalBare
  cases hg : getInfo Γ c t.deref with
  | err => simp
  | oof => simp
  | panic q => simp; exact getInfo_noPanic hS ht.1 q hg
  | ok =>
    rw [Res.bind_ok]
    cases hs : stripPrefix c t.deref bz with
    | ok bz' => exact unmarshalContents_typed hT hu hS hres hq f t p ht hp hl _
    | panic q => exact absurd hs (stripPrefix_noPanic _ _ _ _)
    | _ => simp

/-- C16, what holds of the unchanged code: on every byte string, unmarshalling into a variable of a
supported type (closed under components: no maps, no pointers to interfaces, no untagged floats, no
named byte elements) panics only in user methods or when a registered concrete type named by the bytes
does not implement the target interface.
Missing for the full C16: the second panic does occur, see `C16_refuted`; the target must not be a
non-nil pointer to a list behind the outer pointer, see `C16_refuted_list`. -/
theorem C16_panics_partial {Γ : Prog} {c : Codec} {S : TId → Prop} (hT : Γ.Typed) (hu : Γ.UserOk)
    (hS : DecUniv Γ c S) (f : Nat) (t : Ty) (p : Val) (ht : OkTy Γ S t) (hp : HasTy Γ t p)
    (hl : ptrToListPanics Γ t p = false) (bz : Bytes) (q : Pan)
    (h : unmarshalBare Γ c f t p bz = .panic q) : q = .user ∨ q = .notAssignable :=
  (unmarshalBare_typed (Q := fun q => q = .user ∨ q = .notAssignable) hT hu hS
    (fun _ _ _ _ _ _ => .inr (.inr rfl)) (.inl rfl) f t p ht hp hl bz).1 q h

/-- C16, if moreover every concrete type that can be named implements the interface being decoded: only
user methods panic. -/
theorem C16_noPanic_partial {Γ : Prog} {c : Codec} {S : TId → Prop} (hT : Γ.Typed) (hu : Γ.UserOk)
    (hS : DecUniv Γ c S)
    (himp : ∀ id ii, c.iface? id = some ii →
      (∀ ci ∈ ii.impls, Γ.implements ci.dynTy id = true) ∧
      (∀ df ci, c.disfix? df = some ci → Γ.implements ci.dynTy id = true))
    (f : Nat) (t : Ty) (p : Val) (ht : OkTy Γ S t) (hp : HasTy Γ t p)
    (hl : ptrToListPanics Γ t p = false) (bz : Bytes) (q : Pan)
    (h : unmarshalBare Γ c f t p bz = .panic q) : q = .user := by
  refine (unmarshalBare_typed (Q := fun q => q = .user) hT hu hS ?_ rfl f t p ht hp hl bz).1 q h
  intro id ii dp ci hi hl
  left
  unfold lookupConc at hl
  split at hl
  · split at hl
    · rename_i hd; simp at hl; subst hl; exact (himp id ii hi).2 _ _ hd
    · simp at hl
  · split at hl
    · simp at hl
    · rename_i ci' hw
      have hl : ci' = ci := by simpa using hl
      subst hl
      refine (himp id ii hi).1 _ ?_
      have : ci' ∈ ii.withPrefix dp.2 := by rw [hw]; simp
      exact (List.mem_filter.mp this).1
    · simp at hl

/-- The types of the demo program are a supported universe. -/
theorem Demo.univ (c : Codec) : DecUniv Demo.prog c (fun _ => True) where
  noMap := by
    intro id e _ h
    match id with
    | 0 | 1 | 2 | 3 | 4 | 5 | 6 | 7 | 8 | 9 | 10 | 11 | 12 | 13 | 14 | 15 | 16 | 17 | 18 | 19 | 20 | 21
    | 22 | 23 | 24 | 25 => simp [Demo.prog, Demo.shape] at h
    | n + 26 => simp [Demo.prog, Demo.shape] at h
  slice := by
    intro id e _ h
    match id with
    | 0 | 1 | 2 | 4 | 5 | 7 | 8 | 9 | 10 | 11 | 12 | 13 | 14 | 16 | 17 | 18 | 20
    | 24 | 25 => simp [Demo.prog, Demo.shape] at h
    | 3 | 6 | 15 | 19 | 21 | 22 | 23 =>
      simp only [Demo.prog, Demo.shape, Shape.slice.injEq] at h
      subst h
      first
        | exact rfl
        | exact ⟨trivial, rfl⟩
    | n + 26 => simp [Demo.prog, Demo.shape] at h
  array := by
    intro id n e _ h
    match id with
    | 0 | 1 | 2 | 3 | 4 | 5 | 6 | 7 | 8 | 9 | 10 | 11 | 12 | 13 | 14 | 15 | 16 | 17 | 18 | 19 | 20 | 21
    | 22 | 23 | 25 => simp [Demo.prog, Demo.shape] at h
    | 24 =>
      simp only [Demo.prog, Demo.shape, Shape.array.injEq] at h
      obtain ⟨_, rfl⟩ := h
      exact ⟨trivial, rfl⟩
    | n + 26 => simp [Demo.prog, Demo.shape] at h
  struct := by
    intro id fs _ h
    match id with
    | 0 | 1 | 2 | 3 | 6 | 7 | 10 | 11 | 13 | 14 | 15 | 16 | 19 | 21
    | 22 | 23 | 24 => simp [Demo.prog, Demo.shape] at h
    | 4 | 5 | 8 | 9 | 12 | 17 | 18 | 20 | 25 =>
      simp only [Demo.prog, Demo.shape, Shape.struct.injEq, Demo.msgFields] at h
      subst h
      simp only [List.mem_cons, List.not_mem_nil, or_false, forall_eq_or_imp, forall_eq]
      simp only [OkTy, true_and]
      decide
    | n + 26 => simp [Demo.prog, Demo.shape] at h
  unmarsh := by simp [Demo.prog]
  disfix := fun _ => trivial
  impls := fun _ _ => trivial

/-- The hypotheses of `C16_noPanic_partial` are met by the demo program with `Foo` registered. -/
example : Demo.prog.Typed ∧ Demo.prog.UserOk ∧ DecUniv Demo.prog Demo.codecFoo (fun _ => True) ∧
    (∀ id ii, Demo.codecFoo.iface? id = some ii →
      (∀ ci ∈ ii.impls, Demo.prog.implements ci.dynTy id = true) ∧
      (∀ df ci, Demo.codecFoo.disfix? df = some ci → Demo.prog.implements ci.dynTy id = true)) ∧
    OkTy Demo.prog (fun _ => True) (.base Demo.msgT) ∧
    HasTy Demo.prog (.base Demo.msgT) (Demo.zero Demo.msgT) ∧
    ptrToListPanics Demo.prog (.base Demo.msgT) (Demo.zero Demo.msgT) = false := by
  refine ⟨Demo.prog_typed, Demo.prog_user, Demo.univ _, ?_, ⟨trivial, rfl⟩, Demo.prog_typed.zero _, rfl⟩
  intro id ii h
  have hid : id = Demo.ifaceT ∧ ii.impls = [Demo.foo] := by
    unfold Codec.iface? Demo.codecFoo at h
    simp only [List.find?_cons, List.find?_nil] at h
    split at h
    · rename_i he
      simp at he h
      exact ⟨he.symm, by rw [← h]⟩
    · simp at h
  obtain ⟨rfl, himp⟩ := hid
  constructor
  · rw [himp]; simp; decide
  · intro df ci hd
    unfold Codec.disfix? Demo.codecFoo at hd
    simp only [List.lookup_cons, List.lookup_nil] at hd
    split at hd
    · simp at hd; subst hd; decide
    · simp at hd

/-- The full C16 is false of the unchanged code: eight bytes naming the registered type `Bar`, decoded
into a variable of the registered interface `Iface` which `Bar` does not implement, panic. -/
theorem C16_refuted :
    ¬ ∀ (Γ : Prog) (c : Codec) (S : TId → Prop) (f : Nat) (t : Ty) (bz : Bytes), Γ.Typed → Γ.UserOk →
      DecUniv Γ c S → OkTy Γ S t → ∀ q, unmarshalBare Γ c f t (Γ.zeroTy t) bz = .panic q → q = .user := by
  intro h
  have := h Demo.prog Demo.codec (fun _ => True) 5 (.base Demo.ifaceT) [0, 9, 9, 9, 5, 6, 7, 8]
    Demo.prog_typed Demo.prog_user (Demo.univ _) ⟨trivial, rfl⟩ .notAssignable (by decide +kernel)
  cases this

/-- ... and unmarshalling into a `**[]int64` whose inner pointer is not nil panics on every input. -/
theorem C16_refuted_list (bz : Bytes) :
    unmarshalBare Demo.prog Demo.codec 5 (.ptr (.base Demo.int64sT)) (.ptr .nil) bz = .panic .illTyped := by
  rfl

/-! ## C17 -/

/-- C17: `UnmarshalBinaryBare` terminates: recursion depth `len * (R + 1) + rank + 1` suffices on every
input, `R` being the longest chain of representation types / keyless lists / packed elements, and
from there on the result does not change. -/
theorem C17_terminates {Γ : Prog} {c : Codec} {rank : TId → Nat} {R : Nat} (hu : Γ.UserOk)
    (hR : DecRank Γ rank R) (t : Ty) (p : Val) (bz : Bytes) :
    ∃ r, r ≠ .oof ∧ ∀ f, bz.length * (R + 1) + R + 1 ≤ f → unmarshalBare Γ c f t p bz = r := by
  have hall : ∀ f bare bz', bz'.length ≤ bz.length → bz.length * (R + 1) + R + 1 ≤ f →
      decodeAll Γ c f t p bare bz' ≠ .oof := by
    intro f bare bz' hl hf
    have hb := hR.bound t.deref
    have : bz'.length * (R + 1) ≤ bz.length * (R + 1) := Nat.mul_le_mul_right _ hl
    have := dec_terminates (c := c) hu hR f t p { fnum := 1 } bare bz' (by omega)
    unfold decodeAll
    split
    · split <;> simp
    · simp
    · simp
    · contradiction
  have hno : ∀ f, bz.length * (R + 1) + R + 1 ≤ f → unmarshalBare Γ c f t p bz ≠ .oof := by
    intro f hf
    unfold unmarshalBare
    cases hg : getInfo Γ c t.deref with
    | err => simp
    | oof => exact absurd hg getInfo_noOof
    | panic q => simp
    | ok =>
      rw [Res.bind_ok]
      cases hs : stripPrefix c t.deref bz with
      | oof => exact absurd hs (stripPrefix_noOof _ _ _)
      | err => simp
      | panic => simp
      | ok bz' =>
        have hl := stripPrefix_le hs
        rw [Res.bind_ok]
        unfold unmarshalContents
        split
        · exact hall _ _ _ hl hf
        split
        · simp
        split
        · split
          · simp
          · simp
          · rename_i hq; exact absurd hq (decodeKey_safe bz').noOof
          · split
            · simp
            split
            · simp
            split
            · exact hall _ _ _ (by simp; omega) hf
            · simp
        · exact hall _ _ _ hl hf
  refine ⟨unmarshalBare Γ c (bz.length * (R + 1) + R + 1) t p bz, hno _ (Nat.le_refl _), fun f hf => ?_⟩
  rcases unmarshalBare_le (Γ := Γ) (c := c) hf t p bz with h | h
  · exact absurd h (hno _ (Nat.le_refl _))
  · exact h

/-- Ranks for the demo program, which has recursive types. -/
theorem Demo.rank : DecRank Demo.prog
    (fun id => if id = Demo.msgT ∨ id = Demo.listsT then 2 else if id = Demo.int64sT ∨ id = Demo.arrT ∨
      id = Demo.bytesT ∨ id = Demo.subsT ∨ id = Demo.bytessT ∨ id = Demo.ifacesT ∨ id = Demo.stringsT ∨
      id = Demo.subptrsT then 1 else 0) 2 where
  bound := by intro id; split <;> (try split) <;> omega
  unmarsh := by simp [Demo.prog]
  field := by
    intro id fs h
    match id with
    | 0 | 1 | 2 | 3 | 6 | 7 | 10 | 11 | 13 | 14 | 15 | 16 | 19 | 21
    | 22 | 23 | 24 => simp [Demo.prog, Demo.shape] at h
    | 4 | 5 | 8 | 9 | 12 | 17 | 18 | 20 | 25 =>
      simp only [Demo.prog, Demo.shape, Shape.struct.injEq, Demo.msgFields] at h
      subst h
      simp only [List.mem_cons, List.not_mem_nil, or_false, forall_eq_or_imp, forall_eq]
      decide
    | n + 26 => simp [Demo.prog, Demo.shape] at h
  elem := by
    intro id e h
    match id with
    | 0 | 1 | 2 | 4 | 5 | 7 | 8 | 9 | 10 | 11 | 12 | 13 | 14 | 16 | 17 | 18 | 20 | 25 =>
      simp [Demo.prog, Demo.shape, Shape.elem?] at h
    | 3 | 6 | 15 | 19 | 21 | 22 | 23 | 24 =>
      simp only [Demo.prog, Demo.shape, Shape.elem?, Option.some.injEq] at h
      subst h
      decide
    | n + 26 => simp [Demo.prog, Demo.shape, Shape.elem?] at h

/-! ## C35 -/

/-- C35, what holds of the unchanged code: decoding an integer of any of the ten kinds but varint
`uint32` succeeds exactly if the bytes start with a number in the kind's wire form that is in the range
of the Go type, and yields exactly that number and the bytes it takes.
Missing: `uint32` in varint form, which silently truncates (`C35_refuted`). -/
theorem C35_int_exact_partial {Γ : Prog} {c : Codec} (f : Nat) (id : TId) (k : IntKind) (p : Val)
    (fo : FOpts) (bare : Bool) (bz : Bytes) (n : Nat) (v : Val) (hs : Γ.shape id = .int k)
    (hu : Γ.unmarsh id = none) (hk : k = .uint32 → fo.fixed32 = true) :
    dec Γ c (f + 1) (.base id) p fo bare bz = .ok n v ↔
      ∃ i, v = .int i ∧ Spec.wireInt k fo.fixed64 fo.fixed32 bz = some (i, n) ∧ k.inRange i := by
  have : dec Γ c (f + 1) (.base id) p fo bare bz = (decInt k fo bz).map .int := by
    simp only [dec, decBody, Ty.isPtr, Bool.false_and, Bool.false_eq_true, if_false, Ty.deref, hu,
      decShape, hs]
    cases decInt k fo bz <;> rfl
  rw [this]
  constructor
  · intro h
    cases hd : decInt k fo bz with
    | ok m i =>
      rw [hd] at h
      simp at h
      obtain ⟨rfl, rfl⟩ := h
      exact ⟨i, rfl, (decInt_wire k fo bz m i hk).mp hd⟩
    | err => rw [hd] at h; simp at h
    | panic => rw [hd] at h; simp at h
    | oof => rw [hd] at h; simp at h
  · rintro ⟨i, rfl, h⟩
    rw [(decInt_wire k fo bz n i hk).mpr h]
    rfl

example : Demo.shape Demo.int32T = .int .int32 ∧
    Spec.wireInt .int32 false false [0xFE, 0xFF, 0xFF, 0xFF, 0xFF, 0xFF, 0xFF, 0xFF, 0xFF, 0x01] = some (-2, 10) ∧
    IntKind.inRange .int32 (-2) := by decide +kernel

/-- C35, whole messages: whatever the bytes, if decoding succeeds then every integer in the result is in
the range of its Go type (and every other component has its type). -/
theorem C35_result_in_range {Γ : Prog} {c : Codec} {S : TId → Prop} (hT : Γ.Typed) (hu : Γ.UserOk)
    (hS : DecUniv Γ c S) (f : Nat) (t : Ty) (p : Val) (ht : OkTy Γ S t) (hp : HasTy Γ t p)
    (hl : ptrToListPanics Γ t p = false) (bz : Bytes) (v : Val)
    (h : unmarshalBare Γ c f t p bz = .ok v) : HasTy Γ t v :=
  (unmarshalBare_typed (Q := fun _ => True) hT hu hS (fun _ _ _ _ _ _ => .inr trivial) trivial f t p ht hp
    hl bz).2 v h

/-- The full C35 is false of the unchanged code: a struct with a `uint32` field decodes the varint
4294967301 = 2^32 + 5 successfully, as 5. -/
theorem C35_refuted :
    unmarshalBare Demo.prog Demo.codec 5 (.base Demo.uT) (Demo.zero Demo.uT)
      [8, 0x85, 0x80, 0x80, 0x80, 0x10] = .ok (.struct [.int 5]) ∧
    Spec.wireInt .uint32 false false [0x85, 0x80, 0x80, 0x80, 0x10] = some (4294967301, 5) := by
  decide +kernel

end Amino
