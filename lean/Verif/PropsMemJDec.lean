import Verif.MemJInv
import Verif.SpecMemJ
import Verif.PropsMem
import Verif.JDemo

/-!
# C104: what UnmarshalJSON does to memory
-/

namespace Amino
open Spec

/-- What a variable is made of, with the bytes of its byte slices, and new memory. -/
def ownRegionJ (h : Mem) (l : Loc) : Region where
  h0 := h
  W m := OwnedJ h l m ∨ h.length ≤ m.addr
  F a := Reached h l a ∨ h.length ≤ a
  sub _ hw := hw.elim (fun ho => .inl (.part ho)) .inr
  freshW := .inr
  freshF := .inr

theorem refs_ownedJ {h : Mem} {l m : Loc} (ho : OwnedJ h l m) : ∀ {v : MVal} {a : Nat}, h.get m = some v → MRefs v a → Reached h l a := by
  induction ho with
  | self => intro v a hg hr; exact .ref hg hr
  | part ho ih =>
    intro v a hg hr
    rw [get_sub, Option.bind_eq_some_iff] at hg
    obtain ⟨x, hx, hv⟩ := hg
    exact ih hx (refs_part _ hv hr)
  | @ptr m m' ho hp ih =>
    intro v a hg hr
    rw [Mem.get, Option.bind_eq_some_iff] at hg
    obtain ⟨x, hx, hv⟩ := hg
    exact .more (ih hp .ptr) hx (refs_part _ hv hr)
  | bytes ho hp hb ih =>
    intro v a hg hr
    rw [Mem.get, hb] at hg
    cases hg
    cases hr

theorem ownRegionJ_inv (h : Mem) (l : Loc) : (ownRegionJ h l).JInv h where
  inv := {
    len := Nat.le_refl _
    frame := fun _ => rfl
    ptr := fun {m l'} hw hg => by
      rcases hw with ho | hf
      · exact .inl (.ptr ho hg)
      · exact absurd (get_lt hg) (Nat.not_lt.mpr hf)
    refW := fun {m v a} hw hg hr => by
      rcases hw with ho | hf
      · exact .inl (refs_ownedJ ho hg hr)
      · exact absurd (get_lt hg) (Nat.not_lt.mpr hf)
    refF := fun {a v b} ha hg hr => by
      rcases ha with ha | hf
      · exact .inl (.more ha hg hr)
      · exact absurd (List.getElem?_eq_some_iff.mp hg).1 (Nat.not_lt.mpr hf) }
  sl {m a off len} hw hg hb := by
    obtain ⟨b, hb⟩ := hb
    rcases hw with ho | hf
    · exact .inl (.bytes ho hg hb)
    · exact absurd (get_lt hg) (Nat.not_lt.mpr hf)

section
variable {Γ : MProg} {c : Codec} {J : MJLib} {fuel : Nat}

/-- C104: a location keeps its contents, whatever the outcome of UnmarshalJSON, unless the target variable, or something its
pointers and byte slices lead to, is a part of it or it is a part of them. -/
theorem C104_frame_partial (hm : MethodsLocalJ Γ J) {t : Ty} {l m : Loc} {bz : Bytes} {h : Mem} {v : MVal} (hv : h.get m = some v)
    (hd : ∀ m', OwnedJ h l m' → ¬ (m'.addr = m.addr ∧ m.path <+: m'.path)) :
    (mUnmarshalJSON Γ c J fuel t l bz h).2.get m = some v := by
  have hi := (mUnmarshalJSON_inv (c := c) (fuel := fuel) (t := t) (bz := bz) hm (ownRegionJ_inv h l) (.inl .self)).inv
  rw [hi.same, ← hv]
  · rfl
  · rintro q (ho | hf)
    · exact hd _ ho ⟨rfl, List.prefix_append _ _⟩
    · exact absurd (get_lt hv) (Nat.not_lt.mpr hf)

/-- C104: after UnmarshalJSON, whatever its outcome, only new variables can be reached from the target, besides those that could
be reached before. -/
theorem C104_references (hm : MethodsLocalJ Γ J) {t : Ty} {l : Loc} {bz : Bytes} {h : Mem} {a : Nat}
    (ha : Reached (mUnmarshalJSON Γ c J fuel t l bz h).2 l a) : Reached h l a ∨ h.length ≤ a := by
  have hi := (mUnmarshalJSON_inv (c := c) (fuel := fuel) (t := t) (bz := bz) hm (ownRegionJ_inv h l) (.inl .self)).inv
  induction ha with
  | ref hg hr => exact hi.refW (.inl .self) hg hr
  | more _ hc hr ih => exact hi.refF ih hc hr

/-- C104: the text, in a variable that has nothing to do with the target, is not changed, and the target does not refer to it
afterwards. -/
theorem C104_input (hm : MethodsLocalJ Γ J) {t : Ty} {l : Loc} {bz : Bytes} {h : Mem} {b : Nat}
    (hb : h[b]? = some (.prim (.bytes bz))) (hr : ¬ Reached h l b) (hl : l.addr ≠ b) :
    (mUnmarshalJSON Γ c J fuel t l bz h).2[b]? = some (.prim (.bytes bz)) ∧
      ¬ Reached (mUnmarshalJSON Γ c J fuel t l bz h).2 l b := by
  have hlt := (List.getElem?_eq_some_iff.mp hb).1
  have hg : h.get ⟨b, []⟩ = some (.prim (.bytes bz)) := by rw [Mem.get, hb]; rfl
  constructor
  · have hown : ∀ m', OwnedJ h l m' → m'.addr ≠ b := by
      intro m' ho
      induction ho with
      | self => exact hl
      | part _ ih => exact ih
      | ptr ho hp _ => intro he; exact hr (he ▸ refs_ownedJ ho hp .ptr)
      | bytes ho hp _ _ => intro he; exact hr (he ▸ refs_ownedJ ho hp .slice)
    have := C104_frame_partial (c := c) (fuel := fuel) (t := t) (l := l) (bz := bz) hm hg fun m' ho hx => hown m' ho hx.1
    rw [Mem.get] at this
    cases hc : (mUnmarshalJSON Γ c J fuel t l bz h).2[b]? with
    | none => simp only [hc] at this; cases this
    | some w => simp only [hc] at this; exact this
  · intro ha
    rcases C104_references hm ha with ha | ha
    · exact hr ha
    · omega

end

/-! ## The hypotheses can be met -/

namespace JDemo

/-- The program of `JDemo`, where `UnmarshalAmino` of `Cents` sets its field. -/
def mprog : MProg := { prog with unmarshM := fun _ r l h => (.ok (), h.put l (.struct [r])) }

def mlib : MJLib := { lib with unmarshJM := fun _ _ _ h => (.ok (), h) }

theorem jfine_struct {R : Region} {v : MVal} (hv : R.JFine v) : R.JFine (.struct [v]) where
  fine := R.fine_struct fun w hw => by rw [List.mem_singleton] at hw; rw [hw]; exact hv.fine
  sl {p a off len} hp hb := by
    cases p with
    | nil => cases hp
    | cons i p =>
      rw [MVal.part, Option.bind_eq_some_iff] at hp
      obtain ⟨x, hx, hp⟩ := hp
      have := List.mem_of_getElem? hx
      rw [MVal.parts, List.mem_singleton] at this
      subst this
      exact hv.sl hp hb

theorem methods_local : MethodsLocalJ mprog mlib where
  amino _ _ _ _ _ hi hw hf := hi.put hw (jfine_struct hf)
  json _ _ _ _ _ hi _ := hi

/-- A `Rec` with the given `C` and `P`. -/
def recAt (c p : MVal) : MVal :=
  .struct [.prim (.int 0), .prim (.str []), c, .nil, .nil, .prim zeroTime, p, .nil, .arr [.prim (.int 0), .prim (.int 0)],
    .struct [.prim (.int 0)], .prim (.bool false), .prim (.int 0)]

/-- `{"C":"Bw==","P":"5"}` -/
def memText : Bytes := [0x7b, 0x22, 0x43, 0x22, 0x3a, 0x22, 0x42, 0x77, 0x3d, 0x3d, 0x22, 0x2c, 0x22, 0x50, 0x22, 0x3a, 0x22, 0x35, 0x22, 0x7d]

/-- Variable 0 is a `Rec` with a pointer to variable 1, variable 2 another one, variable 3 the text. -/
def mem : Mem := [recAt .nil (.ptr ⟨1, []⟩), .prim (.int 8), recAt .nil (.ptr ⟨2, [0]⟩), .prim (.bytes memText)]

/-- The pointer is followed, the bytes are a new variable; the rest is not touched. -/
example : (mUnmarshalJSON mprog codec mlib 10 (.base recT) ⟨0, []⟩ memText mem).1 = .ok () ∧
    (mUnmarshalJSON mprog codec mlib 10 (.base recT) ⟨0, []⟩ memText mem).2 =
    [recAt (.slice 4 0 1) (.ptr ⟨1, []⟩), .prim (.int 5), recAt .nil (.ptr ⟨2, [0]⟩), .prim (.bytes memText), .prim (.bytes [7])] := by
  constructor <;> decide +kernel

theorem noReach (a : Nat) : ¬ Reached mem ⟨1, []⟩ a := by
  intro h
  induction h with
  | ref hg hr => cases hg; cases hr
  | more _ _ _ ih => exact ih

theorem own_one {m : Loc} (h : OwnedJ mem ⟨1, []⟩ m) : m.addr = 1 := by
  induction h with
  | self => rfl
  | part _ ih => exact ih
  | ptr ho hp _ => exact absurd (refs_ownedJ ho hp .ptr) (noReach _)
  | bytes ho hp _ _ => exact absurd (refs_ownedJ ho hp .slice) (noReach _)

/-- C104_frame_partial applies to variable 2 when variable 1 is the target. -/
example (t : Ty) (bz : Bytes) : (mUnmarshalJSON mprog codec mlib 10 t ⟨1, []⟩ bz mem).2.get ⟨2, []⟩ = some (recAt .nil (.ptr ⟨2, [0]⟩)) :=
  C104_frame_partial methods_local rfl fun m' ho he => by
    have := own_one ho
    simp only at he
    omega

/-- C104_references: nothing but new variables can be reached afterwards from variable 1. -/
example (t : Ty) (bz : Bytes) (a : Nat) (ha : Reached (mUnmarshalJSON mprog codec mlib 10 t ⟨1, []⟩ bz mem).2 ⟨1, []⟩ a) : 4 ≤ a :=
  (C104_references methods_local ha).resolve_left (noReach a)

/-- C104_input applies: the text is variable 3. -/
example (t : Ty) : (mUnmarshalJSON mprog codec mlib 10 t ⟨1, []⟩ memText mem).2[3]? = some (.prim (.bytes memText)) :=
  (C104_input methods_local rfl (noReach _) (by decide)).1

/-! ## Byte slices -/

/-- Variable 0 is `a[:1]` of the array `a` in variable 1, variable 2 is `a[1:]`. -/
def shareMem : Mem := [.slice 1 0 1, .prim (.bytes [1, 2, 3]), .slice 1 1 2]

/-- `[7,8]` -/
def pairText : Bytes := [0x5b, 0x37, 0x2c, 0x38, 0x5d]

/-- `[7,8,""]` -/
def failText : Bytes := [0x5b, 0x37, 0x2c, 0x38, 0x2c, 0x22, 0x22, 0x5d]

/-- `[7,null]` -/
def nullText : Bytes := [0x5b, 0x37, 0x2c, 0x6e, 0x75, 0x6c, 0x6c, 0x5d]

end JDemo

/-- C104 is false for byte slices: reading a JSON array into `a[:1]` overwrites the array `a`, also behind the end of the slice, and
so what another slice of `a` holds; even if the call returns an error. -/
theorem C104_bytes_refuted :
    (mUnmarshalJSON JDemo.mprog JDemo.codec JDemo.mlib 10 (.base JDemo.bytesT) ⟨0, []⟩ JDemo.pairText JDemo.shareMem =
      (.ok (), [.slice 1 0 2, .prim (.bytes [7, 8, 3]), .slice 1 1 2])) ∧
    (mUnmarshalJSON JDemo.mprog JDemo.codec JDemo.mlib 10 (.base JDemo.bytesT) ⟨0, []⟩ JDemo.failText JDemo.shareMem =
      (.err .json, [.slice 1 0 3, .prim (.bytes [7, 8, 3]), .slice 1 1 2])) ∧
    ∀ m, Owned JDemo.shareMem ⟨0, []⟩ m → m.addr = 0 := by
  refine ⟨by decide +kernel, by decide +kernel, fun m ho => ?_⟩
  induction ho with
  | self => rfl
  | part _ ih => exact ih
  | @ptr m m' _ hp ih =>
    obtain ⟨a, p⟩ := m
    simp only at ih
    subst ih
    rw [Mem.get] at hp
    cases p <;> simp [JDemo.shareMem, MVal.part, MVal.parts] at hp

/-- C104: what the array holds behind the end of the target slice can come to light: after reading `[7,null]` into `a[:1]` the slice
holds 7 and the old `a[1]`. -/
theorem C104_beyond_refuted :
    mUnmarshalJSON JDemo.mprog JDemo.codec JDemo.mlib 10 (.base JDemo.bytesT) ⟨0, []⟩ JDemo.nullText JDemo.shareMem =
      (.ok (), [.slice 1 0 2, .prim (.bytes [7, 2, 3]), .slice 1 1 2]) := by decide +kernel

end Amino
