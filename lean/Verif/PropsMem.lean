import Verif.MemInv
import Verif.Demo
import Verif.MemEq

/-!
# C97: what Unmarshal does to memory
-/

namespace Amino
open Spec

/-! ## Memory that is the same at every location -/

theorem shallow_arr {v : MVal} {ws : List MVal} (h : (MVal.arr ws).shallow = v.shallow) : ∃ vs, v = .arr vs ∧ vs.length = ws.length := by
  cases v <;> simp only [MVal.shallow, MVal.arr.injEq, reduceCtorEq] at h
  exact ⟨_, rfl, by have := congrArg List.length h; simpa using this.symm⟩

theorem shallow_struct {v : MVal} {ws : List MVal} (h : (MVal.struct ws).shallow = v.shallow) :
    ∃ vs, v = .struct vs ∧ vs.length = ws.length := by
  cases v <;> simp only [MVal.shallow, MVal.struct.injEq, reduceCtorEq] at h
  exact ⟨_, rfl, by have := congrArg List.length h; simpa using this.symm⟩

mutual
theorem eq_of_shallow : ∀ (v w : MVal), (∀ q, (MVal.part q v).map MVal.shallow = (MVal.part q w).map MVal.shallow) → v = w
  | .arr vs, w, h => by
    have h0 := h []
    simp only [MVal.part, Option.map_some, Option.some.injEq] at h0
    obtain ⟨ws, rfl, hl⟩ := shallow_arr h0
    rw [eqs_of_shallow vs ws hl fun i q => h (i :: q)]
  | .struct vs, w, h => by
    have h0 := h []
    simp only [MVal.part, Option.map_some, Option.some.injEq] at h0
    obtain ⟨ws, rfl, hl⟩ := shallow_struct h0
    rw [eqs_of_shallow vs ws hl fun i q => h (i :: q)]
  | .prim v, w, h => by
    have h0 := h []
    cases w <;> simp_all [MVal.part, MVal.shallow]
  | .nil, w, h => by
    have h0 := h []
    cases w <;> simp_all [MVal.part, MVal.shallow]
  | .ptr l, w, h => by
    have h0 := h []
    cases w <;> simp_all [MVal.part, MVal.shallow]
  | .slice a off len, w, h => by
    have h0 := h []
    cases w <;> simp_all [MVal.part, MVal.shallow]
  | .map a, w, h => by
    have h0 := h []
    cases w <;> simp_all [MVal.part, MVal.shallow]
  | .iface t v, w, h => by
    have h0 := h []
    cases w <;> simp_all [MVal.part, MVal.shallow]

theorem eqs_of_shallow : ∀ (vs ws : List MVal), ws.length = vs.length →
    (∀ (i : Nat) q, (vs[i]?.bind (MVal.part q)).map MVal.shallow = (ws[i]?.bind (MVal.part q)).map MVal.shallow) → vs = ws
  | [], [], _, _ => rfl
  | [], _ :: _, hl, _ => by simp at hl
  | _ :: _, [], hl, _ => by simp at hl
  | v :: vs, w :: ws, hl, h => by
    rw [eq_of_shallow v w fun q => by simpa using h 0 q,
      eqs_of_shallow vs ws (by simpa using hl) fun i q => by simpa using h (i + 1) q]
end

/-- Nothing is changed at or below a location that may not be written to. -/
theorem Region.Inv.same {R : Region} {h : Mem} (hi : R.Inv h) {m : Loc} (hm : ∀ q, ¬ R.W ⟨m.addr, m.path ++ q⟩) :
    h.get m = R.h0.get m := by
  have hf : ∀ q, ((h.get m).bind (MVal.part q)).map MVal.shallow = ((R.h0.get m).bind (MVal.part q)).map MVal.shallow := by
    intro q
    rw [← get_sub, ← get_sub]
    exact hi.frame (hm q)
  cases h1 : h.get m with
  | none =>
    cases h2 : R.h0.get m with
    | none => rfl
    | some w => have := hf []; simp [h1, h2, MVal.part] at this
  | some v =>
    cases h2 : R.h0.get m with
    | none => have := hf []; simp [h1, h2, MVal.part] at this
    | some w =>
      rw [h1, h2] at hf
      rw [eq_of_shallow v w hf]

/-! ## The region of a call -/

/-- What a variable is made of, and new memory. -/
def ownRegion (h : Mem) (l : Loc) : Region where
  h0 := h
  W m := Owned h l m ∨ h.length ≤ m.addr
  F a := Reached h l a ∨ h.length ≤ a
  sub _ hw := hw.elim (fun ho => .inl (.part ho)) .inr
  freshW := .inr
  freshF := .inr

theorem refs_owned {h : Mem} {l m : Loc} (ho : Owned h l m) : ∀ {v : MVal} {a : Nat}, h.get m = some v → MRefs v a → Reached h l a := by
  induction ho with
  | self => intro v a hg hr; exact .ref hg hr
  | part ho ih =>
    intro v a hg hr
    rw [get_sub, Option.bind_eq_some_iff] at hg
    obtain ⟨x, hx, hv⟩ := hg
    exact ih hx (refs_part _ hv hr)
  | @ptr m m' ho hp ih =>
    intro v a hg hr
    rw [Mem.get, Option.bind_eq_some_iff] at hg
    obtain ⟨x, hx, hv⟩ := hg
    exact .more (ih hp .ptr) hx (refs_part _ hv hr)

theorem ownRegion_inv (h : Mem) (l : Loc) : (ownRegion h l).Inv h where
  len := Nat.le_refl _
  frame _ := rfl
  ptr {m l'} hw hg := by
    rcases hw with ho | hf
    · exact .inl (.ptr ho hg)
    · exact absurd (get_lt hg) (Nat.not_lt.mpr hf)
  refW {m v a} hw hg hr := by
    rcases hw with ho | hf
    · exact .inl (refs_owned ho hg hr)
    · exact absurd (get_lt hg) (Nat.not_lt.mpr hf)
  refF {a v b} ha hg hr := by
    rcases ha with ha | hf
    · exact .inl (.more ha hg hr)
    · exact absurd (List.getElem?_eq_some_iff.mp hg).1 (Nat.not_lt.mpr hf)

section
variable {Γ : MProg} {c : Codec} {fuel : Nat}

/-- C97: a location keeps its contents, whatever the outcome of Unmarshal, unless the target variable, or something its
pointers lead to, is a part of it or it is a part of them. -/
theorem C97_frame (hm : MethodsLocal Γ) {t : Ty} {l m : Loc} {bz : Bytes} {h : Mem} {v : MVal} (hv : h.get m = some v)
    (hd : ∀ m', Owned h l m' → ¬ (m'.addr = m.addr ∧ m.path <+: m'.path)) :
    (mUnmarshalBare Γ c fuel t l bz h).2.get m = some v := by
  have hi := mUnmarshalBare_inv (c := c) (fuel := fuel) (t := t) (bz := bz) hm (ownRegion_inv h l) (.inl .self)
  rw [hi.same, ← hv]
  · rfl
  · rintro q (ho | hf)
    · exact hd _ ho ⟨rfl, List.prefix_append _ _⟩
    · exact absurd (get_lt hv) (Nat.not_lt.mpr hf)

/-- C97: after Unmarshal, whatever its outcome, only new variables can be reached from the target, besides those that could be
reached before. -/
theorem C97_references (hm : MethodsLocal Γ) {t : Ty} {l : Loc} {bz : Bytes} {h : Mem} {a : Nat}
    (ha : Reached (mUnmarshalBare Γ c fuel t l bz h).2 l a) : Reached h l a ∨ h.length ≤ a := by
  have hi := mUnmarshalBare_inv (c := c) (fuel := fuel) (t := t) (bz := bz) hm (ownRegion_inv h l) (.inl .self)
  induction ha with
  | ref hg hr => exact hi.refW (.inl .self) hg hr
  | more _ hc hr ih => exact hi.refF ih hc hr

/-- C97: the input bytes, in a variable that has nothing to do with the target, are not changed, and the target does not refer
to them afterwards. -/
theorem C97_input (hm : MethodsLocal Γ) {t : Ty} {l : Loc} {bz : Bytes} {h : Mem} {b : Nat}
    (hb : h[b]? = some (.prim (.bytes bz))) (hr : ¬ Reached h l b) (hl : l.addr ≠ b) :
    (mUnmarshalBare Γ c fuel t l bz h).2[b]? = some (.prim (.bytes bz)) ∧
      ¬ Reached (mUnmarshalBare Γ c fuel t l bz h).2 l b := by
  have hlt := (List.getElem?_eq_some_iff.mp hb).1
  have hg : h.get ⟨b, []⟩ = some (.prim (.bytes bz)) := by rw [Mem.get, hb]; rfl
  constructor
  · have hown : ∀ m', Owned h l m' → m'.addr ≠ b := by
      intro m' ho
      induction ho with
      | self => exact hl
      | part _ ih => exact ih
      | ptr ho hp _ => intro he; exact hr (he ▸ refs_owned ho hp .ptr)
    have := C97_frame (c := c) (fuel := fuel) (t := t) (l := l) (bz := bz) hm hg fun m' ho hx => hown m' ho hx.1
    rw [Mem.get] at this
    cases hc : (mUnmarshalBare Γ c fuel t l bz h).2[b]? with
    | none => simp only [hc] at this; cases this
    | some w => simp only [hc] at this; exact this
  · intro ha
    rcases C97_references hm ha with ha | ha
    · exact hr ha
    · omega

end

/-! ## The hypotheses can be met -/

/-- The program of `Demo`, where UnmarshalAmino methods store the representation itself. -/
def Demo.mprog : MProg := { Demo.prog with unmarshM := fun _ r l h => (.ok (), h.put l r) }

theorem Demo.mprog_local : MethodsLocal Demo.mprog := fun _ _ _ _ _ hi hw hf => hi.put hw hf

/-- `Msg{}` with the given `A`, `C` and `D`. -/
def Demo.msgAt (a : Int) (c d : MVal) : MVal :=
  .struct [.prim (.int a), .prim (.str []), c, d, .nil, .nil, .prim (.time 0 0)]

/-- Variable 0 points to variable 1, variable 2 is something else, variable 3 the input: C = {7}, D.A = 5. -/
def Demo.memBz : Bytes := [0x1A, 1, 7, 0x22, 2, 0x08, 5]

def Demo.mem : Mem := [msgAt 1 .nil (.ptr ⟨1, []⟩), msgAt 2 .nil .nil, msgAt 3 .nil (.ptr ⟨2, []⟩), .prim (.bytes memBz)]

/-- The pointer is followed, field A is set to its default, the bytes are a new variable; the rest is not touched. -/
example : (mUnmarshalBare Demo.mprog Demo.codecFoo 10 (.base Demo.msgT) ⟨0, []⟩ Demo.memBz Demo.mem).2 =
    [Demo.msgAt 0 (.slice 4 0 1) (.ptr ⟨1, []⟩), Demo.msgAt 5 .nil .nil, Demo.msgAt 3 .nil (.ptr ⟨2, []⟩),
      .prim (.bytes Demo.memBz), .prim (.bytes [7])] := by decide +kernel

theorem Demo.mem_owned {m : Loc} (h : Owned Demo.mem ⟨0, []⟩ m) : m.addr = 0 ∨ m.addr = 1 := by
  induction h with
  | self => exact .inl rfl
  | part _ ih => exact ih
  | @ptr m m' _ hp ih =>
    right
    obtain ⟨a, p⟩ := m
    have hcell : ∀ (p : List Nat) (v w : MVal), (v = Demo.msgAt 1 .nil (.ptr ⟨1, []⟩) ∨ v = Demo.msgAt 2 .nil .nil) →
        MVal.part p v = some (.ptr m') → m'.addr = 1 := by
      intro p v _ hv hp
      match p with
      | [] => rcases hv with rfl | rfl <;> cases hp
      | 0 :: p => rcases hv with rfl | rfl <;> (cases p <;> simp [MVal.part, MVal.parts, Demo.msgAt] at hp)
      | 1 :: p => rcases hv with rfl | rfl <;> (cases p <;> simp [MVal.part, MVal.parts, Demo.msgAt] at hp)
      | 2 :: p => rcases hv with rfl | rfl <;> (cases p <;> simp [MVal.part, MVal.parts, Demo.msgAt] at hp)
      | 3 :: p => rcases hv with rfl | rfl <;> (cases p <;> simp [MVal.part, MVal.parts, Demo.msgAt] at hp); rw [← hp]
      | 4 :: p => rcases hv with rfl | rfl <;> (cases p <;> simp [MVal.part, MVal.parts, Demo.msgAt] at hp)
      | 5 :: p => rcases hv with rfl | rfl <;> (cases p <;> simp [MVal.part, MVal.parts, Demo.msgAt] at hp)
      | 6 :: p => rcases hv with rfl | rfl <;> (cases p <;> simp [MVal.part, MVal.parts, Demo.msgAt] at hp)
      | (i + 7) :: p => rcases hv with rfl | rfl <;> simp [MVal.part, MVal.parts, Demo.msgAt] at hp
    rcases ih with rfl | rfl
    · exact hcell p _ .nil (.inl rfl) hp
    · exact hcell p _ .nil (.inr rfl) hp

/-- C97_frame applies to variable 2 and to the input. -/
example (t : Ty) (bz : Bytes) : (mUnmarshalBare Demo.mprog Demo.codec 10 t ⟨0, []⟩ bz Demo.mem).2.get ⟨2, []⟩ =
    some (Demo.msgAt 3 .nil (.ptr ⟨2, []⟩)) :=
  C97_frame Demo.mprog_local rfl fun m' ho he => by
    have := Demo.mem_owned ho
    simp only at he
    omega

/-- C97_references: nothing but new variables can be reached afterwards from variable 1. -/
example (t : Ty) (bz : Bytes) (a : Nat) (ha : Reached (mUnmarshalBare Demo.mprog Demo.codec 10 t ⟨1, [0]⟩ bz Demo.mem).2 ⟨1, [0]⟩ a) :
    4 ≤ a := by
  have hno : ∀ a, ¬ Reached Demo.mem ⟨1, [0]⟩ a := by
    intro a h
    induction h with
    | ref hg hr => cases hg; cases hr
    | more _ _ _ ih => exact ih
  exact (C97_references Demo.mprog_local ha).resolve_left (hno a)

/-- C97_input applies: the input is variable 3. -/
example (t : Ty) : (mUnmarshalBare Demo.mprog Demo.codec 10 t ⟨1, [0]⟩ Demo.memBz Demo.mem).2[3]? = some (.prim (.bytes Demo.memBz)) := by
  refine (C97_input Demo.mprog_local rfl (fun h => ?_) (by decide)).1
  have hno : ∀ a, ¬ Reached Demo.mem ⟨1, [0]⟩ a := by
    intro a h
    induction h with
    | ref hg hr => cases hg; cases hr
    | more _ _ _ ih => exact ih
  exact hno _ h

end Amino
