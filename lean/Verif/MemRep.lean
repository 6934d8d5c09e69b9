import Verif.SpecMemRep
import Verif.PropsMem

/-!
# The decoder on memory follows the decoder on trees, if nothing is shared
-/

namespace Amino
open Spec

section
variable {Γ : Prog} {h h' : Mem}

mutual
theorem repV_frame : ∀ {t : Ty} {w : MVal} {v : Val} {own ro : List Nat}, RepV Γ h t w v own ro →
    (∀ a ∈ own, h'[a]? = h[a]?) → (∀ a ∈ ro, h'[a]? = h[a]?) → RepV Γ h' t w v own ro
  | _, _, _, _, _, .prim hs, _, _ => .prim hs
  | _, _, _, _, _, .bytes hs hb, _, _ => .bytes hs hb
  | _, _, _, _, _, .nilPtr, _, _ => .nilPtr
  | _, _, _, _, _, .ptr hc hr, ho, hro =>
    .ptr ((ho _ (List.mem_cons_self ..)).trans hc) (repV_frame hr (fun a ha => ho a (List.mem_cons_of_mem _ ha)) hro)
  | _, _, _, _, _, .nil hs, _, _ => .nil hs
  | _, _, _, _, _, .byteSlice hs hb hc hl, _, hro => .byteSlice hs hb ((hro _ (List.mem_cons_self ..)).trans hc) hl
  | _, _, _, _, _, .slice hs hb hc hl hr, _, hro =>
    .slice hs hb ((hro _ (List.mem_cons_self ..)).trans hc) hl
      (repL_frame hr (fun a ha => hro a (List.mem_cons_of_mem _ (List.mem_append_left _ ha)))
        fun a ha => hro a (List.mem_cons_of_mem _ (List.mem_append_right _ ha)))
  | _, _, _, _, _, .arr hs hb hr, ho, hro => .arr hs hb (repL_frame hr ho hro)
  | _, _, _, _, _, .struct hs hr, ho, hro => .struct hs (repL_frame hr ho hro)
  | _, _, _, _, _, .iface hs hr, _, hro =>
    .iface hs (repV_frame hr (fun a ha => hro a (List.mem_append_left _ ha)) fun a ha => hro a (List.mem_append_right _ ha))

theorem repL_frame : ∀ {ts : List Ty} {ws : List MVal} {vs : List Val} {own ro : List Nat}, RepL Γ h ts ws vs own ro →
    (∀ a ∈ own, h'[a]? = h[a]?) → (∀ a ∈ ro, h'[a]? = h[a]?) → RepL Γ h' ts ws vs own ro
  | _, _, _, _, _, .nil, _, _ => .nil
  | _, _, _, _, _, .cons hv hl, ho, hro =>
    .cons (repV_frame hv (fun a ha => ho a (List.mem_append_left _ ha)) fun a ha => hro a (List.mem_append_left _ ha))
      (repL_frame hl (fun a ha => ho a (List.mem_append_right _ ha)) fun a ha => hro a (List.mem_append_right _ ha))
end

mutual
/-- The variables exist. -/
theorem repV_lt : ∀ {t : Ty} {w : MVal} {v : Val} {own ro : List Nat}, RepV Γ h t w v own ro →
    (∀ a ∈ own, a < h.length) ∧ (∀ a ∈ ro, a < h.length)
  | _, _, _, _, _, .prim _ => by simp
  | _, _, _, _, _, .bytes _ _ => by simp
  | _, _, _, _, _, .nilPtr => by simp
  | _, _, _, _, _, .ptr hc hr => by
    obtain ⟨h1, h2⟩ := repV_lt hr
    refine ⟨fun a ha => ?_, h2⟩
    rw [List.mem_cons] at ha
    rcases ha with rfl | ha
    · exact (List.getElem?_eq_some_iff.mp hc).1
    · exact h1 a ha
  | _, _, _, _, _, .nil _ => by simp
  | _, _, _, _, _, .byteSlice _ _ hc _ => by
    refine ⟨by simp, fun a ha => ?_⟩
    rw [List.mem_singleton] at ha
    exact ha ▸ (List.getElem?_eq_some_iff.mp hc).1
  | _, _, _, _, _, .slice _ _ hc _ hr => by
    obtain ⟨h1, h2⟩ := repL_lt hr
    refine ⟨by simp, fun a ha => ?_⟩
    rw [List.mem_cons, List.mem_append] at ha
    rcases ha with rfl | ha | ha
    · exact (List.getElem?_eq_some_iff.mp hc).1
    · exact h1 a ha
    · exact h2 a ha
  | _, _, _, _, _, .arr _ _ hr => repL_lt hr
  | _, _, _, _, _, .struct _ hr => repL_lt hr
  | _, _, _, _, _, .iface _ hr => by
    obtain ⟨h1, h2⟩ := repV_lt hr
    refine ⟨by simp, fun a ha => ?_⟩
    rw [List.mem_append] at ha
    rcases ha with ha | ha
    · exact h1 a ha
    · exact h2 a ha

theorem repL_lt : ∀ {ts : List Ty} {ws : List MVal} {vs : List Val} {own ro : List Nat}, RepL Γ h ts ws vs own ro →
    (∀ a ∈ own, a < h.length) ∧ (∀ a ∈ ro, a < h.length)
  | _, _, _, _, _, .nil => by simp
  | _, _, _, _, _, .cons hv hl => by
    obtain ⟨h1, h2⟩ := repV_lt hv
    obtain ⟨h3, h4⟩ := repL_lt hl
    refine ⟨fun a ha => ?_, fun a ha => ?_⟩ <;> rw [List.mem_append] at ha
    · exact ha.elim (h1 a) (h3 a)
    · exact ha.elim (h2 a) (h4 a)
end

mutual
/-- Pointers lead to `own`. -/
theorem repV_ptr : ∀ {t : Ty} {w : MVal} {v : Val} {own ro : List Nat}, RepV Γ h t w v own ro →
    ∀ {p : List Nat} {l : Loc}, MVal.part p w = some (.ptr l) → l.addr ∈ own
  | _, _, _, _, _, .prim _, p, l, hp => by cases p <;> simp [MVal.part, MVal.parts] at hp
  | _, _, _, _, _, .bytes _ _, p, l, hp => by cases p <;> simp [MVal.part, MVal.parts] at hp
  | _, _, _, _, _, .nilPtr, p, l, hp => by cases p <;> simp [MVal.part, MVal.parts] at hp
  | _, _, _, _, _, .ptr _ _, p, l, hp => by
    cases p with
    | nil => cases hp; exact List.mem_cons_self ..
    | cons i p => simp [MVal.part, MVal.parts] at hp
  | _, _, _, _, _, .nil _, p, l, hp => by cases p <;> simp [MVal.part, MVal.parts] at hp
  | _, _, _, _, _, .byteSlice _ _ _ _, p, l, hp => by cases p <;> simp [MVal.part, MVal.parts] at hp
  | _, _, _, _, _, .slice _ _ _ _ _, p, l, hp => by cases p <;> simp [MVal.part, MVal.parts] at hp
  | _, _, _, _, _, .arr _ _ hr, p, l, hp => by
    cases p with
    | nil => cases hp
    | cons i p => exact repL_ptr hr hp
  | _, _, _, _, _, .struct _ hr, p, l, hp => by
    cases p with
    | nil => cases hp
    | cons i p => exact repL_ptr hr hp
  | _, _, _, _, _, .iface _ _, p, l, hp => by cases p <;> simp [MVal.part, MVal.parts] at hp

theorem repL_ptr : ∀ {ts : List Ty} {ws : List MVal} {vs : List Val} {own ro : List Nat}, RepL Γ h ts ws vs own ro →
    ∀ {i : Nat} {p : List Nat} {l : Loc}, ws[i]?.bind (MVal.part p) = some (.ptr l) → l.addr ∈ own
  | _, _, _, _, _, .nil, i, p, l, hp => by simp at hp
  | _, _, _, _, _, .cons hv hl, i, p, l, hp => by
    cases i with
    | zero => exact List.mem_append_left _ (repV_ptr hv (by simpa using hp))
    | succ i => exact List.mem_append_right _ (repL_ptr hl (by simpa using hp))
end

mutual
/-- Pointers in the variables `own` lead to `own`. -/
theorem repV_own : ∀ {t : Ty} {w : MVal} {v : Val} {own ro : List Nat}, RepV Γ h t w v own ro →
    ∀ {a : Nat} {x : MVal} {p : List Nat} {l : Loc}, a ∈ own → h[a]? = some x → MVal.part p x = some (.ptr l) → l.addr ∈ own
  | _, _, _, _, _, .prim _, _, _, _, _, ha, _, _ => by cases ha
  | _, _, _, _, _, .bytes _ _, _, _, _, _, ha, _, _ => by cases ha
  | _, _, _, _, _, .nilPtr, _, _, _, _, ha, _, _ => by cases ha
  | _, _, _, _, _, .ptr hc hr, _, _, _, _, ha, hx, hp => by
    rw [List.mem_cons] at ha
    rcases ha with rfl | ha
    · rw [hc] at hx
      cases hx
      exact List.mem_cons_of_mem _ (repV_ptr hr hp)
    · exact List.mem_cons_of_mem _ (repV_own hr ha hx hp)
  | _, _, _, _, _, .nil _, _, _, _, _, ha, _, _ => by cases ha
  | _, _, _, _, _, .byteSlice _ _ _ _, _, _, _, _, ha, _, _ => by cases ha
  | _, _, _, _, _, .slice _ _ _ _ _, _, _, _, _, ha, _, _ => by cases ha
  | _, _, _, _, _, .arr _ _ hr, _, _, _, _, ha, hx, hp => repL_own hr ha hx hp
  | _, _, _, _, _, .struct _ hr, _, _, _, _, ha, hx, hp => repL_own hr ha hx hp
  | _, _, _, _, _, .iface _ _, _, _, _, _, ha, _, _ => by cases ha

theorem repL_own : ∀ {ts : List Ty} {ws : List MVal} {vs : List Val} {own ro : List Nat}, RepL Γ h ts ws vs own ro →
    ∀ {a : Nat} {x : MVal} {p : List Nat} {l : Loc}, a ∈ own → h[a]? = some x → MVal.part p x = some (.ptr l) → l.addr ∈ own
  | _, _, _, _, _, .nil, _, _, _, _, ha, _, _ => by cases ha
  | _, _, _, _, _, .cons hv hl, _, _, _, _, ha, hx, hp => by
    rw [List.mem_append] at ha ⊢
    exact ha.elim (fun ha => .inl (repV_own hv ha hx hp)) fun ha => .inr (repL_own hl ha hx hp)
end

theorem repL_length {ts : List Ty} {ws : List MVal} {vs : List Val} {own ro : List Nat} (hr : RepL Γ h ts ws vs own ro) :
    ws.length = ts.length ∧ vs.length = ts.length := by
  induction ts generalizing ws vs own ro with
  | nil => cases hr; simp
  | cons t ts ih => cases hr with | cons hv hl => obtain ⟨h1, h2⟩ := ih hl; simp [h1, h2]

/-! ## The region of an unshared variable -/

/-- The locations `B` with their parts, the variables `own`, and new memory. -/
def partRegion (h : Mem) (B : Loc → Prop) (own : List Nat) : Region where
  h0 := h
  W m := (∃ l, B l ∧ Under l m) ∨ m.addr ∈ own ∨ h.length ≤ m.addr
  F _ := True
  sub {m} i hw := by
    rcases hw with ⟨l, hb, h1, h2⟩ | hw
    · exact .inl ⟨l, hb, h1, h2.trans (List.prefix_append _ _)⟩
    · exact .inr hw
  freshW hf := .inr (.inr hf)
  freshF _ := trivial

theorem partRegion_inv {B : Loc → Prop} {own : List Nat}
    (h1 : ∀ {l : Loc} {w : MVal} {p : List Nat} {m : Loc}, B l → h.get l = some w → MVal.part p w = some (.ptr m) → m.addr ∈ own)
    (h2 : ∀ {a : Nat} {x : MVal} {p : List Nat} {m : Loc}, a ∈ own → h[a]? = some x → MVal.part p x = some (.ptr m) → m.addr ∈ own) :
    (partRegion h B own).Inv h where
  len := Nat.le_refl _
  frame _ := rfl
  ptr {m l'} hw hm := by
    rcases hw with ⟨l, hb, hu⟩ | ho | hf
    · obtain ⟨q, rfl⟩ := hu.eq
      rw [get_sub, Option.bind_eq_some_iff] at hm
      obtain ⟨w, hg, hm⟩ := hm
      exact .inr (.inl (h1 hb hg hm))
    · rw [Mem.get, Option.bind_eq_some_iff] at hm
      obtain ⟨x, hx, hm⟩ := hm
      exact .inr (.inl (h2 ho hx hm))
    · exact absurd (get_lt hm) (Nat.not_lt.mpr hf)
  refW _ _ _ := trivial
  refF _ _ _ := trivial

/-- Only new memory. -/
def newRegion (h : Mem) : Region where
  h0 := h
  W m := h.length ≤ m.addr
  F _ := True
  sub _ hw := hw
  freshW hf := hf
  freshF _ := trivial

theorem newRegion_inv (h : Mem) : (newRegion h).Inv h where
  len := Nat.le_refl _
  frame _ := rfl
  ptr hw hm := absurd (get_lt hm) (Nat.not_lt.mpr hw)
  refW _ _ _ := trivial
  refF _ _ _ := trivial

theorem Region.Inv.cell {R : Region} (hi : R.Inv h) {a : Nat} (ha : ∀ q, ¬ R.W ⟨a, q⟩) : h[a]? = R.h0[a]? := by
  have h1 := hi.same (m := ⟨a, []⟩) (by simpa using ha)
  have h2 : ∀ g : Mem, g.get ⟨a, []⟩ = g[a]? := by
    intro g; rw [Mem.get]; cases g[a]? <;> rfl
  rwa [h2, h2] at h1

theorem get_cell (h : Mem) (a : Nat) : h.get ⟨a, []⟩ = h[a]? := by
  rw [Mem.get]; cases h[a]? <;> rfl

end

end Amino
