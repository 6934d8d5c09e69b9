import Verif.SpecMem

/-!
# Reading and writing memory
-/

namespace Amino
open Spec

/-- A value without the contents of its parts. -/
def MVal.shallow : MVal → MVal
  | .arr vs => .arr (vs.map fun _ => .nil)
  | .struct vs => .struct (vs.map fun _ => .nil)
  | v => v

theorem part_append (p q : List Nat) : ∀ v : MVal, MVal.part (p ++ q) v = (MVal.part p v).bind (MVal.part q) := by
  induction p with
  | nil => intro v; rfl
  | cons i p ih =>
    intro v
    simp only [List.cons_append, MVal.part]
    cases v.parts[i]? with
    | none => rfl
    | some u => exact ih u

theorem withParts_parts {v : MVal} {ws : List MVal} {i : Nat} {u : MVal} (h : v.parts[i]? = some u) :
    (v.withParts ws).parts = ws := by
  cases v <;> simp_all [MVal.parts, MVal.withParts]

theorem setPart_none {w : MVal} (p : List Nat) : ∀ {v : MVal}, MVal.part p v = none → MVal.setPart w p v = v := by
  induction p with
  | nil => intro v h; cases h
  | cons i p ih =>
    intro v h
    simp only [MVal.part, MVal.setPart] at h ⊢
    split
    · rename_i u hu
      rw [hu] at h
      rw [ih h]
      cases v <;> simp_all [MVal.parts, MVal.withParts] <;>
      · obtain ⟨hi, rfl⟩ := List.getElem?_eq_some_iff.mp hu
        exact List.set_getElem_self hi
    · rfl

theorem part_setPart_self {w : MVal} (p : List Nat) : ∀ {v u : MVal}, MVal.part p v = some u →
    MVal.part p (MVal.setPart w p v) = some w := by
  induction p with
  | nil => intro v u h; rfl
  | cons i p ih =>
    intro v u h
    simp only [MVal.part, MVal.setPart] at h ⊢
    cases hu : v.parts[i]? with
    | none => rw [hu] at h; cases h
    | some x =>
      rw [hu] at h
      obtain ⟨hi, _⟩ := List.getElem?_eq_some_iff.mp hu
      simp only [withParts_parts hu]
      rw [List.getElem?_set_self hi]
      exact ih h

theorem shallow_withParts {v : MVal} {ws : List MVal} (h : ws.length = v.parts.length) :
    (v.withParts ws).shallow = v.shallow := by
  cases v <;> simp_all [MVal.parts, MVal.withParts, MVal.shallow, List.map_const']

theorem shallow_setPart {w : MVal} (p : List Nat) : ∀ (q : List Nat) (v : MVal), ¬ p <+: q →
    ((MVal.part q (MVal.setPart w p v)).map MVal.shallow) = (MVal.part q v).map MVal.shallow := by
  induction p with
  | nil => intro q v h; exact absurd (List.nil_prefix) h
  | cons i p ih =>
    intro q v h
    rw [MVal.setPart]
    split
    · rename_i u hu
      cases q with
      | nil =>
        simp only [MVal.part, Option.map_some]
        rw [shallow_withParts (by simp)]
      | cons j q =>
        simp only [MVal.part, withParts_parts hu]
        by_cases hij : i = j
        · subst hij
          obtain ⟨hi, _⟩ := List.getElem?_eq_some_iff.mp hu
          rw [List.getElem?_set_self hi, hu]
          exact ih q u fun hp => h (by rw [List.cons_prefix_cons]; exact ⟨rfl, hp⟩)
        · rw [List.getElem?_set_ne hij]
    · rfl

/-! ## References -/

theorem refs_iff_parts {v : MVal} {a : Nat} {i : Nat} {u : MVal} (h : v.parts[i]? = some u) (hu : MRefs u a) : MRefs v a := by
  have hm := List.mem_of_getElem? h
  cases v <;> simp only [MVal.parts, List.not_mem_nil] at hm
  · exact .arr hm hu
  · exact .struct hm hu

theorem refs_part {a : Nat} {u : MVal} (p : List Nat) : ∀ {v : MVal}, MVal.part p v = some u → MRefs u a → MRefs v a := by
  induction p with
  | nil => intro v h hu; cases h; exact hu
  | cons i p ih =>
    intro v h hu
    rw [MVal.part, Option.bind_eq_some_iff] at h
    obtain ⟨x, hx, h⟩ := h
    exact refs_iff_parts hx (ih h hu)

theorem refs_withParts {v : MVal} {ws : List MVal} {a : Nat} {i : Nat} {x : MVal} (h : v.parts[i]? = some x) :
    MRefs (v.withParts ws) a ↔ ∃ u ∈ ws, MRefs u a := by
  cases v <;> simp only [MVal.parts, List.getElem?_nil, reduceCtorEq] at h
  all_goals
    simp only [MVal.withParts]
    constructor
    · intro h
      cases h
      exact ⟨_, by assumption, by assumption⟩
    · rintro ⟨u, hm, hu⟩
      first | exact .arr hm hu | exact .struct hm hu

theorem refs_setPart {w : MVal} {a : Nat} (p : List Nat) : ∀ {v : MVal}, MRefs (MVal.setPart w p v) a → MRefs w a ∨ MRefs v a := by
  induction p with
  | nil => intro v h; exact .inl h
  | cons i p ih =>
    intro v h
    rw [MVal.setPart] at h
    split at h
    · rename_i u hu
      rw [refs_withParts hu] at h
      obtain ⟨x, hx, h⟩ := h
      rcases List.mem_or_eq_of_mem_set hx with hx | rfl
      · obtain ⟨j, hj⟩ := List.getElem?_of_mem hx
        exact .inr (refs_iff_parts hj h)
      · rcases ih h with h | h
        · exact .inl h
        · exact .inr (refs_iff_parts hu h)
    · exact .inr h

theorem refs_part_setPart {w u : MVal} {a : Nat} (p : List Nat) : ∀ (q : List Nat) {v : MVal},
    MVal.part q (MVal.setPart w p v) = some u → MRefs u a → MRefs w a ∨ ∃ x, MVal.part q v = some x ∧ MRefs x a := by
  induction p with
  | nil => intro q v h hu; exact .inl (refs_part q h hu)
  | cons i p ih =>
    intro q v h hu
    cases q with
    | nil =>
      cases h
      rcases refs_setPart _ hu with h | h
      · exact .inl h
      · exact .inr ⟨v, rfl, h⟩
    | cons j q =>
      rw [MVal.setPart] at h
      split at h
      · rename_i y hy
        rw [MVal.part, withParts_parts hy] at h
        by_cases hij : i = j
        · subst hij
          obtain ⟨hi, _⟩ := List.getElem?_eq_some_iff.mp hy
          rw [List.getElem?_set_self hi] at h
          rcases ih q h hu with h | ⟨x, hx, h⟩
          · exact .inl h
          · exact .inr ⟨x, by rw [MVal.part, hy]; exact hx, h⟩
        · rw [List.getElem?_set_ne hij] at h
          exact .inr ⟨u, by rw [MVal.part]; exact h, hu⟩
      · exact .inr ⟨u, h, hu⟩

/-! ## Memory -/

theorem get_append_old {h : Mem} {x : MVal} {l : Loc} (hl : l.addr < h.length) : Mem.get (h ++ [x]) l = h.get l := by
  rw [Mem.get, Mem.get, List.getElem?_append_left hl]

theorem get_append_new {h : Mem} {x : MVal} {l : Loc} (hl : l.addr = h.length) :
    Mem.get (h ++ [x]) l = MVal.part l.path x := by
  rw [Mem.get, hl]; simp

theorem get_lt {h : Mem} {l : Loc} {v : MVal} (hv : h.get l = some v) : l.addr < h.length := by
  rw [Mem.get, Option.bind_eq_some_iff] at hv
  obtain ⟨x, hx, _⟩ := hv
  exact (List.getElem?_eq_some_iff.mp hx).1

theorem length_put (h : Mem) (l : Loc) (w : MVal) : (h.put l w).length = h.length := by
  rw [Mem.put]; split <;> simp

theorem get_put_addr {h : Mem} {l m : Loc} {w : MVal} (hne : m.addr ≠ l.addr) : (h.put l w).get m = h.get m := by
  rw [Mem.put]; split
  · rw [Mem.get, Mem.get, List.getElem?_set_ne (Ne.symm hne)]
  · rfl

theorem cell_put {h : Mem} {l : Loc} {w : MVal} : (h.put l w)[l.addr]? = h[l.addr]?.map (MVal.setPart w l.path) := by
  rw [Mem.put]
  cases hv : h[l.addr]? with
  | none => simp [hv]
  | some v =>
    obtain ⟨hi, _⟩ := List.getElem?_eq_some_iff.mp hv
    simp [List.getElem?_set_self hi]

theorem cell_put_ne {h : Mem} {l : Loc} {w : MVal} {a : Nat} (ha : a ≠ l.addr) : (h.put l w)[a]? = h[a]? := by
  rw [Mem.put]; split
  · rw [List.getElem?_set_ne (Ne.symm ha)]
  · rfl

theorem get_put_self {h : Mem} {l : Loc} {w v : MVal} (hv : h.get l = some v) : (h.put l w).get l = some w := by
  rw [Mem.get, Option.bind_eq_some_iff] at hv
  obtain ⟨x, hx, hv⟩ := hv
  rw [Mem.get, cell_put, hx]
  exact part_setPart_self _ hv

theorem get_sub (h : Mem) (l : Loc) (q : List Nat) : h.get ⟨l.addr, l.path ++ q⟩ = (h.get l).bind (MVal.part q) := by
  rw [Mem.get, Mem.get]
  cases h[l.addr]? with
  | none => rfl
  | some v => exact part_append _ _ _

/-- Location `m` is a part of location `l`, or the same. -/
def Under (l m : Loc) : Prop := m.addr = l.addr ∧ l.path <+: m.path

theorem Under.eq {l m : Loc} (h : Under l m) : ∃ q, m = ⟨l.addr, l.path ++ q⟩ := by
  obtain ⟨h1, q, h2⟩ := h
  exact ⟨q, by cases m; simp_all⟩

theorem shallow_put {h : Mem} {l m : Loc} {w : MVal} (hn : ¬ Under l m) :
    ((h.put l w).get m).map MVal.shallow = (h.get m).map MVal.shallow := by
  by_cases ha : m.addr = l.addr
  · rw [Mem.get, Mem.get, ha, cell_put]
    cases h[l.addr]? with
    | none => rfl
    | some v => exact shallow_setPart _ _ _ fun hp => hn ⟨ha, hp⟩
  · rw [get_put_addr ha]

theorem refs_put {h : Mem} {l m : Loc} {w u : MVal} {a : Nat} (hu : (h.put l w).get m = some u) (hr : MRefs u a) :
    MRefs w a ∨ ∃ x, h.get m = some x ∧ MRefs x a := by
  by_cases ha : m.addr = l.addr
  · rw [Mem.get, ha, cell_put] at hu
    cases hv : h[l.addr]? with
    | none => rw [hv] at hu; cases hu
    | some v =>
      rw [hv] at hu
      rcases refs_part_setPart _ _ hu hr with hr | ⟨x, hx, hr⟩
      · exact .inl hr
      · exact .inr ⟨x, by rw [Mem.get, ha, hv]; exact hx, hr⟩
  · rw [get_put_addr ha] at hu
    exact .inr ⟨u, hu, hr⟩

theorem shallow_ptr {v : MVal} {l : Loc} : v.shallow = .ptr l ↔ v = .ptr l := by
  cases v <;> simp [MVal.shallow]

/-! ## Regions -/

/-- What a call may do: write to the locations `W`, refer to the variables `F`; new variables are in both. -/
structure Region where
  h0 : Mem
  W : Loc → Prop
  F : Nat → Prop
  sub : ∀ {l} i, W l → W (l.sub i)
  freshW : ∀ {l : Loc}, h0.length ≤ l.addr → W l
  freshF : ∀ {a}, h0.length ≤ a → F a

/-- Memory `h` can have come from `h0` by such a call. -/
structure Region.Inv (R : Region) (h : Mem) : Prop where
  len : R.h0.length ≤ h.length
  frame : ∀ {l}, ¬ R.W l → (h.get l).map MVal.shallow = (R.h0.get l).map MVal.shallow
  ptr : ∀ {l l'}, R.W l → h.get l = some (.ptr l') → R.W l'
  refW : ∀ {l v a}, R.W l → h.get l = some v → MRefs v a → R.F a
  refF : ∀ {a v b}, R.F a → h[a]? = some v → MRefs v b → R.F b

/-- A value that may be stored. -/
structure Region.Fine (R : Region) (v : MVal) : Prop where
  ptr : ∀ {p l'}, MVal.part p v = some (.ptr l') → R.W l'
  ref : ∀ {a}, MRefs v a → R.F a

section
variable {R : Region} {h : Mem}

theorem Region.under (R : Region) {l m : Loc} (hw : R.W l) (hu : Under l m) : R.W m := by
  obtain ⟨q, rfl⟩ := hu.eq
  clear hu
  induction q generalizing l with
  | nil => simpa using hw
  | cons i q ih =>
    have := ih (R.sub i hw)
    simpa [Loc.sub] using this

theorem Region.Inv.put (hi : R.Inv h) {l : Loc} (hw : R.W l) {v : MVal} (hv : R.Fine v) : R.Inv (h.put l v) where
  len := by rw [length_put]; exact hi.len
  frame {m} hm := by rw [shallow_put fun hu => hm (R.under hw hu)]; exact hi.frame hm
  ptr {m l'} hm hg := by
    by_cases hu : Under l m
    · obtain ⟨q, rfl⟩ := hu.eq
      cases hl : h.get l with
      | none =>
        have : h.put l v = h := by
          rw [Mem.put]
          cases hx : h[l.addr]? with
          | none => rfl
          | some x =>
            rw [Mem.get, hx] at hl
            simp only
            rw [setPart_none _ hl]
            obtain ⟨hi, rfl⟩ := List.getElem?_eq_some_iff.mp hx
            exact List.set_getElem_self hi
        rw [this] at hg
        exact hi.ptr hm hg
      | some x =>
        rw [get_sub, get_put_self hl] at hg
        exact hv.ptr hg
    · have := shallow_put (h := h) (w := v) hu
      rw [hg] at this
      cases hx : h.get m with
      | none => rw [hx] at this; cases this
      | some x =>
        rw [hx] at this
        simp only [Option.map_some, Option.some.injEq] at this
        rw [shallow_ptr.mp this.symm] at hx
        exact hi.ptr hm hx
  refW {m u a} hm hg hr := by
    rcases refs_put hg hr with hr | ⟨x, hx, hr⟩
    · exact hv.ref hr
    · exact hi.refW hm hx hr
  refF {a u b} ha hg hr := by
    have hg' : (h.put l v).get ⟨a, []⟩ = some u := by rw [Mem.get, hg]; rfl
    rcases refs_put hg' hr with hr | ⟨x, hx, hr⟩
    · exact hv.ref hr
    · refine hi.refF ha (v := x) ?_ hr
      rw [Mem.get] at hx
      cases hc : h[a]? with
      | none => simp only [hc] at hx; cases hx
      | some y => simp only [hc] at hx; exact hx

theorem Region.Inv.alloc (hi : R.Inv h) {v : MVal} (hv : R.Fine v) : R.Inv (h ++ [v]) where
  len := by simp only [List.length_append]; have := hi.len; omega
  frame {m} hm := by
    have : m.addr < R.h0.length := Nat.lt_of_not_le fun h => hm (R.freshW h)
    rw [get_append_old (by have := hi.len; omega)]
    exact hi.frame hm
  ptr {m l'} hm hg := by
    have := get_lt hg
    simp only [List.length_append, List.length_singleton] at this
    by_cases ha : m.addr = h.length
    · rw [get_append_new ha] at hg; exact hv.ptr hg
    · rw [get_append_old (by omega)] at hg; exact hi.ptr hm hg
  refW {m u a} hm hg hr := by
    have := get_lt hg
    simp only [List.length_append, List.length_singleton] at this
    by_cases ha : m.addr = h.length
    · rw [get_append_new ha] at hg; exact hv.ref (refs_part _ hg hr)
    · rw [get_append_old (by omega)] at hg; exact hi.refW hm hg hr
  refF {a u b} ha hg hr := by
    by_cases hl : a < h.length
    · rw [List.getElem?_append_left hl] at hg; exact hi.refF ha hg hr
    · obtain ⟨hlt, _⟩ := List.getElem?_eq_some_iff.mp hg
      simp only [List.length_append, List.length_singleton] at hlt
      have : a = h.length := by omega
      subst this
      simp only [List.getElem?_concat_length, Option.some.injEq] at hg
      subst hg
      exact hv.ref hr

theorem Region.Inv.fine (hi : R.Inv h) {l : Loc} (hw : R.W l) {v : MVal} (hv : h.get l = some v) : R.Fine v where
  ptr {p l'} hp := by
    have hg : h.get ⟨l.addr, l.path ++ p⟩ = some (.ptr l') := by rw [get_sub, hv]; exact hp
    exact hi.ptr (R.under (m := ⟨l.addr, l.path ++ p⟩) hw ⟨rfl, List.prefix_append _ _⟩) hg
  ref {a} hr := hi.refW hw hv hr

theorem Region.fine_nil (R : Region) : R.Fine .nil where
  ptr {p l'} hp := by cases p <;> simp [MVal.part, MVal.parts] at hp
  ref {a} hr := by cases hr

theorem Region.fine_prim (R : Region) (v : Val) : R.Fine (.prim v) where
  ptr {p l'} hp := by cases p <;> simp [MVal.part, MVal.parts] at hp
  ref {a} hr := by cases hr

theorem Region.fine_ptr {l : Loc} (hw : R.W l) (hf : R.F l.addr) : R.Fine (.ptr l) where
  ptr {p l'} hp := by
    cases p with
    | nil => cases hp; exact hw
    | cons i p => simp [MVal.part, MVal.parts] at hp
  ref {a} hr := by cases hr; exact hf

theorem Region.fine_slice {a off len : Nat} (hf : R.F a) : R.Fine (.slice a off len) where
  ptr {p l'} hp := by cases p <;> simp [MVal.part, MVal.parts] at hp
  ref {a} hr := by cases hr; exact hf

theorem Region.fine_arr {vs : List MVal} (hv : ∀ v ∈ vs, R.Fine v) : R.Fine (.arr vs) where
  ptr {p l'} hp := by
    cases p with
    | nil => cases hp
    | cons i p =>
      rw [MVal.part, Option.bind_eq_some_iff] at hp
      obtain ⟨x, hx, hp⟩ := hp
      exact (hv x (List.mem_of_getElem? hx)).ptr hp
  ref {a} hr := by cases hr with | arr hm hr => exact (hv _ hm).ref hr

theorem Region.fine_struct {vs : List MVal} (hv : ∀ v ∈ vs, R.Fine v) : R.Fine (.struct vs) where
  ptr {p l'} hp := by
    cases p with
    | nil => cases hp
    | cons i p =>
      rw [MVal.part, Option.bind_eq_some_iff] at hp
      obtain ⟨x, hx, hp⟩ := hp
      exact (hv x (List.mem_of_getElem? hx)).ptr hp
  ref {a} hr := by cases hr with | struct hm hr => exact (hv _ hm).ref hr

theorem Region.fine_iface {t : Ty} {v : MVal} (hv : R.Fine v) : R.Fine (.iface t v) where
  ptr {p l'} hp := by cases p <;> simp [MVal.part, MVal.parts] at hp
  ref {a} hr := by cases hr with | iface hr => exact hv.ref hr

mutual
theorem Region.fine_zero (R : Region) : ∀ v : Val, R.Fine (ofZero v)
  | .list vs => by rw [ofZero]; exact R.fine_arr (Region.fine_zeros R vs)
  | .struct vs => by rw [ofZero]; exact R.fine_struct (Region.fine_zeros R vs)
  | .nil => by rw [ofZero]; exact R.fine_nil
  | .ptr _ => by rw [ofZero]; exact R.fine_nil
  | .iface _ _ => by rw [ofZero]; exact R.fine_nil
  | .map _ => by rw [ofZero]; exact R.fine_nil
  | .bool _ => by rw [ofZero] <;> first | exact R.fine_prim _ | simp
  | .int _ => by rw [ofZero] <;> first | exact R.fine_prim _ | simp
  | .f32 _ => by rw [ofZero] <;> first | exact R.fine_prim _ | simp
  | .f64 _ => by rw [ofZero] <;> first | exact R.fine_prim _ | simp
  | .str _ => by rw [ofZero] <;> first | exact R.fine_prim _ | simp
  | .time _ _ => by rw [ofZero] <;> first | exact R.fine_prim _ | simp
  | .bytes _ => by rw [ofZero] <;> first | exact R.fine_prim _ | simp

theorem Region.fine_zeros (R : Region) : ∀ vs : List Val, ∀ w ∈ ofZeros vs, R.Fine w
  | [], _, hw => by cases hw
  | v :: vs, w, hw => by
    rw [ofZeros, List.mem_cons] at hw
    rcases hw with rfl | hw
    · exact Region.fine_zero R v
    · exact Region.fine_zeros R vs w hw
end

end

end Amino
