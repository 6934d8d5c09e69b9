import Verif.MemInv
import Verif.MemJDecode

/-!
# The JSON decoder stays within its region
-/

namespace Amino
open Spec

/-- Variable `a` is a byte array. -/
def Spec.ByteVar (h : Mem) (a : Nat) : Prop := ∃ b, h[a]? = some (.prim (.bytes b))

/-- Memory `h` can have come from `h0` by a call that may also write to the byte arrays behind the slices it finds. -/
structure Region.JInv (R : Region) (h : Mem) : Prop where
  inv : R.Inv h
  sl : ∀ {l a off len}, R.W l → h.get l = some (.slice a off len) → ByteVar R.h0 a → R.W ⟨a, []⟩

structure Region.JFine (R : Region) (v : MVal) : Prop where
  fine : R.Fine v
  sl : ∀ {p a off len}, MVal.part p v = some (.slice a off len) → ByteVar R.h0 a → R.W ⟨a, []⟩

/-- UnmarshalJSON and UnmarshalAmino methods write only to their receiver, what its pointers and byte slices lead to, and new
memory, and store references only to what they can reach; in particular they do not keep the text. -/
structure Spec.MethodsLocalJ (Γ : MProg) (J : MJLib) : Prop where
  amino : ∀ (R : Region) (id : TId) (r : MVal) (l : Loc) (h : Mem), R.JInv h → R.W l → R.JFine r → R.JInv (Γ.unmarshM id r l h).2
  json : ∀ (R : Region) (id : TId) (l : Loc) (bz : Bytes) (h : Mem), R.JInv h → R.W l → R.JInv (J.unmarshJM id l bz h).2

theorem shallow_slice {v : MVal} {a off len : Nat} : v.shallow = .slice a off len ↔ v = .slice a off len := by
  cases v <;> simp [MVal.shallow]

theorem zero_noRefs (v : Val) (a : Nat) : ¬ MRefs (ofZero v) a := by
  intro hr
  let R : Region := {
    h0 := List.replicate (a + 1) .nil
    W := fun _ => True
    F := fun b => b ≠ a
    sub := fun _ _ => trivial
    freshW := fun _ => trivial
    freshF := fun h => by simp at h; omega }
  exact (R.fine_zero v).ref hr rfl

section
variable {R : Region} {h : Mem}

theorem Region.JInv.put (hi : R.JInv h) {l : Loc} (hw : R.W l) {v : MVal} (hv : R.JFine v) : R.JInv (h.put l v) where
  inv := hi.inv.put hw hv.fine
  sl {m a off len} hm hg hb := by
    by_cases hu : Under l m
    · obtain ⟨q, rfl⟩ := hu.eq
      cases hl : h.get l with
      | none =>
        have : h.put l v = h := by
          rw [Mem.put]
          cases hx : h[l.addr]? with
          | none => rfl
          | some x =>
            rw [Mem.get, hx] at hl
            simp only
            rw [setPart_none _ hl]
            obtain ⟨hi, rfl⟩ := List.getElem?_eq_some_iff.mp hx
            exact List.set_getElem_self hi
        rw [this] at hg
        exact hi.sl hm hg hb
      | some x =>
        rw [get_sub, get_put_self hl] at hg
        exact hv.sl hg hb
    · have := shallow_put (h := h) (w := v) hu
      rw [hg] at this
      cases hx : h.get m with
      | none => rw [hx] at this; cases this
      | some x =>
        rw [hx] at this
        simp only [Option.map_some, Option.some.injEq] at this
        rw [shallow_slice.mp this.symm] at hx
        exact hi.sl hm hx hb

theorem Region.JInv.alloc (hi : R.JInv h) {v : MVal} (hv : R.JFine v) : R.JInv (h ++ [v]) where
  inv := hi.inv.alloc hv.fine
  sl {m a off len} hm hg hb := by
    have := get_lt hg
    simp only [List.length_append, List.length_singleton] at this
    by_cases ha : m.addr = h.length
    · rw [get_append_new ha] at hg; exact hv.sl hg hb
    · rw [get_append_old (by omega)] at hg; exact hi.sl hm hg hb

theorem Region.jfine_noRefs {v : MVal} (hf : R.Fine v) (hn : ∀ a, ¬ MRefs v a) : R.JFine v where
  fine := hf
  sl {p a _ _} hp _ := absurd (refs_part p hp .slice) (hn a)

theorem Region.jfine_nil (R : Region) : R.JFine .nil := Region.jfine_noRefs R.fine_nil fun a h => by cases h

theorem Region.jfine_prim (R : Region) (v : Val) : R.JFine (.prim v) := Region.jfine_noRefs (R.fine_prim v) fun a h => by cases h

theorem Region.jfine_zero (R : Region) (v : Val) : R.JFine (ofZero v) := Region.jfine_noRefs (R.fine_zero v) (zero_noRefs v)

theorem Region.jfine_ptr {l : Loc} (hw : R.W l) (hf : R.F l.addr) : R.JFine (.ptr l) where
  fine := R.fine_ptr hw hf
  sl {p a off len} hp _ := by cases p <;> simp [MVal.part, MVal.parts] at hp

theorem Region.jfine_slice {a off len : Nat} (hf : R.F a) (hw : ByteVar R.h0 a → R.W ⟨a, []⟩) : R.JFine (.slice a off len) where
  fine := R.fine_slice hf
  sl {p a off len} hp hb := by
    cases p with
    | nil => cases hp; exact hw hb
    | cons i p => simp [MVal.part, MVal.parts] at hp

theorem Region.jfine_map {a : Nat} (hf : R.F a) : R.JFine (.map a) where
  fine := {
    ptr := fun {p l'} hp => by cases p <;> simp [MVal.part, MVal.parts] at hp
    ref := fun {b} hr => by cases hr; exact hf }
  sl {p a off len} hp _ := by cases p <;> simp [MVal.part, MVal.parts] at hp

theorem Region.jfine_arr {vs : List MVal} (hv : ∀ v ∈ vs, R.JFine v) : R.JFine (.arr vs) where
  fine := R.fine_arr fun v hm => (hv v hm).fine
  sl {p a off len} hp hb := by
    cases p with
    | nil => cases hp
    | cons i p =>
      rw [MVal.part, Option.bind_eq_some_iff] at hp
      obtain ⟨x, hx, hp⟩ := hp
      exact (hv x (List.mem_of_getElem? hx)).sl hp hb

theorem Region.jfine_iface {t : Ty} {v : MVal} (hv : R.JFine v) : R.JFine (.iface t v) where
  fine := R.fine_iface hv.fine
  sl {p a off len} hp _ := by cases p <;> simp [MVal.part, MVal.parts] at hp

theorem Region.JInv.newW (hi : R.JInv h) : R.W ⟨h.length, []⟩ := hi.inv.newW

theorem Region.JInv.newF (hi : R.JInv h) : R.F h.length := hi.inv.newF

theorem Region.JInv.jfine (hi : R.JInv h) {l : Loc} (hw : R.W l) {v : MVal} (hv : h.get l = some v) : R.JFine v where
  fine := hi.inv.fine hw hv
  sl {p a off len} hp hb := by
    have hg : h.get ⟨l.addr, l.path ++ p⟩ = some (.slice a off len) := by rw [get_sub, hv]; exact hp
    exact hi.sl (R.under (m := ⟨l.addr, l.path ++ p⟩) hw ⟨rfl, List.prefix_append _ _⟩) hg hb

theorem Region.JInv.valueAt (hi : R.JInv h) {l : Loc} (hw : R.W l) : R.JFine (Amino.valueAt h l) := by
  unfold Amino.valueAt
  cases hg : h.get l with
  | none => exact R.jfine_nil
  | some v => exact hi.jfine hw hg

end

section
variable {Γ : MProg} {c : Codec} {J : MJLib} {R : Region}

theorem Region.JInv.allocZero {h : Mem} (hi : R.JInv h) (t : Ty) : R.JInv (h ++ [zeroM Γ t]) := hi.alloc (R.jfine_zero _)

def RecJInv (R : Region) (rec : Ty → Loc → FOpts → Bytes → Mem → JMRes Unit) : Prop :=
  ∀ t l fo bz h, R.JInv h → R.W l → R.JInv (rec t l fo bz h).2

theorem jinv_andThen {α β : Type} {r : JMRes α} {k : α → Mem → JMRes β} (hr : R.JInv r.2)
    (hk : ∀ a h, r = (.ok a, h) → R.JInv (k a h).2) : R.JInv (r.andThen k).2 := by
  obtain ⟨d, h⟩ := r
  cases d <;> first | exact hr | exact hk _ _ rfl

theorem jinv_infoThen {α : Type} {id : TId} {h : Mem} {k : JMRes α} (hi : R.JInv h) (hk : R.JInv k.2) :
    R.JInv (jInfoThen Γ c id h k).2 := by
  unfold jInfoThen
  split <;> first | exact hi | exact hk

theorem jinv_chase {k : Loc → Mem → JMRes Unit} (hk : ∀ l h, R.JInv h → R.W l → R.JInv (k l h).2) (t : Ty) :
    ∀ {l : Loc} {h : Mem}, R.JInv h → R.W l → R.JInv (jChase Γ t l h k).2 := by
  induction t with
  | base id => intro l h hi hw; exact hk l h hi hw
  | ptr t ih =>
    intro l h hi hw
    unfold jChase
    split
    · rename_i l' hg
      exact ih hi (hi.inv.ptr hw hg)
    · exact ih ((hi.allocZero t).put hw (R.jfine_ptr hi.newW hi.newF)) hi.newW
    · exact hi

/-- The slice at `off` of array `a` may be written to. -/
def MayWrite (R : Region) (a : Nat) : Prop := R.F a ∧ (ByteVar R.h0 a → R.W ⟨a, []⟩)

theorem MayWrite.now {h : Mem} {a : Nat} (hi : R.JInv h) (hm : MayWrite R a) {b : Bytes} (hb : h[a]? = some (.prim (.bytes b))) :
    R.W ⟨a, []⟩ := by
  refine Classical.byContradiction fun hn => hn (hm.2 ?_)
  have hf := hi.inv.frame hn
  rw [Mem.get, hb] at hf
  rw [Mem.get] at hf
  cases hx : R.h0[a]? with
  | none => simp [hx, MVal.part] at hf
  | some x =>
    simp only [hx, Option.bind_some, MVal.part, Option.map_some, Option.some.injEq] at hf
    cases x <;> simp [MVal.shallow] at hf
    exact ⟨b, by rw [hx, hf]⟩

theorem jByteElems_inv (es : List Bytes) : ∀ (i a off : Nat) (h : Mem), R.JInv h → MayWrite R a ∨ a = h.length →
    R.JInv (jByteElems es i a off h).2.2 ∧ (es ≠ [] → MayWrite R (jByteElems es i a off h).1.1) := by
  induction es with
  | nil => intro i a off h hi hm; exact ⟨hi, fun h => absurd rfl h⟩
  | cons e es ih =>
    intro i a off h hi hm
    have hgrow : ∀ g : Nat × Nat × Mem, g = (if i < (bytesAt h a).length - off then (a, off, h)
        else (h.length, 0, h ++ [.prim (.bytes ((bytesAt h a).drop off ++
          List.replicate (max 4 ((bytesAt h a).length - off + ((bytesAt h a).length - off) / 2) - ((bytesAt h a).length - off)) 0))])) →
        R.JInv g.2.2 ∧ MayWrite R g.1 ∧ ∃ b, g.2.2[g.1]? = some (.prim (.bytes b)) := by
      rintro g rfl
      split
      · rename_i hlt
        have hb : ∃ b, h[a]? = some (.prim (.bytes b)) := by
          unfold bytesAt at hlt
          split at hlt
          · exact ⟨_, by assumption⟩
          · simp at hlt
        refine ⟨hi, ?_, hb⟩
        rcases hm with hm | rfl
        · exact hm
        · obtain ⟨b, hb⟩ := hb; simp at hb
      · exact ⟨hi.alloc (R.jfine_prim _), ⟨hi.newF, fun _ => hi.newW⟩, _, List.getElem?_concat_length⟩
    unfold jByteElems
    simp only
    generalize hg : (if i < (bytesAt h a).length - off then (a, off, h)
        else (h.length, 0, h ++ [.prim (.bytes ((bytesAt h a).drop off ++
          List.replicate (max 4 ((bytesAt h a).length - off + ((bytesAt h a).length - off) / 2) - ((bytesAt h a).length - off)) 0))])) = g
    obtain ⟨h1, h2, b, h3⟩ := hgrow g hg.symm
    have hput : R.JInv (match byteElem e with
      | some (some x) => g.2.2.put ⟨g.1, []⟩ (.prim (.bytes ((bytesAt g.2.2 g.1).set (g.2.1 + i) x)))
      | _ => g.2.2) := by
      split
      · exact h1.put (h2.now h1 h3) (R.jfine_prim _)
      · exact h1
    obtain ⟨h4, h5⟩ := ih (i + 1) g.1 g.2.1 _ hput (.inl h2)
    refine ⟨h4, fun _ => ?_⟩
    cases es with
    | nil => exact h2
    | cons x xs => exact h5 (by simp)

theorem jByteSlice_inv {l : Loc} {bz : Bytes} {h : Mem} (hi : R.JInv h) (hw : R.W l) : R.JInv (jByteSlice l bz h).2 := by
  unfold jByteSlice
  simp only
  split
  · exact hi
  · exact hi
  · rename_i a off raw hold _
    have hm : MayWrite R a ∨ a = h.length := by
      split at hold
      · cases hold; exact .inr rfl
      · rename_i hg
        cases hold
        exact .inl ⟨hi.inv.refW hw hg .slice, hi.sl hw hg⟩
      · cases hold
    split
    · exact hi.put hw R.jfine_nil
    · split
      · split
        · exact hi
        · split
          · exact hi.put hw R.jfine_nil
          · exact (hi.alloc (R.jfine_prim _)).put hw (R.jfine_slice hi.newF fun _ => hi.newW)
      · split
        · split
          · exact hi
          · split
            · exact hi.put hw R.jfine_nil
            · rename_i es _ _ hne
              obtain ⟨h1, h2⟩ := jByteElems_inv es 0 a off h hi hm
              have := h2 (by simpa using hne)
              exact h1.put hw (R.jfine_slice this.1 this.2)
        · exact hi

variable {rec : Ty → Loc → FOpts → Bytes → Mem → JMRes Unit} (hrec : RecJInv R rec)
include hrec

theorem jmIface_inv {id : TId} {l : Loc} {fo : FOpts} {bz : Bytes} {h : Mem} (hi : R.JInv h) (hw : R.W l) :
    R.JInv (jmIface Γ c rec id l fo bz h).2 := by
  have hIf : ∀ {ci : ConcInfo} {v : Loc} {h' : Mem}, R.JInv h' → R.W v → R.F v.addr → R.JInv (h'.put l (ifaceOf ci v h')) := by
    intro ci v h' hi' hv hf
    refine hi'.put hw ?_
    unfold ifaceOf
    refine R.jfine_iface ?_
    split
    · exact R.jfine_ptr hv hf
    · exact hi'.valueAt hv
  unfold jmIface
  have hn := hi.put hw R.jfine_nil
  refine jinv_andThen hn fun nd h' he => ?_
  have hn' : R.JInv h' := by
    have := congrArg Prod.snd he
    simp only at this
    rw [← this]; exact hn
  split
  · exact hn'
  · rename_i ci _
    simp only
    have hr := hrec (.base ci.tid) ⟨h'.length, []⟩ fo nd.2 (h' ++ [zeroM Γ (.base ci.tid)]) (hn'.allocZero _) hn'.newW
    revert hr
    generalize rec (.base ci.tid) ⟨h'.length, []⟩ fo nd.2 (h' ++ [zeroM Γ (.base ci.tid)]) = r
    intro hr
    obtain ⟨d, h''⟩ := r
    cases d <;> simp only
    · split
      · exact hIf hr hn'.newW hn'.newF
      · exact hr
    · split
      · exact hIf hr hn'.newW hn'.newF
      · exact hr
    · exact hr
    · exact hr

theorem jmArr_inv (e : Ty) {l : Loc} (fo : FOpts) (bs : List Bytes) : ∀ (i : Nat) (h : Mem), (∀ j, i ≤ j → R.W (l.sub j)) → R.JInv h →
    R.JInv (jmArr rec e l fo i bs h).2 := by
  induction bs with
  | nil => intro i h hw hi; exact hi
  | cons b bs ih =>
    intro i h hw hi
    unfold jmArr
    have h1 := hrec e (l.sub i) fo b h hi (hw i (Nat.le_refl i))
    refine jinv_andThen h1 fun _ h' he => ih _ _ (fun j hj => hw j (by omega)) ?_
    rw [he] at h1
    exact h1

theorem jmField_inv {fo : FOpts} {m : List (Bytes × Bytes)} {f : Field} {l : Loc} {h : Mem} (hw : R.W l) (hi : R.JInv h) :
    R.JInv (jmField Γ rec fo m f l h).2 := by
  have ha : R.JInv (if f.opts.omitEmpty then h else h.put l (zeroM Γ f.ty)) := by
    split
    · exact hi
    · exact hi.put hw (R.jfine_zero _)
  unfold jmField
  simp only
  split
  · exact ha
  · split
    · exact ha
    · exact hrec _ _ _ _ _ hi hw

theorem jmFields_inv {l : Loc} {fo : FOpts} {m : List (Bytes × Bytes)} (fs : List Field) : ∀ (i : Nat) (h : Mem),
    (∀ j, i ≤ j → R.W (l.sub j)) → R.JInv h → R.JInv (jmFields Γ c rec l fo m fs i h).2 := by
  induction fs with
  | nil => intro i h hw hi; exact hi
  | cons f fs ih =>
    intro i h hw hi
    unfold jmFields
    split
    · refine jinv_infoThen hi ?_
      have h1 := jmField_inv (Γ := Γ) hrec (fo := fo) (m := m) (f := f) (hw i (Nat.le_refl i)) hi
      refine jinv_andThen h1 fun _ h' he => ih _ _ (fun j hj => hw j (by omega)) ?_
      rw [he] at h1
      exact h1
    · exact ih _ _ (fun j hj => hw j (by omega)) hi

theorem jmEntries_inv (e : Ty) (fo : FOpts) (m : List (Bytes × Bytes)) : ∀ (h : Mem), R.JInv h →
    R.JInv (jmEntries Γ rec e fo m h).2 ∧ ∀ vs, (jmEntries Γ rec e fo m h).1 = .ok vs → ∀ v ∈ vs, R.JFine v := by
  induction m with
  | nil => intro h hi; exact ⟨hi, fun vs h => by cases h; simp⟩
  | cons kb m ih =>
    intro h hi
    obtain ⟨k, b⟩ := kb
    unfold jmEntries
    simp only
    have h1 := hrec e ⟨h.length, []⟩ fo b (h ++ [zeroM Γ e]) (hi.allocZero e) hi.newW
    revert h1
    generalize rec e ⟨h.length, []⟩ fo b (h ++ [zeroM Γ e]) = r
    intro h1
    obtain ⟨d, h'⟩ := r
    cases d <;> simp only [JMRes.andThen]
    · obtain ⟨h2, h3⟩ := ih h' h1
      revert h2 h3
      generalize jmEntries Γ rec e fo m h' = r
      intro h2 h3
      obtain ⟨d, h''⟩ := r
      cases d <;> simp only
      · refine ⟨h2, fun vs he v hv => ?_⟩
        cases he
        rw [List.mem_cons, List.mem_cons] at hv
        rcases hv with rfl | rfl | hv
        · exact R.jfine_prim _
        · exact h1.valueAt hi.newW
        · exact h3 _ rfl v hv
      all_goals exact ⟨h2, fun vs he => by cases he⟩
    all_goals exact ⟨h1, fun vs he => by cases he⟩

theorem jmShape_inv {id : TId} {l : Loc} {fo : FOpts} {bz : Bytes} {h : Mem} (hi : R.JInv h) (hw : R.W l) :
    R.JInv (jmShape Γ c J rec id l fo bz h).2 := by
  unfold jmShape
  split
  · exact jmIface_inv hrec hi hw
  · split
    · unfold jmByteArr
      repeat' split
      all_goals first | exact hi | exact hi.put hw (R.jfine_prim _)
    · refine jinv_infoThen hi ?_
      split
      · exact hi
      · split
        · exact hi
        · exact jmArr_inv hrec _ _ _ _ _ (fun j _ => R.sub j hw) hi
  · split
    · exact jByteSlice_inv hi hw
    · refine jinv_infoThen hi ?_
      split
      · exact hi
      · split
        · exact hi.put hw R.jfine_nil
        · rename_i e _ _ _ raws _ _
          simp only
          have ha : R.JInv (h ++ [.arr (List.replicate raws.length (zeroM Γ e))]) :=
            hi.alloc (R.jfine_arr fun v hv => by rw [List.eq_of_mem_replicate hv]; exact R.jfine_zero _)
          have h1 := jmArr_inv hrec e fo raws 0 _ (fun j _ => R.sub j hi.newW) ha
          refine jinv_andThen h1 fun _ h' he => ?_
          rw [he] at h1
          exact Region.JInv.put h1 hw (R.jfine_slice hi.newF fun _ => hi.newW)
  · split
    · exact hi
    · exact jmFields_inv hrec _ _ _ (fun j _ => R.sub j hw) hi
  · split
    · exact hi
    · refine jinv_infoThen hi ?_
      rename_i e _ _ m _
      obtain ⟨h1, h2⟩ := jmEntries_inv (Γ := Γ) hrec e fo m h hi
      refine jinv_andThen h1 fun kvs h' he => ?_
      rw [he] at h1 h2
      have h3 : R.JInv h' := h1
      exact (h3.alloc (R.jfine_arr (h2 kvs rfl))).put hw (R.jfine_map h3.newF)
  · split
    · exact hi.put hw (R.jfine_prim _)
    · simp only
      split
      · exact hi.put hw (R.jfine_zero _)
      · exact hi
    · exact hi
    · exact hi

theorem jmBase_inv (hm : MethodsLocalJ Γ J) {id : TId} {fo : FOpts} {bz : Bytes} {l : Loc} {h : Mem} (hi : R.JInv h)
    (hw : R.W l) : R.JInv (jmBase Γ c J rec id fo bz l h).2 := by
  unfold jmBase
  split
  · exact jmShape_inv hrec hi hw
  · split
    · exact hm.json R id l bz h hi hw
    · split
      · rename_i rid _ _
        refine jinv_infoThen hi ?_
        simp only
        have h1 := hrec (.base rid) ⟨h.length, []⟩ fo bz _ (hi.allocZero (Γ := Γ) (.base rid)) hi.newW
        refine jinv_andThen h1 fun _ h' he => ?_
        rw [he] at h1
        exact hm.amino R id _ l h' h1 hw (Region.JInv.valueAt h1 hi.newW)
      · exact jmShape_inv hrec hi hw

omit hrec in
theorem jmdec_inv (hm : MethodsLocalJ Γ J) (fuel : Nat) : RecJInv R (jmdec Γ c J fuel) := by
  induction fuel with
  | zero => intro t l fo bz h hi hw; exact hi
  | succ fuel ih =>
    intro t l fo bz h hi hw
    unfold jmdec jmBody
    split
    · exact hi
    · split
      · exact hi.put hw (R.jfine_zero _)
      · exact jinv_chase (fun l h hi hw => jmBase_inv ih hm hi hw) t hi hw

omit hrec in
theorem mUnmarshalJSON_inv (hm : MethodsLocalJ Γ J) {fuel : Nat} {t : Ty} {l : Loc} {bz : Bytes} {h : Mem} (hi : R.JInv h) (hw : R.W l) :
    R.JInv (mUnmarshalJSON Γ c J fuel t l bz h).2 := by
  unfold mUnmarshalJSON
  split
  · exact hi
  · refine jinv_infoThen hi ?_
    split
    · refine jinv_andThen hi fun nd h' he => ?_
      have : h' = h := (congrArg Prod.snd he).symm
      subst this
      split
      · exact hi
      · exact jmdec_inv hm _ _ _ _ _ _ hi hw
    · exact jmdec_inv hm _ _ _ _ _ _ hi hw

end

end Amino
