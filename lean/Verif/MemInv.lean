import Verif.MemLemmas

/-!
# The decoder stays within its region
-/

namespace Amino
open Spec

/-- UnmarshalAmino methods write only to their receiver, what its pointers lead to, and new memory, and store references only
to what they can reach. -/
def Spec.MethodsLocal (Γ : MProg) : Prop :=
  ∀ (R : Region) (id : TId) (r : MVal) (l : Loc) (h : Mem), R.Inv h → R.W l → R.Fine r → R.Inv (Γ.unmarshM id r l h).2

section
variable {Γ : MProg} {c : Codec} {R : Region}

def RecInv (R : Region) (rec : Ty → Loc → FOpts → Bool → Bytes → Mem → MRes Unit) : Prop :=
  ∀ t l fo bare bz h, R.Inv h → R.W l → R.Inv (rec t l fo bare bz h).2

theorem inv_andSlide {α β : Type} {r : MRes α} {bz : Bytes} {n : Nat} {k : α → Bytes → Nat → Mem → MRes β} (hr : R.Inv r.2)
    (hk : ∀ a bz n h, R.Inv h → R.Inv (k a bz n h).2) : R.Inv (r.andSlide bz n k).2 := by
  obtain ⟨d, h⟩ := r
  cases d <;> simp only [MRes.andSlide] <;> (try split) <;> first | exact hr | exact hk _ _ _ _ hr

theorem inv_onMem {α β : Type} {r : DRes α} {h : Mem} {k : Nat → α → MRes β} (hi : R.Inv h)
    (hk : ∀ n a, R.Inv (k n a).2) : R.Inv (onMem r h k).2 := by
  cases r <;> first | exact hi | exact hk _ _

theorem inv_unframe {α : Type} {bare : Bool} {bz : Bytes} {h : Mem} {k : Bytes → Nat → MRes α} (hi : R.Inv h)
    (hk : ∀ bz n, R.Inv (k bz n).2) : R.Inv (unframeM bare bz h k).2 := by
  unfold unframeM
  split
  · exact hk _ _
  · split <;> (try split) <;> first | exact hi | exact hk _ _

theorem inv_infoThen {α : Type} {id : TId} {n : Nat} {h : Mem} {k : MRes α} (hi : R.Inv h) (hk : R.Inv k.2) :
    R.Inv (infoThenM Γ c id n h k).2 := by
  unfold infoThenM
  split <;> first | exact hi | exact hk

theorem inv_slideThen {α : Type} {m : Nat} {bz : Bytes} {n : Nat} {h : Mem} {k : Bytes → Nat → MRes α} (hi : R.Inv h)
    (hk : ∀ bz n, R.Inv (k bz n).2) : R.Inv (slideThenM m bz n h k).2 := by
  unfold slideThenM
  split <;> first | exact hi | exact hk _ _

theorem Region.Inv.newW {h : Mem} (hi : R.Inv h) : R.W ⟨h.length, []⟩ := R.freshW hi.len

theorem Region.Inv.newF {h : Mem} (hi : R.Inv h) : R.F h.length := R.freshF hi.len

theorem Region.Inv.valueAt {h : Mem} (hi : R.Inv h) {l : Loc} (hw : R.W l) : R.Fine (valueAt h l) := by
  unfold Amino.valueAt
  cases hg : h.get l with
  | none => exact R.fine_nil
  | some v => exact hi.fine hw hg

theorem Region.Inv.allocZero {h : Mem} (hi : R.Inv h) (t : Ty) : R.Inv (h ++ [zeroM Γ t]) := hi.alloc (R.fine_zero _)

theorem newTime_inv (t : Ty) : ∀ {h : Mem}, R.Inv h → R.Inv (newTime t h).2 ∧ R.Fine (newTime t h).1 := by
  induction t with
  | base id => intro h hi; exact ⟨hi, R.fine_prim _⟩
  | ptr t ih =>
    intro h hi
    obtain ⟨h1, h2⟩ := ih hi
    exact ⟨h1.alloc h2, R.fine_ptr h1.newW h1.newF⟩

theorem inv_putDefault {t : Ty} {l : Loc} {h : Mem} (hi : R.Inv h) (hw : R.W l) : R.Inv (putDefault Γ t l h) := by
  unfold putDefault defaultM
  split
  · obtain ⟨h1, h2⟩ := newTime_inv t hi
    exact h1.put hw h2
  · exact hi.put hw (R.fine_zero _)

theorem inv_chase {k : Loc → Mem → MRes Unit} (hk : ∀ l h, R.Inv h → R.W l → R.Inv (k l h).2) (t : Ty) :
    ∀ {l : Loc} {h : Mem}, R.Inv h → R.W l → R.Inv (chase Γ t l h k).2 := by
  induction t with
  | base id => intro l h hi hw; exact hk l h hi hw
  | ptr t ih =>
    intro l h hi hw
    unfold chase
    split
    · rename_i l' hg
      exact ih hi (hi.ptr hw hg)
    · exact ih ((hi.allocZero t).put hw (R.fine_ptr hi.newW hi.newF)) hi.newW
    · exact hi

variable {rec : Ty → Loc → FOpts → Bool → Bytes → Mem → MRes Unit} (hrec : RecInv R rec)

/-- Memory stays in the region and the values returned may be stored. -/
def InvL (R : Region) (r : MRes (List MVal)) : Prop := R.Inv r.2 ∧ ∀ n vs, r.1 = .ok n vs → ∀ v ∈ vs, R.Fine v

theorem invL_andSlide {α : Type} {r : MRes α} {bz : Bytes} {n : Nat} {k : α → Bytes → Nat → Mem → MRes (List MVal)}
    (hr : R.Inv r.2) (hk : ∀ a bz n h, R.Inv h → InvL R (k a bz n h)) : InvL R (r.andSlide bz n k) := by
  obtain ⟨d, h⟩ := r
  cases d <;> simp only [MRes.andSlide] <;> (try split) <;>
    first | exact hk _ _ _ _ hr | exact ⟨hr, fun _ _ h => by cases h⟩

theorem invL_slideThen {m : Nat} {bz : Bytes} {n : Nat} {h : Mem} {k : Bytes → Nat → MRes (List MVal)} (hi : R.Inv h)
    (hk : ∀ bz n, InvL R (k bz n)) : InvL R (slideThenM m bz n h k) := by
  unfold slideThenM
  split
  · exact hk _ _
  · exact ⟨hi, fun _ _ h => by cases h⟩

theorem invL_map {r : MRes (List MVal)} {v : MVal} (hr : InvL R r) (hv : R.Fine v) : InvL R (r.map fun vs => v :: vs) := by
  refine ⟨hr.1, fun n ws h w hw => ?_⟩
  obtain ⟨d, h'⟩ := r
  cases d <;> simp only [MRes.map, DRes.map, reduceCtorEq, DRes.ok.injEq] at h
  obtain ⟨rfl, rfl⟩ := h
  rw [List.mem_cons] at hw
  rcases hw with rfl | hw
  · exact hv
  · exact hr.2 _ _ rfl w hw

include hrec

theorem mPackedSlice_inv (e : Ty) (fo : FOpts) (k : Nat) : ∀ (bz : Bytes) (n : Nat) (h : Mem), R.Inv h →
    InvL R (mPackedSlice Γ rec e fo k bz n h) := by
  induction k with
  | zero =>
    intro bz n h hi
    cases bz with
    | nil => exact ⟨hi, fun _ _ h => by cases h; simp⟩
    | cons b bz => exact ⟨hi, fun _ _ h => by cases h⟩
  | succ k ih =>
    intro bz n h hi
    cases bz with
    | nil => exact ⟨hi, fun _ _ h => by cases h; simp⟩
    | cons b bz =>
      unfold mPackedSlice
      refine invL_andSlide (hrec _ _ _ _ _ _ (hi.allocZero e) hi.newW) fun _ bz n h' hi' => ?_
      refine invL_map (ih _ _ _ hi') ?_
      split
      · exact R.fine_nil
      · exact hi'.valueAt hi.newW

theorem mUnpackedSlice_inv (e : Ty) (fo : FOpts) (k : Nat) : ∀ (bz : Bytes) (n : Nat) (h : Mem), R.Inv h →
    InvL R (mUnpackedSlice Γ rec e fo k bz n h) := by
  induction k with
  | zero =>
    intro bz n h hi
    cases bz with
    | nil => exact ⟨hi, fun _ _ h => by cases h; simp⟩
    | cons b bz => exact ⟨hi, fun _ _ h => by cases h⟩
  | succ k ih =>
    intro bz n h hi
    cases bz with
    | nil => exact ⟨hi, fun _ _ h => by cases h; simp⟩
    | cons b bz =>
      unfold mUnpackedSlice
      split
      · exact ⟨hi, fun _ _ h => by cases h⟩
      · exact ⟨hi, fun _ _ h => by cases h⟩
      · exact ⟨hi, fun _ _ h => by cases h⟩
      · split
        · exact ⟨hi, fun _ _ h => by cases h⟩
        · split
          · exact ⟨hi, fun _ _ h => by cases h; simp⟩
          · split
            · exact ⟨hi, fun _ _ h => by cases h⟩
            · refine invL_slideThen hi fun bz n => ?_
              have hz : R.Inv (h ++ [zeroM Γ e]) := hi.allocZero e
              split
              · refine invL_slideThen hz fun bz n => ?_
                have hd := inv_putDefault (Γ := Γ) (t := e) hz hi.newW
                exact invL_map (ih _ _ _ hd) (hd.valueAt hi.newW)
              · refine invL_andSlide (hrec _ _ _ _ _ _ hz hi.newW) fun _ bz n h' hi' => ?_
                exact invL_map (ih _ _ _ hi') (hi'.valueAt hi.newW)

theorem mSlice_inv {e : Ty} {l : Loc} {fo : FOpts} {bare : Bool} {bz : Bytes} {h : Mem} (hi : R.Inv h) (hw : R.W l) :
    R.Inv (mSlice Γ c rec e l fo bare bz h).2 := by
  unfold mSlice
  refine inv_infoThen hi (inv_unframe hi fun bz n => ?_)
  have hr : InvL R (if Γ.typ3 e.deref fo ≠ typ3ByteLength then mPackedSlice Γ rec e fo bz.length bz n h
      else mUnpackedSlice Γ rec e fo bz.length bz n h) := by
    split
    · exact mPackedSlice_inv hrec _ _ _ _ _ _ hi
    · exact mUnpackedSlice_inv hrec _ _ _ _ _ _ hi
  revert hr
  generalize (if Γ.typ3 e.deref fo ≠ typ3ByteLength then mPackedSlice Γ rec e fo bz.length bz n h
      else mUnpackedSlice Γ rec e fo bz.length bz n h) = r
  intro hr
  obtain ⟨d, h'⟩ := r
  cases d with
  | ok n vs =>
    simp only
    split
    · exact hr.1.put hw R.fine_nil
    · exact (hr.1.alloc (R.fine_arr (hr.2 n vs rfl))).put hw (R.fine_slice hr.1.newF)
  | _ => exact hr.1

theorem mPackedArr_inv (e : Ty) {l : Loc} (fo : FOpts) (k : Nat) : ∀ (i : Nat) (bz : Bytes) (n : Nat) (h : Mem),
    (∀ j, i ≤ j → R.W (l.sub j)) → R.Inv h → R.Inv (mPackedArr Γ rec e l fo k i bz n h).2 := by
  induction k with
  | zero =>
    intro i bz n h hw hi
    unfold mPackedArr
    split <;> exact hi
  | succ k ih =>
    intro i bz n h hw hi
    unfold mPackedArr
    refine inv_andSlide (hrec _ _ _ _ _ _ hi (hw i (Nat.le_refl i))) fun _ bz n h' hi' => ih _ _ _ _ (fun j hj => hw j (by omega)) ?_
    split
    · exact hi'.put (hw i (Nat.le_refl i)) R.fine_nil
    · exact hi'

theorem mUnpackedArr_inv (e : Ty) {l : Loc} (fo : FOpts) (k : Nat) : ∀ (i : Nat) (bz : Bytes) (n : Nat) (h : Mem),
    (∀ j, i ≤ j → R.W (l.sub j)) → R.Inv h → R.Inv (mUnpackedArr Γ rec e l fo k i bz n h).2 := by
  induction k with
  | zero =>
    intro i bz n h hw hi
    unfold mUnpackedArr
    repeat' split
    all_goals exact hi
  | succ k ih =>
    intro i bz n h hw hi
    unfold mUnpackedArr
    split
    · exact hi
    · exact hi
    · exact hi
    · split
      · exact hi
      · split
        · exact hi
        · refine inv_slideThen hi fun bz n => ?_
          split
          · exact inv_slideThen hi fun bz n => ih _ _ _ _ (fun j hj => hw j (by omega)) (inv_putDefault hi (hw i (Nat.le_refl i)))
          · exact inv_andSlide (hrec _ _ _ _ _ _ hi (hw i (Nat.le_refl i))) fun _ bz n h' hi' => ih _ _ _ _ (fun j hj => hw j (by omega)) hi'

theorem mFields_inv {l : Loc} (fs : List Field) : ∀ (i num last : Nat) (bz : Bytes) (n : Nat) (h : Mem),
    (∀ j, i ≤ j → R.W (l.sub j)) → R.Inv h → R.Inv (mFields Γ c rec l fs i num last bz n h).2 := by
  induction fs with
  | nil => intro i num last bz n h hw hi; exact hi
  | cons f fs ih =>
    intro i num last bz n h hw hi
    have hd := inv_putDefault (Γ := Γ) (t := f.ty) hi (hw i (Nat.le_refl i))
    unfold mFields
    split
    · exact ih _ _ _ _ _ _ (fun j hj => hw j (by omega)) hi
    · refine inv_infoThen hi ?_
      split
      · exact ih _ _ _ _ _ _ (fun j hj => hw j (by omega)) hd
      · split
        · exact inv_andSlide (hrec _ _ _ _ _ _ hi (hw i (Nat.le_refl i))) fun _ bz n h' hi' => ih _ _ _ _ _ _ (fun j hj => hw j (by omega)) hi'
        · split
          · exact hi
          · exact hi
          · exact hi
          · split
            · exact ih _ _ _ _ _ _ (fun j hj => hw j (by omega)) hd
            · split
              · exact hi
              · refine inv_slideThen hi fun bz n => ?_
                split
                · exact hi
                · split
                  · exact hi
                  · exact inv_andSlide (hrec _ _ _ _ _ _ hi (hw i (Nat.le_refl i))) fun _ bz n h' hi' => ih _ _ _ _ _ _ (fun j hj => hw j (by omega)) hi'

theorem mIface_inv {id : TId} {l : Loc} {fo : FOpts} {bare : Bool} {bz : Bytes} {h : Mem} (hi : R.Inv h) (hw : R.W l) :
    R.Inv (mIface Γ c rec id l fo bare bz h).2 := by
  have hIf : ∀ {ci : ConcInfo} {v : Loc} {h' : Mem}, R.Inv h' → R.W v → R.F v.addr → R.Inv (h'.put l (ifaceOf ci v h')) := by
    intro ci v h' hi' hv hf
    refine hi'.put hw ?_
    unfold ifaceOf
    refine R.fine_iface ?_
    split
    · exact R.fine_ptr hv hf
    · exact hi'.valueAt hv
  unfold mIface
  split
  · split
    · exact hi
    · refine inv_unframe hi fun bz n => inv_andSlide hi fun dp bz n h hi => ?_
      split
      · exact hi
      · rename_i ci _
        have hz : R.Inv (h ++ [zeroM Γ (.base ci.tid)]) := hi.allocZero _
        have hk : ∀ (bz : Bytes) (n : Nat), R.Inv (match rec (.base ci.tid) ⟨h.length, []⟩ fo true bz (h ++ [zeroM Γ (.base ci.tid)]) with
            | (.ok m _, h') =>
              if m ≤ bz.length then
                if (bz.drop m).length > 0 then ((.err (n + m) .leftover, h') : MRes Unit)
                else if Γ.implements ci.dynTy id then (.ok (n + m) (), h'.put l (ifaceOf ci ⟨h.length, []⟩ h'))
                else (.panic .notAssignable, h')
              else (.panic .slide, h')
            | (.err m e, h') =>
              if m ≤ bz.length then
                if Γ.implements ci.dynTy id then (.err (n + m) e, h'.put l (ifaceOf ci ⟨h.length, []⟩ h'))
                else (.panic .notAssignable, h')
              else (.panic .slide, h')
            | (.panic p, h') => (.panic p, h')
            | (.oof, h') => (.oof, h')).2 := by
          intro bz n
          have hr := hrec (.base ci.tid) ⟨h.length, []⟩ fo true bz _ hz hi.newW
          revert hr
          generalize rec (.base ci.tid) ⟨h.length, []⟩ fo true bz (h ++ [zeroM Γ (.base ci.tid)]) = r
          intro hr
          obtain ⟨d, h'⟩ := r
          cases d <;> simp only
          · repeat' split
            all_goals first | exact hr | exact hIf hr hi.newW hi.newF
          · repeat' split
            all_goals first | exact hr | exact hIf hr hi.newW hi.newF
          · exact hr
          · exact hr
        simp only
        unfold concKeyM
        split
        · split
          · exact hz
          · exact hz
          · exact hz
          · split
            · exact hz
            · split
              · exact hz
              · exact inv_slideThen hz hk
        · exact hk _ _
  · exact hi

theorem mShape_inv {id : TId} {l : Loc} {fo : FOpts} {bare : Bool} {bz : Bytes} {h : Mem} (hi : R.Inv h) (hw : R.W l) :
    R.Inv (mShape Γ c rec id l fo bare bz h).2 := by
  have hp : ∀ (v : Val) {h' : Mem}, R.Inv h' → R.Inv (h'.put l (.prim v)) := fun v _ hi' => hi'.put hw (R.fine_prim v)
  unfold mShape
  split
  · exact mIface_inv hrec hi hw
  · split
    · exact inv_onMem hi fun n v => hp v hi
    · unfold mArray
      refine inv_infoThen hi (inv_unframe hi fun bz n => ?_)
      split
      · exact mPackedArr_inv hrec _ _ _ _ _ _ _ (fun j _ => R.sub j hw) hi
      · exact mUnpackedArr_inv hrec _ _ _ _ _ _ _ (fun j _ => R.sub j hw) hi
  · split
    · unfold mByteSlice
      split
      · exact hi.put hw R.fine_nil
      · refine inv_andSlide hi fun b bz n h' hi' => ?_
        split
        · exact hi'.put hw R.fine_nil
        · split
          · exact (hi'.alloc (R.fine_prim _)).put hw (R.fine_slice hi'.newF)
          · exact hi'
    · exact mSlice_inv hrec hi hw
  · exact inv_unframe hi fun bz n => mFields_inv hrec _ _ _ _ _ _ _ (fun j _ => R.sub j hw) hi
  · exact inv_unframe hi fun bz n => inv_andSlide hi fun t bz n h' hi' => hp _ hi'
  · exact inv_onMem hi fun n v => hp _ hi
  · exact inv_andSlide hi fun t bz n h' hi' => hp _ hi'
  · split
    · exact hi
    · exact inv_andSlide hi fun t bz n h' hi' => hp _ hi'
  · split
    · exact hi
    · exact inv_andSlide hi fun t bz n h' hi' => hp _ hi'
  · exact inv_andSlide hi fun t bz n h' hi' => hp _ hi'
  · exact hi

theorem mBase_inv (hm : MethodsLocal Γ) {id : TId} {fo : FOpts} {bare : Bool} {bz : Bytes} {l : Loc} {h : Mem} (hi : R.Inv h)
    (hw : R.W l) : R.Inv (mBase Γ c rec id fo bare bz l h).2 := by
  unfold mBase
  split
  · refine inv_infoThen hi ?_
    refine inv_andSlide (hrec _ _ _ _ _ _ (hi.allocZero _) hi.newW) fun _ bz n h' hi' => ?_
    have := hm R id (valueAt h' ⟨h.length, []⟩) l h' hi' hw (hi'.valueAt hi.newW)
    revert this
    generalize Γ.unmarshM id (valueAt h' ⟨h.length, []⟩) l h' = r
    intro this
    obtain ⟨d, h''⟩ := r
    cases d <;> exact this
  · exact mShape_inv hrec hi hw

omit hrec in
theorem mdec_inv (hm : MethodsLocal Γ) (fuel : Nat) : RecInv R (mdec Γ c fuel) := by
  induction fuel with
  | zero => intro t l fo bare bz h hi hw; exact hi
  | succ fuel ih =>
    intro t l fo bare bz h hi hw
    unfold mdec mBody
    split
    · exact hi
    · exact inv_chase (fun l h hi hw => mBase_inv ih hm hi hw) t hi hw

omit hrec in
theorem mUnmarshalBare_inv (hm : MethodsLocal Γ) {fuel : Nat} {t : Ty} {l : Loc} {bz : Bytes} {h : Mem} (hi : R.Inv h) (hw : R.W l) :
    R.Inv (mUnmarshalBare Γ c fuel t l bz h).2 := by
  have hall : ∀ bare bz, R.Inv (mDecodeAll Γ c fuel t l bare bz h).2 := by
    intro bare bz
    have := mdec_inv (c := c) hm fuel t l { fnum := 1 } bare bz h hi hw
    unfold mDecodeAll
    revert this
    generalize mdec Γ c fuel t l { fnum := 1 } bare bz h = r
    intro this
    obtain ⟨d, h'⟩ := r
    cases d <;> exact this
  unfold mUnmarshalBare
  split
  · unfold mContents
    repeat' split
    all_goals first | exact hi | exact hall _ _
  · exact hi
  · exact hi
  · exact hi

end

end Amino
