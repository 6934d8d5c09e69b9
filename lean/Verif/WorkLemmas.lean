import Verif.Work
import Verif.SpecWork
import Verif.SizeLemmas

/-!
# Bounds on the work of Unmarshal
-/

namespace Amino
open Spec

set_option linter.unusedSectionVars false

/-- The bytes a call has taken: what it reports, everything if it fails. -/
def upTo {α : Type} (r : DRes α) (d : Nat) : Nat :=
  match r with
  | .ok n _ => n
  | _ => d

@[simp] theorem upTo_ok {α : Type} (n : Nat) (a : α) (d : Nat) : upTo (.ok n a) d = n := rfl
@[simp] theorem upTo_err {α : Type} (n : Nat) (e : Err) (d : Nat) : upTo (.err n e : DRes α) d = d := rfl
@[simp] theorem upTo_panic {α : Type} (p : Pan) (d : Nat) : upTo (.panic p : DRes α) d = d := rfl
@[simp] theorem upTo_oof {α : Type} (d : Nat) : upTo (.oof : DRes α) d = d := rfl

@[simp] theorem upTo_map {α β : Type} (g : α → β) (r : DRes α) (d : Nat) : upTo (r.map g) d = upTo r d := by
  cases r <;> rfl

theorem upTo_info {α : Type} {Γ : Prog} {c : Codec} {id : TId} {n d : Nat} {k : DRes α} :
    upTo (infoThen Γ c id n k) d = match getInfo Γ c id with | .ok _ => upTo k d | _ => d := by
  unfold infoThen; cases getInfo Γ c id <;> rfl

/-- Rates at which bytes pay for work. -/
structure Rates (A F R : Nat) (X S : Nat → Nat) (Q : Nat) : Prop where
  one : 1 ≤ A
  base : ∀ r, 5 * A ≤ X r
  mono : ∀ {r r'}, r ≤ r' → X r ≤ X r'
  step : ∀ {r r'}, r' < r → 5 * A + F * (A + X r') + X r' ≤ X r
  wide : ∀ r, 5 * A + F * A ≤ X r
  left : ∀ {r r'}, r' < r → r ≤ R → S r + A ≤ S r'
  some : ∀ r, A ≤ S r
  pay : ∀ {r r'}, r ≤ R → X r + S r' + 5 * A ≤ Q

section
variable {A F R Q : Nat} {X S : Nat → Nat} {rank : TId → Nat}
  {Γ : Prog} {c : Codec} {rec : Ty → Val → FOpts → Bool → Bytes → DRes Val}
  {wrk : Ty → Val → FOpts → Bool → Bytes → Nat}

/-- What the recursive calls are assumed to satisfy. -/
structure RecWork (A Q : Nat) (X S : Nat → Nat) (rank : TId → Nat)
    (rec : Ty → Val → FOpts → Bool → Bytes → DRes Val) (wrk : Ty → Val → FOpts → Bool → Bytes → Nat) : Prop where
  any : ∀ t p fo bare bz, bz.length < A → wrk t p fo bare bz ≤ X (rank t.deref) + Q * upTo (rec t p fo bare bz) bz.length
  framed : ∀ t p fo bz, bz.length < A → bz ≠ [] →
    wrk t p fo false bz + S (rank t.deref) ≤ Q * upTo (rec t p fo false bz) bz.length

theorem copied_le (bz : Bytes) : copied bz ≤ bz.length := by
  unfold copied
  cases h : decodeByteSlice bz with
  | ok m buf => have := uvarintSize_le h; simp only; omega
  | _ => simp

theorem workFrame_any {α : Type} {C : Nat} {bare : Bool} {bz : Bytes} {w : Bytes → Nat}
    {k : Bytes → Nat → DRes α} (hbz : bz.length < A)
    (h : ∀ buf n, buf.length ≤ bz.length → w buf + Q * n ≤ C + Q * upTo (k buf n) (n + buf.length)) :
    workFrame bare bz w ≤ A + C + Q * upTo (unframe bare bz k) bz.length := by
  unfold workFrame unframe
  cases bare with
  | true =>
    have := h bz 0 (Nat.le_refl _)
    rw [Nat.zero_add] at this
    simp only [if_true]
    omega
  | false =>
    simp only [Bool.false_eq_true, if_false]
    cases hb : decodeByteSlice bz with
    | ok m buf =>
      have hu := uvarintSize_le hb
      simp only [if_pos hu.2.2.2]
      have h1 := h buf (uvarintSize (UInt64.ofNat buf.length)) (by omega)
      generalize uvarintSize (UInt64.ofNat buf.length) = n at *
      generalize k buf n = r at *
      have h2 : Q * upTo r (n + buf.length) ≤ Q * upTo r bz.length := by
        refine Nat.mul_le_mul_left _ ?_
        cases r <;> simp only [upTo] <;> omega
      omega
    | err m e => simp
    | panic p => simp
    | oof => simp

theorem workFrame_framed {α : Type} {C : Nat} {bz : Bytes} {w : Bytes → Nat}
    {k : Bytes → Nat → DRes α} (hbz : bz.length < A) (hne : bz ≠ [])
    (h : ∀ buf n, buf.length ≤ bz.length → w buf + Q * n ≤ C + Q * upTo (k buf n) (n + buf.length)) :
    workFrame false bz w + Q ≤ A + C + Q * upTo (unframe false bz k) bz.length := by
  have hpos : 1 ≤ bz.length := by cases bz with
    | nil => exact absurd rfl hne
    | cons => simp
  have hq := le_mul_pos (K := Q) hpos
  unfold workFrame unframe
  simp only [Bool.false_eq_true, if_false]
  cases hb : decodeByteSlice bz with
  | ok m buf =>
    have hu := uvarintSize_le hb
    simp only [if_pos hu.2.2.2]
    have h1 := h buf (uvarintSize (UInt64.ofNat buf.length)) (by omega)
    have hqn := le_mul_pos (K := Q) hu.2.1
    generalize uvarintSize (UInt64.ofNat buf.length) = n at *
    generalize k buf n = r at *
    have h2 : Q * upTo r (n + buf.length) ≤ Q * upTo r bz.length := by
      refine Nat.mul_le_mul_left _ ?_
      cases r <;> simp only [upTo] <;> omega
    omega
  | err m e =>
    have : upTo (if m ≤ bz.length then (DRes.err 0 e : DRes α) else .panic .slide) bz.length = bz.length := by
      split <;> rfl
    simp only [this]; omega
  | panic p => simp only [upTo]; omega
  | oof => simp only [upTo]; omega

theorem upTo_slide {α : Type} {m n d : Nat} {bz : Bytes} {k : Bytes → Nat → DRes α} (h : m ≤ bz.length) :
    upTo (slideThen m bz n k) d = upTo (k (bz.drop m) (n + m)) d := by
  unfold slideThen; rw [if_pos h]

theorem upTo_andSlide_ok {α β : Type} {m n d : Nat} {a : α} {bz : Bytes} {k : α → Bytes → Nat → DRes β} (h : m ≤ bz.length) :
    upTo ((DRes.ok m a).andSlide bz n k) d = upTo (k a (bz.drop m) (n + m)) d := by
  simp only [DRes.andSlide, if_pos h]

theorem upTo_andSlide_err {α β : Type} {m n d : Nat} {e : Err} {bz : Bytes} {k : α → Bytes → Nat → DRes β} :
    upTo ((DRes.err m e).andSlide bz n k) d = d := by
  simp only [DRes.andSlide]; split <;> rfl

theorem upTo_andSlide_ge {α β : Type} {r : DRes α} {bz : Bytes} {g : α → Bytes → Nat → DRes β}
    (h : ∀ m v, r = .ok m v → m ≤ bz.length) (hg : ∀ m v b, m ≤ bz.length → m ≤ upTo (g v b (0 + m)) bz.length) :
    upTo r bz.length ≤ upTo (r.andSlide bz 0 g) bz.length := by
  cases r with
  | ok m v => rw [upTo_andSlide_ok (h m v rfl)]; exact hg _ _ _ (h m v rfl)
  | err m e => rw [upTo_andSlide_err]; exact Nat.le_refl _
  | panic p => exact Nat.le_refl _
  | oof => exact Nat.le_refl _

theorem workRest_le (hr : Rates A F R X S Q) (k last : Nat) (bz : Bytes) (n : Nat) (hbz : bz.length < A) :
    workRest k last bz + Q * n ≤ A + Q * upTo (consumeRest k last bz n) (n + bz.length) := by
  have hA := hr.one
  have hpay := hr.pay (r' := 0) (Nat.zero_le R)
  induction k generalizing last bz n with
  | zero =>
    cases bz with
    | nil => simp [workRest, consumeRest, upTo]
    | cons => simp only [workRest, consumeRest, upTo, Nat.mul_add]; omega
  | succ k ih =>
    cases bz with
    | nil => simp [workRest, consumeRest, upTo]
    | cons b bs =>
      generalize hx : b :: bs = bz at *
      have hw : workRest (k + 1) last bz = 1 + match decodeKey bz with
          | .ok m ft =>
            if ft.1 ≤ last then 0
            else
              (if ft.2 = typ3ByteLength then copied (bz.drop m) else 0) +
              match consumeAny ft.2 (bz.drop m) with
              | .ok m' _ => workRest k ft.1 ((bz.drop m).drop m')
              | _ => 0
          | _ => 0 := by subst hx; rfl
      have hc : consumeRest (k + 1) last bz n = (decodeKey bz).andSlide bz n fun ft bz n =>
          if ft.1 ≤ last then .err n .fieldOrder
          else (consumeAny ft.2 bz).andSlide bz n fun _ bz n => consumeRest k ft.1 bz n := by subst hx; rfl
      rw [hw, hc]
      cases hk : decodeKey bz with
      | panic p => simp only [DRes.andSlide, upTo, Nat.mul_add]; omega
      | oof => simp only [DRes.andSlide, upTo, Nat.mul_add]; omega
      | err m e => simp only [upTo_andSlide_err, Nat.mul_add]; omega
      | ok j ft =>
        have hj := (decodeKey_ok hk).2.2.2.1
        have hjl : j ≤ bz.length := by
          have := (decodeKey_safe bz).within; rw [hk] at this; exact this
        have hQj := le_mul_pos (K := Q) hj
        simp only [upTo_andSlide_ok hjl]
        split
        · simp only [upTo, Nat.mul_add]; omega
        have hcp : (if ft.2 = typ3ByteLength then copied (bz.drop j) else 0) ≤ A := by
          split
          · have := copied_le (bz.drop j); rw [List.length_drop] at this; omega
          · omega
        generalize (if ft.2 = typ3ByteLength then copied (bz.drop j) else 0) = cp at *
        have hl : (bz.drop j).length = bz.length - j := List.length_drop
        have hd : n + bz.length = n + j + (bz.drop j).length := by omega
        rw [hd]
        generalize bz.drop j = bz' at *
        cases ha : consumeAny ft.2 bz' with
        | panic p => simp only [DRes.andSlide, upTo, Nat.mul_add]; omega
        | oof => simp only [DRes.andSlide, upTo, Nat.mul_add]; omega
        | err m e => simp only [upTo_andSlide_err, Nat.mul_add]; omega
        | ok m' u =>
          have hm' : m' ≤ bz'.length := by
            have := consumeAny_post (Q := fun _ => True) ft.2 bz'; rw [ha] at this; exact this.2.1
          have hl' : (bz'.drop m').length = bz'.length - m' := List.length_drop
          simp only [upTo_andSlide_ok hm']
          have := ih ft.1 (bz'.drop m') (n + j + m') (by omega)
          have hd' : n + j + m' + (bz'.drop m').length = n + j + bz'.length := by omega
          rw [hd'] at this
          simp only [Nat.mul_add] at this ⊢
          omega


theorem workPackedSlice_le (hr : Rates A F R X S Q) (hf : RecFits rec) (h : RecWork A Q X S rank rec wrk) (e : Ty) (fo : FOpts)
    (k : Nat) (bz : Bytes) (n : Nat) (hbz : bz.length < A) :
    workPackedSlice Γ rec wrk e fo k bz + Q * n ≤ A + Q * upTo (decPackedSlice Γ rec e fo k bz n) (n + bz.length) := by
  have hA := hr.one
  induction k generalizing bz n with
  | zero =>
    cases bz with
    | nil => simp [workPackedSlice, decPackedSlice, upTo]
    | cons => simp only [workPackedSlice, decPackedSlice, upTo, Nat.mul_add]; omega
  | succ k ih =>
    cases bz with
    | nil => simp [workPackedSlice, decPackedSlice, upTo]
    | cons b bs =>
      unfold workPackedSlice decPackedSlice
      have h1 := h.framed e (Γ.zeroTy e) fo (b :: bs) hbz (by simp)
      have h2 := hr.some (rank e.deref)
      generalize hx : b :: bs = bz at *
      have hfit := hf e (Γ.zeroTy e) fo false bz
      cases hv : rec e (Γ.zeroTy e) fo false bz with
      | panic p => simp only [hv, upTo, DRes.andSlide, Nat.mul_add] at h1 ⊢; omega
      | oof => simp only [hv, upTo, DRes.andSlide, Nat.mul_add] at h1 ⊢; omega
      | err m e => simp only [hv, upTo_err, upTo_andSlide_err, Nat.mul_add] at h1 ⊢; omega
      | ok j v =>
        rw [hv] at h1 hfit
        have hjl : j ≤ bz.length := hfit.2.1
        have hl : (bz.drop j).length = bz.length - j := List.length_drop
        have := ih (bz.drop j) (n + j) (by omega)
        have hd : n + j + (bz.drop j).length = n + bz.length := by omega
        rw [hd] at this
        simp only [upTo_andSlide_ok hjl, upTo_map, upTo_ok, Nat.mul_add] at this h1 ⊢
        omega

theorem workUnpackedSlice_le (hr : Rates A F R X S Q) (hR : ∀ id, rank id ≤ R) (hf : RecFits rec)
    (h : RecWork A Q X S rank rec wrk) (e : Ty) (fo : FOpts) (k : Nat) (bz : Bytes) (n : Nat) (hbz : bz.length < A) :
    workUnpackedSlice Γ rec wrk e fo k bz + Q * n ≤ A + Q * upTo (decUnpackedSlice Γ rec e fo k bz n) (n + bz.length) := by
  have hA := hr.one
  have hpay := hr.pay (r' := 0) (hR e.deref)
  induction k generalizing bz n with
  | zero =>
    cases bz with
    | nil => simp [workUnpackedSlice, decUnpackedSlice, upTo]
    | cons => simp only [workUnpackedSlice, decUnpackedSlice, upTo, Nat.mul_add]; omega
  | succ k ih =>
    cases bz with
    | nil => simp [workUnpackedSlice, decUnpackedSlice, upTo]
    | cons b bs =>
      unfold workUnpackedSlice decUnpackedSlice
      generalize hx : b :: bs = bz at *
      cases hk : decodeKey bz with
      | panic p => simp only [upTo, Nat.mul_add]; omega
      | oof => simp only [upTo, Nat.mul_add]; omega
      | err m e => simp only [upTo, Nat.mul_add]; omega
      | ok j ft =>
        obtain ⟨fnum, typ⟩ := ft
        have hj := (decodeKey_ok hk).2.2.2.1
        have hjl := (decodeKey_ok hk).2.2.2.2.2
        have hQj := le_mul_pos (K := Q) hj
        simp only
        split
        · simp only [upTo, Nat.mul_add]; omega
        split
        · simp only [upTo]; omega
        split
        · simp only [upTo, Nat.mul_add]; omega
        rw [upTo_slide hjl]
        have hl : (bz.drop j).length = bz.length - j := List.length_drop
        have hd : n + bz.length = n + j + (bz.drop j).length := by omega
        rw [hd]
        generalize bz.drop j = bz' at *
        split
        · rename_i hz
          have h1l : 1 ≤ bz'.length := by
            cases bz' with
            | nil => simp at hz
            | cons => simp
          rw [upTo_slide h1l, upTo_map]
          have hl' : (bz'.drop 1).length = bz'.length - 1 := List.length_drop
          have := ih (bz'.drop 1) (n + j + 1) (by omega)
          have hd' : n + j + 1 + (bz'.drop 1).length = n + j + bz'.length := by omega
          rw [hd'] at this
          simp only [Nat.mul_add] at this ⊢
          omega
        · have h1 := h.any e (Γ.zeroTy e) { fo with fnum := 1 } false bz' (by omega)
          have hfit := hf e (Γ.zeroTy e) { fo with fnum := 1 } false bz'
          cases hv : rec e (Γ.zeroTy e) { fo with fnum := 1 } false bz' with
          | panic p => simp only [hv, upTo, DRes.andSlide, Nat.mul_add] at h1 ⊢; omega
          | oof => simp only [hv, upTo, DRes.andSlide, Nat.mul_add] at h1 ⊢; omega
          | err m e => simp only [hv, upTo_err, upTo_andSlide_err, Nat.mul_add] at h1 ⊢; omega
          | ok i v =>
            rw [hv] at h1 hfit
            have hil : i ≤ bz'.length := hfit.2.1
            have hl' : (bz'.drop i).length = bz'.length - i := List.length_drop
            have := ih (bz'.drop i) (n + j + i) (by omega)
            have hd' : n + j + i + (bz'.drop i).length = n + j + bz'.length := by omega
            rw [hd'] at this
            simp only [upTo_andSlide_ok hil, upTo_map, upTo_ok, Nat.mul_add] at this h1 ⊢
            omega

theorem workPackedArr_le (hA : 1 ≤ A) (hf : RecFits rec) (h : RecWork A Q X S rank rec wrk) (e : Ty) (fo : FOpts)
    (ps : List Val) (bz : Bytes) (n : Nat) (hbz : bz.length < A) :
    workPackedArr rec wrk e fo ps bz + Q * n ≤
      ps.length * (A + X (rank e.deref)) + Q * upTo (decPackedArr Γ rec e fo ps bz n) (n + bz.length) := by
  induction ps generalizing bz n with
  | nil =>
    unfold workPackedArr decPackedArr
    split <;> simp only [upTo, Nat.mul_add] <;> omega
  | cons p ps ih =>
    unfold workPackedArr decPackedArr
    have h1 := h.any e p fo false bz hbz
    have hfit := hf e p fo false bz
    simp only [List.length_cons, Nat.add_mul, Nat.one_mul]
    cases hv : rec e p fo false bz with
    | panic p => simp only [hv, upTo, DRes.andSlide, Nat.mul_add] at h1 ⊢; omega
    | oof => simp only [hv, upTo, DRes.andSlide, Nat.mul_add] at h1 ⊢; omega
    | err m e => simp only [hv, upTo_err, upTo_andSlide_err, Nat.mul_add] at h1 ⊢; omega
    | ok j v =>
      rw [hv] at h1 hfit
      have hjl : j ≤ bz.length := hfit.2.1
      have hl : (bz.drop j).length = bz.length - j := List.length_drop
      have := ih (bz.drop j) (n + j) (by omega)
      have hd : n + j + (bz.drop j).length = n + bz.length := by omega
      rw [hd] at this
      simp only [upTo_andSlide_ok hjl, upTo_map, upTo_ok] at this h1 ⊢
      rw [Nat.mul_add] at this
      omega

theorem workUnpackedArr_le (hr : Rates A F R X S Q) (hR : ∀ id, rank id ≤ R) (hf : RecFits rec)
    (h : RecWork A Q X S rank rec wrk) (e : Ty) (fo : FOpts) (ps : List Val) (bz : Bytes) (n : Nat) (hbz : bz.length < A) :
    workUnpackedArr Γ rec wrk e fo ps bz + Q * n ≤ A + Q * upTo (decUnpackedArr Γ rec e fo ps bz n) (n + bz.length) := by
  have hA := hr.one
  have hpay := hr.pay (r' := 0) (hR e.deref)
  induction ps generalizing bz n with
  | nil =>
    have : Q * n ≤ Q * upTo (decUnpackedArr Γ rec e fo [] bz n) (n + bz.length) := by
      refine Nat.mul_le_mul_left _ ?_
      unfold decUnpackedArr
      split
      · cases decodeKey bz with
        | ok j ft => simp only; split <;> simp only [upTo] <;> omega
        | _ => simp only [upTo]; omega
      · simp only [upTo]; omega
    unfold workUnpackedArr
    omega
  | cons p ps ih =>
    unfold workUnpackedArr decUnpackedArr
    cases hk : decodeKey bz with
    | panic p => simp only [upTo, Nat.mul_add]; omega
    | oof => simp only [upTo, Nat.mul_add]; omega
    | err m e => simp only [upTo, Nat.mul_add]; omega
    | ok j ft =>
      obtain ⟨fnum, typ⟩ := ft
      have hj := (decodeKey_ok hk).2.2.2.1
      have hjl := (decodeKey_ok hk).2.2.2.2.2
      have hQj := le_mul_pos (K := Q) hj
      simp only
      split
      · simp only [upTo, Nat.mul_add]; omega
      split
      · simp only [upTo, Nat.mul_add]; omega
      rw [upTo_slide hjl]
      have hl : (bz.drop j).length = bz.length - j := List.length_drop
      have hd : n + bz.length = n + j + (bz.drop j).length := by omega
      rw [hd]
      generalize bz.drop j = bz' at *
      split
      · rename_i hz
        have h1l : 1 ≤ bz'.length := by
          cases bz' with
          | nil => simp at hz
          | cons => simp
        rw [upTo_slide h1l, upTo_map]
        have hl' : (bz'.drop 1).length = bz'.length - 1 := List.length_drop
        have := ih (bz'.drop 1) (n + j + 1) (by omega)
        have hd' : n + j + 1 + (bz'.drop 1).length = n + j + bz'.length := by omega
        rw [hd'] at this
        simp only [Nat.mul_add] at this ⊢
        omega
      · have h1 := h.any e p { fo with fnum := 1 } false bz' (by omega)
        have hfit := hf e p { fo with fnum := 1 } false bz'
        cases hv : rec e p { fo with fnum := 1 } false bz' with
        | panic p => simp only [hv, upTo, DRes.andSlide, Nat.mul_add] at h1 ⊢; omega
        | oof => simp only [hv, upTo, DRes.andSlide, Nat.mul_add] at h1 ⊢; omega
        | err m e => simp only [hv, upTo_err, upTo_andSlide_err, Nat.mul_add] at h1 ⊢; omega
        | ok i v =>
          rw [hv] at h1 hfit
          have hil : i ≤ bz'.length := hfit.2.1
          have hl' : (bz'.drop i).length = bz'.length - i := List.length_drop
          have := ih (bz'.drop i) (n + j + i) (by omega)
          have hd' : n + j + i + (bz'.drop i).length = n + j + bz'.length := by omega
          rw [hd'] at this
          simp only [upTo_andSlide_ok hil, upTo_map, upTo_ok, Nat.mul_add] at this h1 ⊢
          omega

theorem workFields_le {w : Nat} (hr : Rates A F R X S Q) (hR : ∀ id, rank id ≤ R) (hf : RecFits rec)
    (h : RecWork A Q X S rank rec wrk) (fs : List Field)
    (hw : ∀ f ∈ fs, f.visible = true → Γ.unpackedList f = true → X (rank f.ty.deref) ≤ w)
    (ps : List Val) (num last : Nat) (bz : Bytes) (n : Nat) (hbz : bz.length < A) :
    workFields Γ c rec wrk fs ps num last bz + Q * n ≤
      A + fs.length * (A + w) + Q * upTo (decFields Γ c rec fs ps num last bz n) (n + bz.length) := by
  have hA := hr.one
  induction fs generalizing ps num last bz n with
  | nil =>
    cases ps with
    | nil =>
      unfold workFields decFields
      have := workRest_le hr bz.length last bz n hbz
      simp only [upTo_map]
      omega
    | cons => simp only [workFields, decFields, upTo, Nat.mul_add]; omega
  | cons f fs ih =>
    cases ps with
    | nil => simp only [workFields, decFields, upTo, Nat.mul_add]; omega
    | cons p ps =>
      have ih := fun num last bz n => ih (fun g hg => hw g (by simp [hg])) ps num last bz n
      have hpay := hr.pay (r' := 0) (hR f.ty.deref)
      unfold workFields decFields
      simp only [List.length_cons, Nat.add_mul, Nat.one_mul]
      split
      · have := ih num last bz n hbz
        simp only [upTo_map]
        omega
      rename_i hvis
      rw [upTo_info]
      cases getInfo Γ c f.ty.deref with
      | err e => simp only [Nat.mul_add]; omega
      | panic e => simp only [Nat.mul_add]; omega
      | oof => simp only [Nat.mul_add]; omega
      | ok u =>
      simp only
      split
      · have := ih (num + 1) last bz n hbz
        simp only [upTo_map]
        omega
      split
      · rename_i hul
        have h3 := hw f (by simp) (by simpa using hvis) hul
        have h1 := h.any f.ty p { f.opts with fnum := num + 1 } true bz hbz
        have hfit := hf f.ty p { f.opts with fnum := num + 1 } true bz
        cases hv : rec f.ty p { f.opts with fnum := num + 1 } true bz with
        | panic p => simp only [hv, upTo, DRes.andSlide, Nat.mul_add] at h1 ⊢; omega
        | oof => simp only [hv, upTo, DRes.andSlide, Nat.mul_add] at h1 ⊢; omega
        | err m e => simp only [hv, upTo_err, upTo_andSlide_err, Nat.mul_add] at h1 ⊢; omega
        | ok i v =>
          rw [hv] at h1 hfit
          have hil : i ≤ bz.length := hfit.2.1
          have hl : (bz.drop i).length = bz.length - i := List.length_drop
          have := ih (num + 1) last (bz.drop i) (n + i) (by omega)
          have hd' : n + i + (bz.drop i).length = n + bz.length := by omega
          rw [hd'] at this
          simp only [upTo_andSlide_ok hil, upTo_map, upTo_ok] at this h1 ⊢
          rw [Nat.mul_add] at this
          omega
      cases hk : decodeKey bz with
      | panic p => simp only [upTo, Nat.mul_add]; omega
      | oof => simp only [upTo, Nat.mul_add]; omega
      | err m e => simp only [upTo, Nat.mul_add]; omega
      | ok j ft =>
        obtain ⟨fnum, typ⟩ := ft
        have hj := (decodeKey_ok hk).2.2.2.1
        have hjl := (decodeKey_ok hk).2.2.2.2.2
        have hQj := le_mul_pos (K := Q) hj
        simp only
        split
        · have := ih (num + 1) last bz n hbz
          simp only [upTo_map]
          omega
        split
        · simp only [upTo, Nat.mul_add]; omega
        rw [upTo_slide hjl]
        have hl : (bz.drop j).length = bz.length - j := List.length_drop
        have hd : n + bz.length = n + j + (bz.drop j).length := by omega
        rw [hd]
        generalize bz.drop j = bz' at *
        split
        · simp only [upTo, Nat.mul_add]; omega
        split
        · simp only [upTo, Nat.mul_add]; omega
        have h1 := h.any f.ty p { f.opts with fnum := num + 1 } false bz' (by omega)
        have hfit := hf f.ty p { f.opts with fnum := num + 1 } false bz'
        cases hv : rec f.ty p { f.opts with fnum := num + 1 } false bz' with
        | panic p => simp only [hv, upTo, DRes.andSlide] at h1 ⊢; simp only [Nat.mul_add] at h1 ⊢; omega
        | oof => simp only [hv, upTo, DRes.andSlide] at h1 ⊢; simp only [Nat.mul_add] at h1 ⊢; omega
        | err m e => simp only [hv, upTo_err, upTo_andSlide_err, Nat.mul_add] at h1 ⊢; omega
        | ok i v =>
          rw [hv] at h1 hfit
          have hil : i ≤ bz'.length := hfit.2.1
          have hl' : (bz'.drop i).length = bz'.length - i := List.length_drop
          have := ih (num + 1) fnum (bz'.drop i) (n + j + i) (by omega)
          have hd' : n + j + i + (bz'.drop i).length = n + j + bz'.length := by omega
          rw [hd'] at this
          simp only [upTo_andSlide_ok hil, upTo_map, upTo_ok] at this h1 ⊢
          rw [Nat.mul_add, Nat.mul_add] at this
          omega


theorem upTo_concKey {id : TId} {fo : FOpts} {bz : Bytes} {n : Nat} {w : Bytes → Nat} {k : Bytes → Nat → DRes Val} {C : Nat}
    (h : ∀ bz' n', bz'.length ≤ bz.length → n ≤ n' → n' + bz'.length = n + bz.length →
      w bz' + Q * n ≤ C + Q * upTo (k bz' n') (n + bz.length)) :
    workKey Γ id fo bz w + Q * n ≤ C + Q * upTo (concKey Γ id fo bz n k) (n + bz.length) := by
  unfold workKey concKey
  split
  · cases hk : decodeKey bz with
    | panic p => simp only [upTo, Nat.mul_add]; omega
    | oof => simp only [upTo, Nat.mul_add]; omega
    | err m e => simp only [upTo, Nat.mul_add]; omega
    | ok j ft =>
      obtain ⟨fnum, typ⟩ := ft
      have hjl := (decodeKey_ok hk).2.2.2.2.2
      simp only
      split
      · simp only [upTo, Nat.mul_add]; omega
      split
      · simp only [upTo, Nat.mul_add]; omega
      rw [upTo_slide hjl]
      have hl : (bz.drop j).length = bz.length - j := List.length_drop
      exact h _ _ (by omega) (by omega) (by omega)
  · exact h _ _ (Nat.le_refl _) (Nat.le_refl _) rfl

/-- The decoder of interfaces, by the function that reads the contents. -/
theorem workIface_loop (hr : Rates A F R X S Q) (hR : ∀ id, rank id ≤ R) (hf : RecFits rec)
    (h : RecWork A Q X S rank rec wrk) (id : TId) (ii : IfaceInfo) (fo : FOpts) (bz : Bytes) (n : Nat) (hbz : bz.length < A) :
    (match decodeDisambPrefix bz with
      | .ok m dp =>
        match lookupConc c ii dp with
        | .error _ => 0
        | .ok ci =>
          workKey Γ ci.tid fo (bz.drop m) fun bz => wrk (.base ci.tid) (Γ.zero ci.tid) fo true bz
      | _ => 0) + Q * n ≤ 0 + Q * upTo
      ((decodeDisambPrefix bz).andSlide bz n fun dp bz n =>
        match lookupConc c ii dp with
        | .error e => .err n e
        | .ok ci =>
          concKey Γ ci.tid fo bz n fun bz n =>
          match rec (.base ci.tid) (Γ.zero ci.tid) fo true bz with
          | .ok m v =>
            if m ≤ bz.length then
              if (bz.drop m).length > 0 then .err (n + m) .leftover
              else if Γ.implements ci.dynTy id then .ok (n + m) (Val.iface ci.dynTy (wrapTy ci.dynTy v))
              else .panic .notAssignable
            else .panic .slide
          | .err m e =>
            if m ≤ bz.length then
              if Γ.implements ci.dynTy id then .err (n + m) e else .panic .notAssignable
            else .panic .slide
          | .panic p => .panic p
          | .oof => .oof) (n + bz.length) := by
  cases hp : decodeDisambPrefix bz with
  | panic p => simp only [DRes.andSlide, upTo, Nat.mul_add]; omega
  | oof => simp only [DRes.andSlide, upTo, Nat.mul_add]; omega
  | err m e => simp only [upTo_andSlide_err, Nat.mul_add]; omega
  | ok j dp =>
    have hpost := decodeDisambPrefix_post (Q := fun _ => True) bz
    rw [hp] at hpost
    have hjl : j ≤ bz.length := hpost.2.1
    have hj : 1 ≤ j := by have := hpost.1; omega
    have hQj := le_mul_pos (K := Q) hj
    simp only [upTo_andSlide_ok hjl]
    have hl : (bz.drop j).length = bz.length - j := List.length_drop
    have hd : n + bz.length = n + j + (bz.drop j).length := by omega
    rw [hd]
    generalize bz.drop j = bz' at *
    cases lookupConc c ii dp with
    | error e => simp only [upTo, Nat.mul_add]; omega
    | ok ci =>
      simp only
      have hpay := hr.pay (r' := 0) (hR ci.tid)
      have hmain := upTo_concKey (Q := Q) (Γ := Γ) (id := ci.tid) (fo := fo) (bz := bz') (n := n + j)
        (w := fun bz => wrk (.base ci.tid) (Γ.zero ci.tid) fo true bz) (C := X (rank ci.tid))
        (k := fun bz n =>
          match rec (.base ci.tid) (Γ.zero ci.tid) fo true bz with
          | .ok m v =>
            if m ≤ bz.length then
              if (bz.drop m).length > 0 then .err (n + m) .leftover
              else if Γ.implements ci.dynTy id then .ok (n + m) (Val.iface ci.dynTy (wrapTy ci.dynTy v))
              else .panic .notAssignable
            else .panic .slide
          | .err m e =>
            if m ≤ bz.length then
              if Γ.implements ci.dynTy id then .err (n + m) e else .panic .notAssignable
            else .panic .slide
          | .panic p => .panic p
          | .oof => .oof) ?_
      · rw [Nat.mul_add] at hmain
        omega
      intro bz2 n2 hl2 hn2 he2
      have h1 := h.any (.base ci.tid) (Γ.zero ci.tid) fo true bz2 (by omega)
      simp only [Ty.deref] at h1
      have hfit := hf (.base ci.tid) (Γ.zero ci.tid) fo true bz2
      have goal : ∀ x, Q * (upTo (rec (.base ci.tid) (Γ.zero ci.tid) fo true bz2) bz2.length + n2) ≤ Q * x →
          wrk (.base ci.tid) (Γ.zero ci.tid) fo true bz2 + Q * (n + j) ≤ X (rank ci.tid) + Q * x := by
        intro x hx
        have : Q * (n + j) ≤ Q * n2 := Nat.mul_le_mul_left _ hn2
        rw [Nat.mul_add] at hx
        omega
      refine goal _ (Nat.mul_le_mul_left _ ?_)
      clear goal hr hpay hQj
      cases hv : rec (.base ci.tid) (Γ.zero ci.tid) fo true bz2 with
      | panic p => simp only [upTo]; omega
      | oof => simp only [upTo]; omega
      | err m e =>
        dsimp only
        split
        · split <;> simp only [upTo] <;> omega
        · simp only [upTo]; omega
      | ok m v =>
        rw [hv] at hfit
        have := hfit.2.1
        simp only [if_pos this]
        split
        · simp only [upTo]; omega
        split <;> simp only [upTo] <;> omega

/-- Both bounds of one call, from a bound on what is done after the length has been read. -/
theorem workBoth {α : Type} {C : Nat} (hr : Rates A F R X S Q) {r : Nat} (hrR : r ≤ R) {bare : Bool} {bz : Bytes}
    {w : Bytes → Nat} {k : Bytes → Nat → DRes α} (hbz : bz.length < A) (hC : C + 3 * A ≤ X r)
    (h : ∀ buf n, buf.length ≤ bz.length → w buf + Q * n ≤ C + Q * upTo (k buf n) (n + buf.length)) :
    workFrame bare bz w + A ≤ X r + Q * upTo (unframe bare bz k) bz.length ∧
    (bare = false → bz ≠ [] → workFrame bare bz w + A + S r ≤ Q * upTo (unframe bare bz k) bz.length) := by
  refine ⟨?_, ?_⟩
  · have := workFrame_any (bare := bare) hbz h
    omega
  · rintro rfl hne
    have := workFrame_framed hbz hne h
    have := hr.pay (r' := r) hrR
    omega

theorem workShape_le (hr : Rates A F R X S Q) (hW : Wide Γ F) (hR : DecRank Γ rank R) (hf : RecFits rec)
    (h : RecWork A Q X S rank rec wrk) (id : TId) (p : Val) (fo : FOpts) (bare : Bool) (bz : Bytes) (hbz : bz.length < A) :
    workShape Γ c rec wrk id p fo bare bz + A ≤ X (rank id) + Q * upTo (decShape Γ c rec id p fo bare bz) bz.length ∧
    (bare = false → bz ≠ [] → workShape Γ c rec wrk id p fo bare bz + A + S (rank id) ≤
      Q * upTo (decShape Γ c rec id p fo bare bz) bz.length) := by
  have hb := hR.bound id
  have hX := hr.base (rank id)
  have hpost := decShape_post (Γ := Γ) (c := c) hf id p fo bare bz
  have leaf : ∀ w, w ≤ A → workShape Γ c rec wrk id p fo bare bz = w →
      workShape Γ c rec wrk id p fo bare bz + A ≤ X (rank id) + Q * upTo (decShape Γ c rec id p fo bare bz) bz.length ∧
      (bare = false → bz ≠ [] → workShape Γ c rec wrk id p fo bare bz + A + S (rank id) ≤
        Q * upTo (decShape Γ c rec id p fo bare bz) bz.length) := by
    intro w hw he
    rw [he]
    refine ⟨by omega, ?_⟩
    intro hbare hne
    have hpos : 1 ≤ bz.length := by cases bz with
      | nil => exact absurd rfl hne
      | cons => simp
    have h1 : 1 ≤ upTo (decShape Γ c rec id p fo bare bz) bz.length := by
      generalize decShape Γ c rec id p fo bare bz = d at *
      cases d with
      | ok n v =>
        have := hpost.1
        simpa [lo, hbare, hne] using this
      | _ => exact hpos
    have := le_mul_pos (K := Q) h1
    have := hr.pay (r' := rank id) hb
    omega
  have hcp : copied bz ≤ A := by have := copied_le bz; omega
  cases hs : Γ.shape id with
  | iface =>
    clear leaf hpost
    unfold workShape decShape
    simp only [hs]
    unfold workIface decIface
    have nothing : ∀ e, (0 : Nat) + A ≤ X (rank id) + Q * upTo (DRes.err 0 e : DRes Val) bz.length ∧
        (bare = false → bz ≠ [] → (0 : Nat) + A + S (rank id) ≤ Q * upTo (DRes.err 0 e : DRes Val) bz.length) := by
      intro e
      refine ⟨by omega, fun _ hne => ?_⟩
      have hpos : 1 ≤ bz.length := by cases bz with
        | nil => exact absurd rfl hne
        | cons => simp
      have := le_mul_pos (K := Q) hpos
      have := hr.pay (r' := rank id) hb
      simp only [upTo]
      omega
    split
    · cases c.iface? id with
      | none => exact nothing _
      | some ii =>
        exact workBoth hr hb hbz (C := 0) (by omega) fun buf n hl =>
          workIface_loop hr hR.bound hf h id ii fo buf n (by omega)
    · split
      · exact absurd rfl (by assumption)
      · exact nothing _
  | array len e =>
    cases hbk : Γ.isByteKind e with
    | true =>
      refine leaf (if bz.length < len then 0 else copied bz) (by split <;> omega) ?_
      unfold workShape
      simp only [hs, hbk, if_true]
    | false =>
      clear leaf hpost
      unfold workShape decShape
      simp only [hs, hbk, Bool.false_eq_true, if_false]
      unfold workArray decArray
      simp only [upTo_info]
      cases getInfo Γ c e.deref with
      | ok u =>
        refine workBoth hr hb hbz (C := X (rank id) - 3 * A) (by omega) fun buf n hl => ?_
        cases p with
        | list ps =>
          simp only
          split
          · rename_i hlen
            split
            · rename_i hty
              have hrk : rank e.deref < rank id := hR.elem (by rw [hs]; rfl) (by
                cases hl : Γ.isLen e.deref with
                | false => rfl
                | true => exact absurd (isLen_iff.mp hl) hty)
              have h1 := workPackedArr_le (Γ := Γ) hr.one hf h e fo ps buf n (by omega)
              have h2 := hr.step hrk
              have h3 : ps.length * (A + X (rank e.deref)) ≤ F * (A + X (rank e.deref)) :=
                Nat.mul_le_mul_right _ (by rw [hlen]; exact hW.array hs)
              simp only [upTo_map]
              omega
            · have h1 := workUnpackedArr_le (Γ := Γ) hr hR.bound hf h e fo ps buf n (by omega)
              simp only [upTo_map]
              omega
          · have : Q * n ≤ Q * upTo ((if Γ.typ3 e.deref fo ≠ typ3ByteLength then decPackedArr Γ rec e fo ps buf n
                else decUnpackedArr Γ rec e fo ps buf n).map Val.list) (n + buf.length) := by
              refine Nat.mul_le_mul_left _ ?_
              rw [upTo_map]
              split
              · have := decPackedArr_post (Γ := Γ) hf e fo ps buf n _ (Nat.le_refl _)
                generalize decPackedArr Γ rec e fo ps buf n = d at *
                cases d with
                | ok m v => exact this.1
                | _ => simp only [upTo]; omega
              · have := decUnpackedArr_post (Γ := Γ) hf e fo ps buf n _ (Nat.le_refl _)
                generalize decUnpackedArr Γ rec e fo ps buf n = d at *
                cases d with
                | ok m v => exact this.1
                | _ => simp only [upTo]; omega
            omega
        | _ => simp only [upTo, Nat.mul_add]; omega
      | _ =>
        simp only
        refine ⟨by omega, fun _ hne => ?_⟩
        have hpos : 1 ≤ bz.length := by cases bz with
          | nil => exact absurd rfl hne
          | cons => simp
        have := le_mul_pos (K := Q) hpos
        have := hr.pay (r' := rank id) hb
        omega
  | slice e =>
    cases hbk : Γ.isByteKind e with
    | true =>
      refine leaf (if bz.length = 0 then 0 else copied bz) (by split <;> omega) ?_
      unfold workShape
      simp only [hs, hbk, if_true]
    | false =>
      clear leaf hpost
      unfold workShape decShape
      simp only [hs, hbk, Bool.false_eq_true, if_false]
      unfold workSlice decSlice
      simp only [upTo_info]
      cases getInfo Γ c e.deref with
      | ok u =>
        refine workBoth hr hb hbz (C := A) (by omega) fun buf n hl => ?_
        simp only [upTo_map]
        split
        · exact workPackedSlice_le hr hf h e fo _ buf n (by omega)
        · exact workUnpackedSlice_le hr hR.bound hf h e fo _ buf n (by omega)
      | _ =>
        simp only
        refine ⟨by omega, fun _ hne => ?_⟩
        have hpos : 1 ≤ bz.length := by cases bz with
          | nil => exact absurd rfl hne
          | cons => simp
        have := le_mul_pos (K := Q) hpos
        have := hr.pay (r' := rank id) hb
        omega
  | struct fs =>
    clear leaf hpost
    unfold workShape decShape
    simp only [hs]
    refine workBoth hr hb hbz (C := X (rank id) - 3 * A) (by omega) fun buf n hl => ?_
    cases p with
    | struct ps =>
      simp only [upTo_map]
      have hF := hW.fields hs
      cases hr0 : rank id with
      | zero =>
        have h1 := workFields_le (w := 0) (c := c) hr hR.bound hf h fs
          (fun f hf hv hu => by have := hR.field hs f hf hv hu; omega) ps 0 0 buf n (by omega)
        have h2 := hr.wide (rank id)
        have h3 : fs.length * (A + 0) ≤ F * A := Nat.mul_le_mul_right _ hF
        rw [hr0] at h2
        omega
      | succ r =>
        have h1 := workFields_le (w := X r) (c := c) hr hR.bound hf h fs
          (fun f hf hv hu => hr.mono (by have := hR.field hs f hf hv hu; omega)) ps 0 0 buf n (by omega)
        have h2 := hr.step (r := r + 1) (r' := r) (by omega)
        have h3 : fs.length * (A + X r) ≤ F * (A + X r) := Nat.mul_le_mul_right _ hF
        omega
    | _ => simp only [upTo, Nat.mul_add]; omega
  | time =>
    clear leaf hpost
    unfold workShape decShape
    simp only [hs]
    refine workBoth hr hb hbz (C := 0) (by omega) fun buf n hl => ?_
    have : Q * n ≤ Q * upTo ((decodeTime buf).andSlide buf n fun t _ n => DRes.ok n (Val.time t.1 t.2)) (n + buf.length) := by
      refine Nat.mul_le_mul_left _ ?_
      generalize decodeTime buf = d
      cases d with
      | ok m t =>
        simp only [DRes.andSlide]
        split <;> simp only [upTo] <;> omega
      | err m e => rw [upTo_andSlide_err]; omega
      | panic p => simp only [DRes.andSlide, upTo]; omega
      | oof => simp only [DRes.andSlide, upTo]; omega
    omega
  | string => exact leaf (copied bz) hcp (by unfold workShape; simp only [hs])
  | _ => exact leaf 0 (by omega) (by unfold workShape; simp only [hs])

theorem workBody_le (hr : Rates A F R X S Q) (hW : Wide Γ F) (hR : DecRank Γ rank R) (hf : RecFits rec)
    (h : RecWork A Q X S rank rec wrk) : RecWork A Q X S rank (decBody Γ c rec) (workBody Γ c rec wrk) := by
  have hA := hr.one
  have key : ∀ t p fo bare bz, bz.length < A →
      workBody Γ c rec wrk t p fo bare bz ≤ X (rank t.deref) + Q * upTo (decBody Γ c rec t p fo bare bz) bz.length ∧
      (bare = false → bz ≠ [] → workBody Γ c rec wrk t p fo bare bz + S (rank t.deref) ≤
        Q * upTo (decBody Γ c rec t p fo bare bz) bz.length) := by
    intro t p fo bare bz hbz
    have hX := hr.base (rank t.deref)
    have hpay := hr.pay (r' := rank t.deref) (hR.bound t.deref)
    have hQ : bz ≠ [] → Q ≤ Q * bz.length := by
      intro hne
      refine le_mul_pos ?_
      cases bz with
      | nil => exact absurd rfl hne
      | cons => simp
    unfold workBody decBody
    split
    · simp only [upTo]
      exact ⟨by omega, fun _ hne => by have := hQ hne; omega⟩
    simp only [upTo_map]
    cases hum : Γ.unmarsh t.deref with
    | none =>
      have := workShape_le (c := c) hr hW hR hf h t.deref (Γ.derefPrior t p) fo bare bz hbz
      simp only
      exact ⟨by omega, fun h1 h2 => by have := this.2 h1 h2; omega⟩
    | some ru =>
      obtain ⟨rid, um⟩ := ru
      simp only [upTo_info]
      have hrk := hR.unmarsh hum
      have hs1 := hr.step hrk
      have hs2 := hr.left hrk (hR.bound _)
      cases getInfo Γ c rid with
      | ok u =>
        simp only
        have hm : ∀ m v, rec (.base rid) (Γ.zero rid) fo bare bz = .ok m v → m ≤ bz.length := by
          intro m v hv
          have hfit := hf (.base rid) (Γ.zero rid) fo bare bz
          rw [hv] at hfit
          exact hfit.2.1
        have h1 := h.any (.base rid) (Γ.zero rid) fo bare bz hbz
        simp only [Ty.deref] at h1
        have hfin : ∀ (v : Val) m, m ≤ bz.length → ∀ g : Res Val, m ≤ upTo (match g with
            | .ok v => .ok (0 + m) v
            | .err e => .err (0 + m) e
            | .panic p => .panic p
            | .oof => (.oof : DRes Val)) bz.length := by
          intro v m hm g
          cases g <;> simp only [upTo] <;> omega
        refine ⟨?_, fun hb hne => ?_⟩
        · refine Nat.le_trans (m := X (rank t.deref) + Q * upTo (rec (.base rid) (Γ.zero rid) fo bare bz) bz.length)
            (by omega) (Nat.add_le_add_left (Nat.mul_le_mul_left _ (upTo_andSlide_ge hm ?_)) _)
          intro m v b hmb
          exact hfin v m hmb _
        · have h2 := h.framed (.base rid) (Γ.zero rid) fo bz hbz hne
          simp only [Ty.deref] at h2
          rw [← hb] at h2
          refine Nat.le_trans (m := Q * upTo (rec (.base rid) (Γ.zero rid) fo bare bz) bz.length)
            (by omega) (Nat.mul_le_mul_left _ (upTo_andSlide_ge hm ?_))
          intro m v b hmb
          exact hfin v m hmb _
      | _ =>
        simp only
        exact ⟨by omega, fun _ hne => by have := hQ hne; omega⟩
  exact ⟨fun t p fo bare bz hbz => (key t p fo bare bz hbz).1, fun t p fo bz hbz hne => (key t p fo false bz hbz).2 rfl hne⟩

theorem work_le (hr : Rates A F R X S Q) (hW : Wide Γ F) (hR : DecRank Γ rank R) (hu : Γ.UserOk) (f : Nat) :
    RecWork A Q X S rank (dec Γ c f) (work Γ c f) := by
  induction f with
  | zero =>
    refine ⟨fun t p fo bare bz _ => by simp [work], fun t p fo bz _ hne => ?_⟩
    have hpos : 1 ≤ bz.length := by cases bz with
      | nil => exact absurd rfl hne
      | cons => simp
    have := le_mul_pos (K := Q) hpos
    have := hr.pay (r' := rank t.deref) (Nat.zero_le R)
    simp only [work, dec, upTo]
    omega
  | succ f ih => exact workBody_le hr hW hR (dec_fits hu f) ih

end

end Amino
