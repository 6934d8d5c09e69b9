import Verif.ExactDec
import Verif.RTFields

/-!
# Field order of accepted messages
-/

namespace Amino
open Spec

section
variable {Γ : Prog} {c : Codec} {rec : Ty → Val → FOpts → Bool → Bytes → DRes Val}

/-- The field decoder uses exactly the payload. -/
def RecPay (Γ : Prog) (rec : Ty → Val → FOpts → Bool → Bytes → DRes Val) : Prop :=
  ∀ ⦃t p v fo pl rest n⦄, exactKind Γ t.deref = true → Payload (Γ.typ3 t.deref fo) pl →
    rec t p fo false (pl ++ rest) = .ok n v → n = pl.length

theorem dec_pay (g : Nat) : RecPay Γ (dec Γ c g) := by
  intro t p v fo pl rest n hx hp h
  cases g with
  | zero => cases h
  | succ g => exact decBody_payload hx hp h

/-- The fields of a repeated list come first, the rest has higher numbers. -/
def Front (num : Nat) (ws : List WField) (bz : Bytes) (used : Nat) : Prop :=
  ∃ ws1 ws2 b1 b2, ws = ws1 ++ ws2 ∧ bz = b1 ++ b2 ∧ used = b1.length ∧ Wire ws2 b2 ∧ (∀ w ∈ ws1, w.num = num ∧ w.typ = 2) ∧
    ∀ w ws', ws2 = w :: ws' → num < w.num

theorem front_nil {num : Nat} {ws : List WField} {bz : Bytes} (hw : Wire ws bz)
    (h : ∀ w ws', ws = w :: ws' → num < w.num) : Front num ws bz 0 :=
  ⟨[], ws, [], bz, rfl, rfl, rfl, hw, by simp, h⟩

theorem front_cons {num : Nat} {w : WField} {ws : List WField} {k bz : Bytes} {used : Nat} (hw : w.num = num ∧ w.typ = 2)
    (h : Front num ws bz used) : Front num (w :: ws) (k ++ w.payload ++ bz) (k.length + w.payload.length + used) := by
  obtain ⟨ws1, ws2, b1, b2, rfl, rfl, rfl, h1, h2, h3⟩ := h
  refine ⟨w :: ws1, ws2, k ++ w.payload ++ b1, b2, rfl, by simp, by simp [Nat.add_assoc], h1, ?_, h3⟩
  intro w' hw'
  simp only [List.mem_cons] at hw'
  rcases hw' with rfl | hw'
  · exact hw
  · exact h2 _ hw'

theorem payload_zero {pl rest : Bytes} (hp : Payload 2 pl) (h : (pl ++ rest).head? = some 0) : pl = [0] := by
  cases hp with
  | @bytes b hb =>
    have hne := varint_ne_nil b.length
    have : (varint b.length).head? = some 0 := by
      cases hv : varint b.length with
      | nil => exact absurd hv hne
      | cons x xs => rw [hv] at h; simpa using h
    have h0 := varint_head_zero this
    have hb0 : b = [] := List.length_eq_zero_iff.mp h0
    subst hb0
    simp [varint]

theorem decUnpackedSlice_front (hr : RecPay Γ rec) {e : Ty} (hx : exactKind Γ e.deref = true) (hk : lenKind Γ e.deref = true)
    {fo : FOpts} {ws : List WField} {bz : Bytes} (hw : Wire ws bz) {k n m : Nat} {vs : List Val}
    (h : decUnpackedSlice Γ rec e fo k bz n = .ok m vs) : n ≤ m ∧ Front fo.fnum ws bz (m - n) := by
  have ht : ∀ fo', Γ.typ3 e.deref fo' = 2 := fun fo' => (isLen_iff (Γ := Γ) (fo := fo')).mp hk
  induction hw generalizing k n vs with
  | nil =>
    have : m = n := by cases k <;> simp [decUnpackedSlice] at h <;> exact h.1.symm
    subst this
    exact ⟨Nat.le_refl _, by rw [Nat.sub_self]; exact front_nil .nil (by simp)⟩
  | @cons w ws bz h1 h2 h3 h4 ih =>
    have hv := varint_length_pos (8 * w.num + w.typ)
    have hkey := decodeKey_varint _ _ h2 (payload_typ h3) (w.payload ++ bz)
    rw [← List.append_assoc] at hkey
    have hfr : Front fo.fnum (w :: ws) (varint (8 * w.num + w.typ) ++ w.payload ++ bz) 0 ∨ ¬ w.num > fo.fnum := by
      by_cases hgt : w.num > fo.fnum
      · refine .inl (front_nil (.cons h1 h2 h3 h4) ?_)
        intro w' ws' hh
        simp only [List.cons.injEq] at hh
        rw [← hh.1]; exact hgt
      · exact .inr hgt
    generalize hbz : varint (8 * w.num + w.typ) ++ w.payload ++ bz = B at h hkey hfr ⊢
    cases B with
    | nil => exact absurd (congrArg List.length hbz) (by simp only [List.length_append, List.length_nil]; omega)
    | cons x xs =>
      cases k with
      | zero => simp [decUnpackedSlice] at h
      | succ k =>
        unfold decUnpackedSlice at h
        rw [hkey] at h
        simp only at h
        split at h
        · cases h
        split at h
        · rename_i hgt
          simp at h
          rw [h.1, Nat.sub_self]
          exact ⟨Nat.le_refl _, hfr.resolve_right (fun hh => hh hgt)⟩
        split at h
        · cases h
        rename_i hlt hgt htyp
        have htyp : w.typ = 2 := Decidable.not_not.mp htyp
        have hnum : w.num = fo.fnum := by omega
        rw [htyp] at h3
        rw [← hbz, List.append_assoc, slideThen_append] at h
        rw [← hbz]
        split at h
        · rename_i hz
          have hp0 := payload_zero h3 hz.1
          rw [hp0] at h ⊢
          obtain ⟨_, h⟩ := slideThen_inv h
          obtain ⟨a, h, _⟩ := map_inv h
          simp only [List.singleton_append, List.drop_succ_cons, List.drop_zero] at h
          obtain ⟨hle, hf⟩ := ih h
          refine ⟨by omega, ?_⟩
          have := front_cons (k := varint (8 * w.num + w.typ)) ⟨hnum, htyp⟩ hf
          rw [hp0] at this
          have heq : m - n = (varint (8 * w.num + w.typ)).length + ([0] : Bytes).length +
              (m - (n + (varint (8 * w.num + w.typ)).length + 1)) := by simp; omega
          rw [heq]; exact this
        · obtain ⟨j, a, hj, hjl, h⟩ := andSlide_inv h
          have := hr hx (by rw [ht]; exact h3) hj
          subst this
          obtain ⟨a, h, _⟩ := map_inv h
          simp only [List.drop_left] at h
          obtain ⟨hle, hf⟩ := ih h
          refine ⟨by omega, ?_⟩
          have := front_cons (k := varint (8 * w.num + w.typ)) ⟨hnum, htyp⟩ hf
          have heq : m - n = (varint (8 * w.num + w.typ)).length + w.payload.length +
              (m - (n + (varint (8 * w.num + w.typ)).length + w.payload.length)) := by omega
          rw [heq]; exact this

theorem decUnpackedArr_front (hr : RecPay Γ rec) {e : Ty} (hx : exactKind Γ e.deref = true) (hk : lenKind Γ e.deref = true)
    {fo : FOpts} {ps : List Val} {ws : List WField} {bz : Bytes} (hw : Wire ws bz) {n m : Nat} {vs : List Val}
    (h : decUnpackedArr Γ rec e fo ps bz n = .ok m vs) : n ≤ m ∧ Front fo.fnum ws bz (m - n) := by
  have ht : ∀ fo', Γ.typ3 e.deref fo' = 2 := fun fo' => (isLen_iff (Γ := Γ) (fo := fo')).mp hk
  induction ps generalizing ws bz n vs with
  | nil =>
    unfold decUnpackedArr at h
    cases hw with
    | nil =>
      simp at h
      rw [h.1, Nat.sub_self]
      exact ⟨Nat.le_refl _, front_nil .nil (by simp)⟩
    | @cons w ws bz h1 h2 h3 h4 =>
      have hv := varint_length_pos (8 * w.num + w.typ)
      rw [if_pos (by simp only [List.length_append]; omega), List.append_assoc, decodeKey_varint _ _ h2 (payload_typ h3)] at h
      simp only at h
      split at h
      · cases h
      · simp at h
        rw [h.1, Nat.sub_self]
        refine ⟨Nat.le_refl _, front_nil (.cons h1 h2 h3 h4) ?_⟩
        intro w' ws' hh
        simp only [List.cons.injEq] at hh
        rw [← hh.1]; omega
  | cons p ps ih =>
    cases hw with
    | nil => simp [decUnpackedArr, decodeKey_eq, readVarint] at h
    | @cons w ws bz h1 h2 h3 h4 =>
      have hkey := decodeKey_varint _ _ h2 (payload_typ h3) (w.payload ++ bz)
      rw [← List.append_assoc] at hkey
      unfold decUnpackedArr at h
      rw [hkey] at h
      simp only at h
      split at h
      · cases h
      split at h
      · cases h
      rename_i hnum htyp
      have hnum : w.num = fo.fnum := Decidable.not_not.mp hnum
      have htyp : w.typ = 2 := Decidable.not_not.mp htyp
      rw [htyp] at h3
      rw [List.append_assoc, slideThen_append] at h
      split at h
      · rename_i hz
        have hp0 := payload_zero h3 hz.1
        rw [hp0] at h ⊢
        obtain ⟨_, h⟩ := slideThen_inv h
        obtain ⟨a, h, _⟩ := map_inv h
        simp only [List.singleton_append, List.drop_succ_cons, List.drop_zero] at h
        obtain ⟨hle, hf⟩ := ih h4 h
        refine ⟨by omega, ?_⟩
        have := front_cons (k := varint (8 * w.num + w.typ)) ⟨hnum, htyp⟩ hf
        rw [hp0] at this
        have heq : m - n = (varint (8 * w.num + w.typ)).length + ([0] : Bytes).length +
            (m - (n + (varint (8 * w.num + w.typ)).length + 1)) := by simp; omega
        rw [heq]; exact this
      · obtain ⟨j, a, hj, hjl, h⟩ := andSlide_inv h
        have := hr hx (by rw [ht]; exact h3) hj
        subst this
        obtain ⟨a, h, _⟩ := map_inv h
        simp only [List.drop_left] at h
        obtain ⟨hle, hf⟩ := ih h4 h
        refine ⟨by omega, ?_⟩
        have := front_cons (k := varint (8 * w.num + w.typ)) ⟨hnum, htyp⟩ hf
        have heq : m - n = (varint (8 * w.num + w.typ)).length + w.payload.length +
            (m - (n + (varint (8 * w.num + w.typ)).length + w.payload.length)) := by omega
        rw [heq]; exact this

/-- A repeated list, read from the fields of its struct. -/
theorem dec_repeated_front {g : Nat} {id : TId} {e : Ty} (hu : Γ.unmarsh id = none) (he : (Γ.shape id).elem? = some e)
    (hx : exactKind Γ e.deref = true) (hk : lenKind Γ e.deref = true) {fo : FOpts} {p v : Val} {ws : List WField}
    {bz : Bytes} (hw : Wire ws bz) {m : Nat} (h : dec Γ c g (.base id) p fo true bz = .ok m v) :
    Front fo.fnum ws bz m := by
  cases g with
  | zero => cases h
  | succ g =>
    have hr := dec_pay (Γ := Γ) (c := c) g
    change decBody Γ c (dec Γ c g) (.base id) p fo true bz = _ at h
    unfold decBody at h
    simp only [Ty.isPtr, Bool.false_and, Bool.false_eq_true, if_false, Ty.deref, hu] at h
    obtain ⟨a, h, _⟩ := map_inv h
    have hnb : Γ.isByteKind e = false := by
      cases hb : Γ.isByteKind e with
      | false => rfl
      | true => have := isByteKind_len hb; rw [← lenKind_eq, hk] at this; cases this
    have ht : ¬ Γ.typ3 e.deref fo ≠ typ3ByteLength := fun hh => hh ((isLen_iff (Γ := Γ) (fo := fo)).mp hk)
    unfold decShape at h
    cases hs : Γ.shape id <;> rw [hs] at he h <;> simp only [Shape.elem?, Option.some.injEq, reduceCtorEq] at he
    · subst he
      simp only [hnb, Bool.false_eq_true, if_false] at h
      unfold decSlice at h
      obtain ⟨_, h⟩ := infoThen_inv h
      simp only [unframe, if_true] at h
      obtain ⟨a, h, _⟩ := map_inv h
      rw [if_neg ht] at h
      have := decUnpackedSlice_front hr hx hk hw h
      simpa using this.2
    · subst he
      simp only [hnb, Bool.false_eq_true, if_false] at h
      unfold decArray at h
      obtain ⟨_, h⟩ := infoThen_inv h
      simp only [unframe, if_true] at h
      split at h
      · obtain ⟨a, h, _⟩ := map_inv h
        rw [if_neg ht] at h
        have := decUnpackedArr_front hr hx hk hw h
        simpa using this.2
      · cases h

theorem consumeRest_order {ws : List WField} {bz : Bytes} (hw : Wire ws bz) {k last n m : Nat}
    (h : consumeRest k last bz n = .ok m ()) :
    (ws.map WField.num).Pairwise (· < ·) ∧ ∀ w ∈ ws, last < w.num := by
  induction hw generalizing k last n with
  | nil => simp
  | @cons w ws bz h1 h2 h3 h4 ih =>
    have hv := varint_length_pos (8 * w.num + w.typ)
    cases k with
    | zero =>
      generalize hbz : varint (8 * w.num + w.typ) ++ w.payload ++ bz = B at h
      cases B with
      | nil => exact absurd (congrArg List.length hbz) (by simp only [List.length_append, List.length_nil]; omega)
      | cons x xs => simp [consumeRest] at h
    | succ k =>
      rw [consumeRest_succ (by intro hh; have := congrArg List.length hh; simp only [List.length_append, List.length_nil] at this; omega),
        List.append_assoc, decodeKey_varint _ _ h2 (payload_typ h3), andSlide_append] at h
      simp only at h
      split at h
      · cases h
      rename_i hlast
      rw [consumeAny_payload h3, andSlide_append] at h
      obtain ⟨ih1, ih2⟩ := ih h
      refine ⟨?_, ?_⟩
      · simp only [List.map_cons, List.pairwise_cons]
        refine ⟨?_, ih1⟩
        intro a ha
        simp only [List.mem_map] at ha
        obtain ⟨w', hw', rfl⟩ := ha
        exact ih2 w' hw'
      · intro w' hw'
        simp only [List.mem_cons] at hw'
        rcases hw' with rfl | hw'
        · omega
        · have := ih2 w' hw'; omega

theorem repNums_gt {num : Nat} {fs : List Field} : ∀ a ∈ repNums Γ num fs, num < a := by
  induction fs generalizing num with
  | nil => simp [repNums]
  | cons f fs ih =>
    intro a ha
    unfold repNums at ha
    split at ha
    · split at ha
      · simp only [List.mem_cons] at ha
        rcases ha with rfl | ha
        · omega
        · have := ih a ha; omega
      · have := ih a ha; omega
    · exact ih a ha

/-- The wire types of the fields after number `num` are those of their kinds. -/
def TypesOk (Γ : Prog) (num : Nat) (fs : List Field) (ws : List WField) : Prop :=
  ∀ w ∈ ws, ∀ f, num < w.num → (fs.filter fun f => f.visible)[w.num - num - 1]? = some f →
    w.typ = if repeated Γ f then 2 else wireType Γ f.ty.deref f.opts

theorem typesOk_up {num : Nat} {f : Field} {fs : List Field} {ws : List WField} (hv : f.visible = true)
    (h : TypesOk Γ (num + 1) fs ws) (hn : ∀ w ∈ ws, num + 1 < w.num) : TypesOk Γ num (f :: fs) ws := by
  intro w hw f' _ hf
  have := hn w hw
  refine h w hw f' this ?_
  rw [List.filter_cons, if_pos hv, show w.num - num - 1 = (w.num - (num + 1) - 1) + 1 by omega, List.getElem?_cons_succ] at hf
  exact hf

theorem decFields_order {g : Nat} {R : List Nat} : ∀ {fs : List Field} {ps vs : List Val} {num last n m : Nat} {bz : Bytes}
    {ws : List WField}, Wire ws bz → (∀ f ∈ fs, f.visible = true → exactField Γ f = true) →
    (∀ a ∈ repNums Γ num fs, a ∈ R) → (∀ w ws', ws = w :: ws' → num < w.num ∨ num ≤ last) →
    decFields Γ c (dec Γ c g) fs ps num last bz n = .ok m vs →
    (Ordered R ws ∧ ∀ w ∈ ws, num < w.num) ∧ TypesOk Γ num fs ws
  | [], ps, vs, num, last, n, m, bz, ws, hw, hx, hR, hd, h => by
    cases ps with
    | cons => simp [decFields] at h
    | nil =>
      unfold decFields at h
      obtain ⟨_, h, _⟩ := map_inv h
      obtain ⟨h1, h2⟩ := consumeRest_order hw h
      refine ⟨⟨h1.imp fun h => .inl h, ?_⟩, by intro w _ f _ hf; simp at hf⟩
      intro w hmem
      cases ws with
      | nil => simp at hmem
      | cons w0 ws =>
        have h0 := h2 w hmem
        rcases hd w0 ws rfl with hd | hd
        · simp only [List.map_cons, List.pairwise_cons] at h1
          simp only [List.mem_cons] at hmem
          rcases hmem with rfl | hmem
          · exact hd
          · have := h1.1 w.num (by simp; exact ⟨w, hmem, rfl⟩)
            omega
        · omega
  | f :: fs, ps, vs, num, last, n, m, bz, ws, hw, hx, hR, hd, h => by
    have hx' : ∀ f ∈ fs, f.visible = true → exactField Γ f = true := fun f' hf' => hx f' (by simp [hf'])
    cases ps with
    | nil => simp [decFields] at h
    | cons p ps =>
      cases hv : f.visible with
      | false =>
        simp only [decFields, hv, Bool.not_false, if_true] at h
        obtain ⟨a, h, _⟩ := map_inv h
        have := decFields_order (R := R) hw hx' ?_ hd h
        · refine ⟨this.1, ?_⟩
          have h2 := this.2
          unfold TypesOk at h2 ⊢
          rw [List.filter_cons, if_neg (by simp [hv])]
          exact h2
        intro a ha
        apply hR
        unfold repNums
        rw [hv]
        simpa using ha
      | true =>
        have hxf := hx f (by simp) hv
        have hR' : ∀ a ∈ repNums Γ (num + 1) fs, a ∈ R := by
          intro a ha
          apply hR
          unfold repNums
          rw [hv, if_pos rfl]
          split <;> simp [ha]
        simp only [decFields, hv, Bool.not_true, Bool.false_eq_true, if_false] at h
        obtain ⟨_, h⟩ := infoThen_inv h
        -- the end of the message
        have hend : ∀ {vs : List Val} {n m : Nat} {ws : List WField}, Wire ws bz →
            decFields Γ c (dec Γ c g) fs ps (num + 1) last bz n = .ok m vs →
            (∀ w ws', ws = w :: ws' → num + 1 < w.num) →
            (Ordered R ws ∧ ∀ w ∈ ws, num < w.num) ∧ TypesOk Γ num (f :: fs) ws := by
          intro vs n m ws hw h hh
          obtain ⟨⟨h1, h2⟩, h3⟩ := decFields_order hw hx' hR' (fun w ws' hws => .inl (hh w ws' hws)) h
          exact ⟨⟨h1, fun w hmem => by have := h2 w hmem; omega⟩, typesOk_up hv h3 h2⟩
        split at h
        · rename_i hz
          obtain ⟨a, h, _⟩ := map_inv h
          cases hw with
          | nil => exact ⟨⟨by unfold Ordered; simp, by simp⟩, by simp [TypesOk]⟩
          | @cons w ws bz h1 h2 h3 h4 =>
            have hv := varint_length_pos (8 * w.num + w.typ)
            simp only [List.length_append] at hz
            omega
        split at h
        · -- repeated list
          rename_i hul
          obtain ⟨j, a, hj, hjl, h⟩ := andSlide_inv h
          obtain ⟨a', h, _⟩ := map_inv h
          have hrep : repeated Γ f = true := by rw [repeated_eq]; exact hul
          unfold exactField at hxf
          rw [if_pos hrep] at hxf
          simp only [Bool.and_eq_true, Option.isNone_iff_eq_none] at hxf
          obtain ⟨hu, hxe⟩ := hxf
          obtain ⟨id, hid⟩ : ∃ id, f.ty = .base id := by
            cases hty : f.ty with
            | base id => exact ⟨id, rfl⟩
            | ptr t => unfold repeated at hrep; rw [hty] at hrep; cases hrep
          rw [hid] at hj hu hxe
          simp only [Ty.deref] at hu hxe
          obtain ⟨e, he, hk⟩ : ∃ e, (Γ.shape id).elem? = some e ∧ lenKind Γ e.deref = true := by
            unfold repeated at hrep
            rw [hid] at hrep
            simp only at hrep
            split at hrep <;> rename_i hs
            · exact ⟨_, by rw [hs]; rfl, hrep⟩
            · exact ⟨_, by rw [hs]; rfl, hrep⟩
            · cases hrep
          rw [he] at hxe
          simp only at hxe
          have hfront := dec_repeated_front hu he hxe hk hw hj
          obtain ⟨ws1, ws2, b1, b2, rfl, rfl, rfl, h1, h2, h3⟩ := hfront
          rw [List.drop_left] at h
          simp only at h2 h3
          obtain ⟨⟨i1, i2⟩, i3⟩ := decFields_order h1 hx' hR' (fun w ws' hws => .inl (h3 w ws' hws)) h
          have hin : num + 1 ∈ R := by
            apply hR
            unfold repNums
            rw [hv, if_pos rfl, if_pos hrep]
            simp
          refine ⟨⟨?_, ?_⟩, ?_⟩
          rotate_left 2
          · intro w hmem f' hlt hf
            rcases List.mem_append.mp hmem with hm | hm
            · have := h2 w hm
              rw [this.1, List.filter_cons, if_pos hv] at hf
              simp only [show num + 1 - num - 1 = 0 by omega, List.getElem?_cons_zero, Option.some.injEq] at hf
              rw [← hf, if_pos hrep, this.2]
            · exact typesOk_up hv i3 i2 w hm f' hlt hf
          · unfold Ordered
            rw [List.map_append, List.pairwise_append]
            refine ⟨?_, i1, ?_⟩
            · rw [List.pairwise_map]
              refine List.Pairwise.imp_of_mem (R := fun _ _ => True) ?_ (List.pairwise_of_forall fun _ _ => trivial)
              intro a b ha hb _
              rw [(h2 a ha).1, (h2 b hb).1]
              exact .inr ⟨rfl, hin⟩
            · intro a ha b hb
              simp only [List.mem_map] at ha hb
              obtain ⟨w1, hw1, rfl⟩ := ha
              obtain ⟨w2, hw2, rfl⟩ := hb
              rw [(h2 w1 hw1).1]
              exact .inl (i2 w2 hw2)
          · intro w hmem
            simp only [List.mem_append] at hmem
            rcases hmem with hmem | hmem
            · rw [(h2 w hmem).1]; omega
            · have := i2 w hmem; omega
        -- a field with its own key
        rename_i hz hul
        cases hw with
        | nil => simp at hz
        | @cons w ws bz h1 h2 h3 h4 =>
          have hkey := decodeKey_varint _ _ h2 (payload_typ h3) (w.payload ++ bz)
          rw [← List.append_assoc] at hkey
          rw [hkey] at h
          simp only at h
          split at h
          · rename_i hlt
            obtain ⟨a, h, _⟩ := map_inv h
            refine hend (.cons h1 h2 h3 h4) h ?_
            intro w' ws' hh
            simp only [List.cons.injEq] at hh
            rw [← hh.1]; exact hlt
          split at h
          · cases h
          rw [List.append_assoc, slideThen_append] at h
          split at h
          · cases h
          split at h
          · cases h
          rename_i hnlt hnle hne hty
          have hnum : num + 1 = w.num := Decidable.not_not.mp hne
          have htyp : w.typ = _ := Decidable.not_not.mp hty
          obtain ⟨j, a, hj, hjl, h⟩ := andSlide_inv h
          obtain ⟨a', h, _⟩ := map_inv h
          rw [htyp] at h3
          unfold exactField at hxf
          rw [if_neg (by rw [repeated_eq]; exact hul)] at hxf
          have := dec_pay g hxf h3 hj
          subst this
          rw [List.drop_left] at h
          rw [← hnum] at h
          obtain ⟨⟨i1, i2⟩, i3⟩ := decFields_order h4 hx' hR' (fun w ws' hws => .inr (Nat.le_refl _)) h
          refine ⟨⟨?_, ?_⟩, ?_⟩
          rotate_left 2
          · intro w' hmem f' hlt hf
            rcases List.mem_cons.mp hmem with rfl | hm
            · rw [← hnum, List.filter_cons, if_pos hv] at hf
              simp only [show num + 1 - num - 1 = 0 by omega, List.getElem?_cons_zero, Option.some.injEq] at hf
              rw [← hf, if_neg (by rw [repeated_eq]; exact hul), htyp, ← wireType_eq]
              rfl
            · exact typesOk_up hv i3 i2 w' hm f' hlt hf
          · unfold Ordered
            simp only [List.map_cons, List.pairwise_cons]
            refine ⟨?_, i1⟩
            intro a ha
            simp only [List.mem_map] at ha
            obtain ⟨w', hw', rfl⟩ := ha
            have := i2 w' hw'
            exact .inl (by omega)
          · intro w' hmem
            simp only [List.mem_cons] at hmem
            rcases hmem with rfl | hmem
            · omega
            · have := i2 w' hmem; omega

end

end Amino
