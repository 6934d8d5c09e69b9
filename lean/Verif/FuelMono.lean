import Verif.AminoApi

/-!
# More fuel gives the same result

`r ≼ r'`: `r` ran out of fuel, or `r'` is the same result.
-/

namespace Amino

variable {α β : Type}

def DRes.Le (r r' : DRes α) : Prop := r = .oof ∨ r' = r
def Res.Le (r r' : Res α) : Prop := r = .oof ∨ r' = r

theorem DRes.Le.rfl {r : DRes α} : r.Le r := .inr (Eq.refl _)
theorem Res.Le.rfl {r : Res α} : r.Le r := .inr (Eq.refl _)

theorem DRes.Le.trans {r s t : DRes α} (h : r.Le s) (h' : s.Le t) : r.Le t := by
  rcases h with h | h
  · exact .inl h
  · subst h; exact h'

theorem Res.Le.trans {r s t : Res α} (h : r.Le s) (h' : s.Le t) : r.Le t := by
  rcases h with h | h
  · exact .inl h
  · subst h; exact h'

theorem DRes.Le.andSlide {r r' : DRes α} {bz : Bytes} {n : Nat} {k k' : α → Bytes → Nat → DRes β}
    (h : r.Le r') (hk : ∀ a bz n, (k a bz n).Le (k' a bz n)) :
    (r.andSlide bz n k).Le (r'.andSlide bz n k') := by
  rcases h with h | h
  · subst h; exact .inl (Eq.refl _)
  · subst h
    cases r' with
    | ok m a =>
      simp only [DRes.andSlide]; split
      · exact hk _ _ _
      · exact .rfl
    | err m e => exact .rfl
    | panic p => exact .rfl
    | oof => exact .rfl

theorem DRes.Le.map {r r' : DRes α} {f : α → β} (h : r.Le r') : (r.map f).Le (r'.map f) := by
  rcases h with h | h
  · subst h; exact .inl (Eq.refl _)
  · subst h; exact .rfl

theorem DRes.Le.slideThen {bz : Bytes} {m n : Nat} {k k' : Bytes → Nat → DRes β}
    (hk : ∀ bz n, (k bz n).Le (k' bz n)) : (slideThen m bz n k).Le (slideThen m bz n k') := by
  unfold Amino.slideThen; split
  · exact hk _ _
  · exact .rfl

theorem DRes.Le.infoThen {Γ : Prog} {c : Codec} {id : TId} {n : Nat} {k k' : DRes β} (h : k.Le k') :
    (infoThen Γ c id n k).Le (infoThen Γ c id n k') := by
  unfold Amino.infoThen; split
  · exact h
  all_goals exact .rfl

theorem DRes.Le.unframe {bare : Bool} {bz : Bytes} {k k' : Bytes → Nat → DRes β}
    (hk : ∀ bz n, (k bz n).Le (k' bz n)) : (unframe bare bz k).Le (unframe bare bz k') := by
  unfold Amino.unframe; split
  · exact hk _ _
  · split
    · split
      · exact hk _ _
      · exact .rfl
    all_goals exact .rfl

theorem Res.Le.bind {r r' : Res α} {k k' : α → Res β} (h : r.Le r') (hk : ∀ a, (k a).Le (k' a)) :
    (r.bind k).Le (r'.bind k') := by
  rcases h with h | h
  · subst h; exact .inl (Eq.refl _)
  · subst h
    cases r' with
    | ok a => exact hk a
    | _ => exact .rfl

section dec
variable {Γ : Prog} {c : Codec} {rec rec' : Ty → Val → FOpts → Bool → Bytes → DRes Val}
variable (h : ∀ t p fo bare bz, (rec t p fo bare bz).Le (rec' t p fo bare bz))
include h

theorem decPackedSlice_le (e : Ty) (fo : FOpts) (k : Nat) (bz : Bytes) (n : Nat) :
    (decPackedSlice Γ rec e fo k bz n).Le (decPackedSlice Γ rec' e fo k bz n) := by
  induction k generalizing bz n with
  | zero => cases bz <;> exact .rfl
  | succ k ih =>
    cases bz with
    | nil => exact .rfl
    | cons b bs =>
      unfold decPackedSlice
      exact .andSlide (h _ _ _ _ _) fun _ _ _ => .map (ih _ _)

theorem decUnpackedSlice_le (e : Ty) (fo : FOpts) (k : Nat) (bz : Bytes) (n : Nat) :
    (decUnpackedSlice Γ rec e fo k bz n).Le (decUnpackedSlice Γ rec' e fo k bz n) := by
  induction k generalizing bz n with
  | zero => cases bz <;> exact .rfl
  | succ k ih =>
    cases bz with
    | nil => exact .rfl
    | cons b bs =>
      unfold decUnpackedSlice
      split
      · exact .rfl
      · exact .rfl
      · exact .rfl
      · split
        · exact .rfl
        split
        · exact .rfl
        split
        · exact .rfl
        refine .slideThen fun bz n => ?_
        split
        · exact .slideThen fun _ _ => .map (ih _ _)
        · exact .andSlide (h _ _ _ _ _) fun _ _ _ => .map (ih _ _)

theorem decPackedArr_le (e : Ty) (fo : FOpts) (ps : List Val) (bz : Bytes) (n : Nat) :
    (decPackedArr Γ rec e fo ps bz n).Le (decPackedArr Γ rec' e fo ps bz n) := by
  induction ps generalizing bz n with
  | nil => exact .rfl
  | cons p ps ih =>
    unfold decPackedArr
    exact .andSlide (h _ _ _ _ _) fun _ _ _ => .map (ih _ _)

theorem decUnpackedArr_le (e : Ty) (fo : FOpts) (ps : List Val) (bz : Bytes) (n : Nat) :
    (decUnpackedArr Γ rec e fo ps bz n).Le (decUnpackedArr Γ rec' e fo ps bz n) := by
  induction ps generalizing bz n with
  | nil => exact .rfl
  | cons p ps ih =>
    unfold decUnpackedArr
    split
    · exact .rfl
    · exact .rfl
    · exact .rfl
    · split
      · exact .rfl
      split
      · exact .rfl
      refine .slideThen fun bz n => ?_
      split
      · exact .slideThen fun _ _ => .map (ih _ _)
      · exact .andSlide (h _ _ _ _ _) fun _ _ _ => .map (ih _ _)

theorem decFields_le (fs : List Field) (ps : List Val) (num last : Nat) (bz : Bytes) (n : Nat) :
    (decFields Γ c rec fs ps num last bz n).Le (decFields Γ c rec' fs ps num last bz n) := by
  induction fs generalizing ps num last bz n with
  | nil => cases ps <;> exact .rfl
  | cons f fs ih =>
    cases ps with
    | nil => exact .rfl
    | cons p ps =>
      unfold decFields
      split
      · exact .map (ih _ _ _ _ _)
      refine .infoThen ?_
      split
      · exact .map (ih _ _ _ _ _)
      split
      · exact .andSlide (h _ _ _ _ _) fun _ _ _ => .map (ih _ _ _ _ _)
      split
      · exact .rfl
      · exact .rfl
      · exact .rfl
      · split
        · exact .map (ih _ _ _ _ _)
        split
        · exact .rfl
        refine .slideThen fun bz n => ?_
        split
        · exact .rfl
        split
        · exact .rfl
        exact .andSlide (h _ _ _ _ _) fun _ _ _ => .map (ih _ _ _ _ _)

theorem decIface_le (id : TId) (prior : Val) (fo : FOpts) (bare : Bool) (bz : Bytes) :
    (decIface Γ c rec id prior fo bare bz).Le (decIface Γ c rec' id prior fo bare bz) := by
  unfold decIface
  split
  · split
    · exact .rfl
    · refine .unframe fun bz n => .andSlide .rfl fun dp bz n => ?_
      split
      · exact .rfl
      · rename_i ci _
        have hk : ∀ bz n, DRes.Le (α := Val)
            (match rec (.base ci.tid) (Γ.zero ci.tid) fo true bz with
              | .ok m v =>
                if m ≤ bz.length then
                  if (bz.drop m).length > 0 then .err (n + m) .leftover
                  else if Γ.implements ci.dynTy id then
                    .ok (n + m) (.iface ci.dynTy (wrapTy ci.dynTy v))
                  else .panic .notAssignable
                else .panic .slide
              | .err m e =>
                if m ≤ bz.length then
                  if Γ.implements ci.dynTy id then .err (n + m) e else .panic .notAssignable
                else .panic .slide
              | .panic p => .panic p
              | .oof => .oof)
            (match rec' (.base ci.tid) (Γ.zero ci.tid) fo true bz with
              | .ok m v =>
                if m ≤ bz.length then
                  if (bz.drop m).length > 0 then .err (n + m) .leftover
                  else if Γ.implements ci.dynTy id then
                    .ok (n + m) (.iface ci.dynTy (wrapTy ci.dynTy v))
                  else .panic .notAssignable
                else .panic .slide
              | .err m e =>
                if m ≤ bz.length then
                  if Γ.implements ci.dynTy id then .err (n + m) e else .panic .notAssignable
                else .panic .slide
              | .panic p => .panic p
              | .oof => .oof) := by
          intro bz n
          rcases h (.base ci.tid) (Γ.zero ci.tid) fo true bz with hh | hh
          · rw [hh]; exact .inl rfl
          · rw [hh]; exact .rfl
        unfold concKey
        split
        · split
          · exact .rfl
          · exact .rfl
          · exact .rfl
          · split
            · exact .rfl
            split
            · exact .rfl
            exact .slideThen hk
        · exact hk _ _
  · exact .rfl

theorem decShape_le (id : TId) (prior : Val) (fo : FOpts) (bare : Bool) (bz : Bytes) :
    (decShape Γ c rec id prior fo bare bz).Le (decShape Γ c rec' id prior fo bare bz) := by
  unfold decShape
  split
  · exact decIface_le h _ _ _ _ _
  · split
    · exact .rfl
    · unfold decArray
      refine .infoThen (.unframe fun bz n => ?_)
      split
      · split
        · exact .map (decPackedArr_le h _ _ _ _ _)
        · exact .map (decUnpackedArr_le h _ _ _ _ _)
      · exact .rfl
  · split
    · exact .rfl
    · unfold decSlice
      refine .infoThen (.unframe fun bz n => ?_)
      split
      · exact .map (decPackedSlice_le h _ _ _ _ _)
      · exact .map (decUnpackedSlice_le h _ _ _ _ _)
  · refine .unframe fun bz n => ?_
    split
    · exact .map (decFields_le h _ _ _ _ _ _)
    · exact .rfl
  all_goals exact .rfl

theorem decBody_le (t : Ty) (prior : Val) (fo : FOpts) (bare : Bool) (bz : Bytes) :
    (decBody Γ c rec t prior fo bare bz).Le (decBody Γ c rec' t prior fo bare bz) := by
  unfold decBody
  split
  · exact .rfl
  simp only
  refine .map ?_
  split
  · exact .infoThen (.andSlide (h _ _ _ _ _) fun _ _ _ => .rfl)
  · exact decShape_le h _ _ _ _ _

end dec

theorem dec_le_succ (Γ : Prog) (c : Codec) (f : Nat) (t : Ty) (p : Val) (fo : FOpts) (bare : Bool)
    (bz : Bytes) : (dec Γ c f t p fo bare bz).Le (dec Γ c (f + 1) t p fo bare bz) := by
  induction f generalizing t p fo bare bz with
  | zero => exact .inl rfl
  | succ f ih => exact decBody_le ih _ _ _ _ _

theorem dec_le {Γ : Prog} {c : Codec} {f g : Nat} (hfg : f ≤ g) (t : Ty) (p : Val) (fo : FOpts)
    (bare : Bool) (bz : Bytes) : (dec Γ c f t p fo bare bz).Le (dec Γ c g t p fo bare bz) := by
  induction hfg with
  | refl => exact .rfl
  | step _ ih => exact ih.trans (dec_le_succ _ _ _ _ _ _ _ _)

theorem decodeAll_le {Γ : Prog} {c : Codec} {f g : Nat} (hfg : f ≤ g) (t : Ty) (p : Val) (bare : Bool)
    (bz : Bytes) : (decodeAll Γ c f t p bare bz).Le (decodeAll Γ c g t p bare bz) := by
  unfold decodeAll
  rcases dec_le (Γ := Γ) (c := c) hfg t p { fnum := 1 } bare bz with h | h
  · rw [h]; exact .inl rfl
  · rw [h]; exact .rfl

theorem unmarshalContents_le {Γ : Prog} {c : Codec} {f g : Nat} (hfg : f ≤ g) (t : Ty) (p : Val)
    (bz : Bytes) : (unmarshalContents Γ c f t p bz).Le (unmarshalContents Γ c g t p bz) := by
  unfold unmarshalContents
  split
  · exact decodeAll_le hfg _ _ _ _
  split
  · exact .rfl
  split
  · split
    · exact .rfl
    · exact .rfl
    · exact .rfl
    · split
      · exact .rfl
      split
      · exact .rfl
      split
      · exact decodeAll_le hfg _ _ _ _
      · exact .rfl
  · exact decodeAll_le hfg _ _ _ _

theorem unmarshalBare_le {Γ : Prog} {c : Codec} {f g : Nat} (hfg : f ≤ g) (t : Ty) (p : Val)
    (bz : Bytes) : (unmarshalBare Γ c f t p bz).Le (unmarshalBare Γ c g t p bz) :=
  .bind .rfl fun _ => .bind .rfl fun _ => unmarshalContents_le hfg _ _ _

theorem unmarshalLP_le {Γ : Prog} {c : Codec} {f g : Nat} (hfg : f ≤ g) (t : Ty) (p : Val)
    (bz : Bytes) : (unmarshalLP Γ c f t p bz).Le (unmarshalLP Γ c g t p bz) := by
  unfold unmarshalLP
  split
  · exact .rfl
  simp only
  split
  · exact .rfl
  split
  · exact .rfl
  split
  · exact .rfl
  exact unmarshalBare_le hfg _ _ _

section enc
variable {Γ : Prog} {c : Codec} {rec rec' : TId → Val → FOpts → Bool → Res Bytes}
variable (h : ∀ id v fo bare, (rec id v fo bare).Le (rec' id v fo bare))
include h

theorem encPacked_le (e : Ty) (fo : FOpts) (vs : List Val) :
    (encPacked Γ rec e fo vs).Le (encPacked Γ rec' e fo vs) := by
  induction vs with
  | nil => exact .rfl
  | cons v vs ih => exact .bind (h _ _ _ _) fun _ => .bind ih fun _ => .rfl

theorem encElem_le (e : Ty) (fo : FOpts) (v : Val) : (encElem Γ rec e fo v).Le (encElem Γ rec' e fo v) := by
  unfold encElem
  split
  · exact .rfl
  · split
    · exact .rfl
    · exact h _ _ _ _

theorem encUnpacked_le (e : Ty) (fo : FOpts) (vs : List Val) :
    (encUnpacked Γ rec e fo vs).Le (encUnpacked Γ rec' e fo vs) := by
  induction vs with
  | nil => exact .rfl
  | cons v vs ih =>
    exact .bind .rfl fun _ => .bind (encElem_le h _ _ _) fun _ => .bind ih fun _ => .rfl

theorem encList_le (e : Ty) (v : Val) (fo : FOpts) (bare : Bool) :
    (encList Γ c rec e v fo bare).Le (encList Γ c rec' e v fo bare) := by
  unfold encList
  refine .bind .rfl fun _ => ?_
  split
  · exact .rfl
  · split
    · exact .bind (encPacked_le h _ _ _) fun _ => .rfl
    · exact .bind (encUnpacked_le h _ _ _) fun _ => .rfl
  · exact .rfl

theorem encField_le (f : Field) (num : Nat) (v : Val) :
    (encField Γ c rec f num v).Le (encField Γ c rec' f num v) := by
  unfold encField
  refine .bind .rfl fun _ => ?_
  split
  · exact .rfl
  · split
    · exact .rfl
    split
    · split
      · exact encList_le h _ _ _ _
      · exact .rfl
    · exact .bind .rfl fun _ => .bind (h _ _ _ _) fun _ => .rfl

theorem encFields_le (num : Nat) (fs : List Field) (vs : List Val) :
    (encFields Γ c rec num fs vs).Le (encFields Γ c rec' num fs vs) := by
  induction fs generalizing num vs with
  | nil => cases vs <;> exact .rfl
  | cons f fs ih =>
    cases vs with
    | nil => exact .rfl
    | cons v vs =>
      unfold encFields
      split
      · exact ih _ _
      · exact .bind (encField_le h _ _ _) fun _ => .bind (ih _ _) fun _ => .rfl

theorem encIface_le (id : TId) (v : Val) (fo : FOpts) (bare : Bool) :
    (encIface Γ c rec id v fo bare).Le (encIface Γ c rec' id v fo bare) := by
  unfold encIface
  split
  · exact .rfl
  · split
    · exact .rfl
    · split
      · exact .rfl
      · refine .bind .rfl fun _ => ?_
        split
        · exact .rfl
        · split
          · exact .rfl
          · exact .bind (h _ _ _ _) fun _ => .rfl
  · exact .rfl

omit h in
theorem innerIsByte_succ (k : Nat) (t : Ty) (b : Bool) (hb : innerIsByte Γ k t = some b) :
    innerIsByte Γ (k + 1) t = some b := by
  induction k generalizing t with
  | zero => simp [innerIsByte] at hb
  | succ k ih =>
    unfold innerIsByte at hb ⊢
    cases t with
    | ptr t => exact hb
    | base id =>
      simp only at hb ⊢
      split at hb
      · rename_i e hs; exact ih _ hb
      · rename_i e hs; exact ih _ hb
      · rename_i hs; exact hb
      · rename_i hs1 hs2 hs3
        exact hb

theorem encShape_le (k : Nat) (id : TId) (v : Val) (fo : FOpts) (bare : Bool) :
    (encShape Γ c rec k id v fo bare).Le (encShape Γ c rec' (k + 1) id v fo bare) := by
  unfold encShape
  split
  · exact encIface_le h _ _ _ _
  · split
    · exact .rfl
    split
    · rename_i e _ _ _
      cases hi : innerIsByte Γ k e with
      | none => exact .inl rfl
      | some b => rw [innerIsByte_succ k e b hi]; cases b <;> exact .rfl
    · exact encList_le h _ _ _ _
  · split
    · exact .rfl
    split
    · rename_i e _ _ _
      cases hi : innerIsByte Γ k e with
      | none => exact .inl rfl
      | some b => rw [innerIsByte_succ k e b hi]; cases b <;> exact .rfl
    · exact encList_le h _ _ _ _
  · split
    · exact .bind (encFields_le h _ _ _) fun _ => .rfl
    · exact .rfl
  all_goals exact .rfl

theorem encBody_le (k : Nat) (id : TId) (v : Val) (fo : FOpts) (bare : Bool) :
    (encBody Γ c rec k id v fo bare).Le (encBody Γ c rec' (k + 1) id v fo bare) := by
  unfold encBody
  split
  · exact .bind .rfl fun _ => .bind .rfl fun _ => h _ _ _ _
  · exact encShape_le h _ _ _ _ _

end enc

theorem enc_le_succ (Γ : Prog) (c : Codec) (f : Nat) (id : TId) (v : Val) (fo : FOpts) (bare : Bool) :
    (enc Γ c f id v fo bare).Le (enc Γ c (f + 1) id v fo bare) := by
  induction f generalizing id v fo bare with
  | zero => exact .inl rfl
  | succ f ih => exact encBody_le ih _ _ _ _ _

theorem enc_le {Γ : Prog} {c : Codec} {f g : Nat} (hfg : f ≤ g) (id : TId) (v : Val) (fo : FOpts)
    (bare : Bool) : (enc Γ c f id v fo bare).Le (enc Γ c g id v fo bare) := by
  induction hfg with
  | refl => exact .rfl
  | step _ ih => exact ih.trans (enc_le_succ _ _ _ _ _ _ _)

theorem marshalBare_le {Γ : Prog} {c : Codec} {f g : Nat} (hfg : f ≤ g) (t : Ty) (v : Val) :
    (marshalBare Γ c f t v).Le (marshalBare Γ c g t v) := by
  unfold marshalBare
  split
  · exact .rfl
  · refine .bind .rfl fun _ => .bind ?_ fun _ => .rfl
    split
    · exact .bind .rfl fun _ => .bind (enc_le hfg _ _ _ _) fun _ => .rfl
    · exact enc_le hfg _ _ _ _

end Amino
