import Verif.AminoApi

/-!
# Codecs that agree

`Codec.Agree s c c'`: the registries of `c` and `c'` answer alike (`s` true), or `c'` answers like `c` wherever `c`
has an answer (`s` false).  Then encoding and decoding agree, wherever they succeed if `s` is false.
-/

set_option linter.unusedSectionVars false

namespace Amino

variable {α β : Type} {s : Prop}

/-- The same result; if `s` is false, anything instead of a failure. -/
def DRes.Pres (s : Prop) (r r' : DRes α) : Prop := (¬ s ∧ ∀ n a, r ≠ .ok n a) ∨ r' = r
def Res.Pres (s : Prop) (r r' : Res α) : Prop := (¬ s ∧ ∀ a, r ≠ .ok a) ∨ r' = r

/-- `c'` answers as `c` does, where `c` has an answer; if `s`, always. -/
structure Codec.Agree (s : Prop) (c c' : Codec) : Prop where
  conc : ∀ id, (¬ s ∧ c.conc? id = none) ∨ c'.conc? id = c.conc? id
  iface : ∀ id, (c.iface? id = none ∧ (s → c'.iface? id = none)) ∨
    ∃ ii ii', c.iface? id = some ii ∧ c'.iface? id = some ii' ∧ ii'.always = ii.always ∧
      (∀ cid ci, c.conc? cid = some ci →
        ((ii'.withPrefix ci.prefx).length > 1 ↔ (ii.withPrefix ci.prefx).length > 1)) ∧
      ∀ dp, (¬ s ∧ ∀ ci, lookupConc c ii dp ≠ .ok ci) ∨ lookupConc c' ii' dp = lookupConc c ii dp

theorem DRes.Pres.rfl {r : DRes α} : r.Pres s r := .inr (Eq.refl _)
theorem Res.Pres.rfl {r : Res α} : r.Pres s r := .inr (Eq.refl _)

theorem DRes.Pres.andSlide {r r' : DRes α} {bz : Bytes} {n : Nat} {k k' : α → Bytes → Nat → DRes β}
    (h : r.Pres s r') (hk : ∀ a bz n, (k a bz n).Pres s (k' a bz n)) :
    (r.andSlide bz n k).Pres s (r'.andSlide bz n k') := by
  rcases h with ⟨hs, h⟩ | h
  · refine .inl ⟨hs, ?_⟩
    cases r with
    | ok m a => exact absurd (Eq.refl _) (h m a)
    | err m e => intro _ _ hh; simp only [DRes.andSlide] at hh; split at hh <;> cases hh
    | panic p => intro _ _ hh; cases hh
    | oof => intro _ _ hh; cases hh
  · subst h
    cases r' with
    | ok m a =>
      simp only [DRes.andSlide]; split
      · exact hk _ _ _
      · exact .rfl
    | err m e => exact .rfl
    | panic p => exact .rfl
    | oof => exact .rfl

theorem DRes.Pres.map {r r' : DRes α} {f : α → β} (h : r.Pres s r') : (r.map f).Pres s (r'.map f) := by
  rcases h with ⟨hs, h⟩ | h
  · refine .inl ⟨hs, ?_⟩
    cases r with
    | ok m a => exact absurd (Eq.refl _) (h m a)
    | _ => intro _ _ hh; cases hh
  · subst h; exact .rfl

theorem DRes.Pres.slideThen {bz : Bytes} {m n : Nat} {k k' : Bytes → Nat → DRes β}
    (hk : ∀ bz n, (k bz n).Pres s (k' bz n)) : (slideThen m bz n k).Pres s (slideThen m bz n k') := by
  unfold Amino.slideThen; split
  · exact hk _ _
  · exact .rfl

theorem DRes.Pres.unframe {bare : Bool} {bz : Bytes} {k k' : Bytes → Nat → DRes β}
    (hk : ∀ bz n, (k bz n).Pres s (k' bz n)) : (unframe bare bz k).Pres s (unframe bare bz k') := by
  unfold Amino.unframe; split
  · exact hk _ _
  · split
    · split
      · exact hk _ _
      · exact .rfl
    all_goals exact .rfl

theorem Res.Pres.bind {r r' : Res α} {k k' : α → Res β} (h : r.Pres s r') (hk : ∀ a, (k a).Pres s (k' a)) :
    (r.bind k).Pres s (r'.bind k') := by
  rcases h with ⟨hs, h⟩ | h
  · refine .inl ⟨hs, ?_⟩
    cases r with
    | ok a => exact absurd (Eq.refl _) (h a)
    | _ => intro _ hh; cases hh
  · subst h
    cases r' with
    | ok a => exact hk a
    | _ => exact .rfl

section getInfo
variable {Γ : Prog} {c c' : Codec} (hc : c.Agree s c')
include hc

theorem getInfo_ext (id : TId) : (getInfo Γ c id).Pres s (getInfo Γ c' id) := by
  unfold getInfo
  split
  · rcases hc.iface id with ⟨h1, h2⟩ | ⟨ii, ii', h1, h2, _⟩
    · by_cases hs : s
      · rw [h1, h2 hs]; exact .rfl
      · refine .inl ⟨hs, ?_⟩
        rw [h1]; intro a hh; cases hh
    · rw [h1, h2]; exact .rfl
  · exact .rfl
  · exact .rfl

theorem DRes.Pres.infoThen {id : TId} {n : Nat} {k k' : DRes β} (h : k.Pres s k') :
    (infoThen Γ c id n k).Pres s (infoThen Γ c' id n k') := by
  unfold Amino.infoThen
  rcases getInfo_ext (Γ := Γ) hc id with ⟨hs, hg⟩ | hg
  · refine .inl ⟨hs, ?_⟩
    intro m a hh
    split at hh
    · rename_i u hu; exact hg u hu
    all_goals cases hh
  · rw [hg]; split
    · exact h
    all_goals exact .rfl

end getInfo

section dec
variable {Γ : Prog} {c c' : Codec} {rec rec' : Ty → Val → FOpts → Bool → Bytes → DRes Val}
variable (hc : c.Agree s c')
variable (h : ∀ t p fo bare bz, (rec t p fo bare bz).Pres s (rec' t p fo bare bz))
include hc h

theorem decPackedSlice_ext (e : Ty) (fo : FOpts) (k : Nat) (bz : Bytes) (n : Nat) :
    (decPackedSlice Γ rec e fo k bz n).Pres s (decPackedSlice Γ rec' e fo k bz n) := by
  induction k generalizing bz n with
  | zero => cases bz <;> exact .rfl
  | succ k ih =>
    cases bz with
    | nil => exact .rfl
    | cons b bs =>
      unfold decPackedSlice
      exact .andSlide (h _ _ _ _ _) fun _ _ _ => .map (ih _ _)

theorem decUnpackedSlice_ext (e : Ty) (fo : FOpts) (k : Nat) (bz : Bytes) (n : Nat) :
    (decUnpackedSlice Γ rec e fo k bz n).Pres s (decUnpackedSlice Γ rec' e fo k bz n) := by
  induction k generalizing bz n with
  | zero => cases bz <;> exact .rfl
  | succ k ih =>
    cases bz with
    | nil => exact .rfl
    | cons b bs =>
      unfold decUnpackedSlice
      split
      · exact .rfl
      · exact .rfl
      · exact .rfl
      · split
        · exact .rfl
        split
        · exact .rfl
        split
        · exact .rfl
        refine .slideThen fun bz n => ?_
        split
        · exact .slideThen fun _ _ => .map (ih _ _)
        · exact .andSlide (h _ _ _ _ _) fun _ _ _ => .map (ih _ _)

theorem decPackedArr_ext (e : Ty) (fo : FOpts) (ps : List Val) (bz : Bytes) (n : Nat) :
    (decPackedArr Γ rec e fo ps bz n).Pres s (decPackedArr Γ rec' e fo ps bz n) := by
  induction ps generalizing bz n with
  | nil => exact .rfl
  | cons p ps ih =>
    unfold decPackedArr
    exact .andSlide (h _ _ _ _ _) fun _ _ _ => .map (ih _ _)

theorem decUnpackedArr_ext (e : Ty) (fo : FOpts) (ps : List Val) (bz : Bytes) (n : Nat) :
    (decUnpackedArr Γ rec e fo ps bz n).Pres s (decUnpackedArr Γ rec' e fo ps bz n) := by
  induction ps generalizing bz n with
  | nil => exact .rfl
  | cons p ps ih =>
    unfold decUnpackedArr
    split
    · exact .rfl
    · exact .rfl
    · exact .rfl
    · split
      · exact .rfl
      split
      · exact .rfl
      refine .slideThen fun bz n => ?_
      split
      · exact .slideThen fun _ _ => .map (ih _ _)
      · exact .andSlide (h _ _ _ _ _) fun _ _ _ => .map (ih _ _)

theorem decFields_ext (fs : List Field) (ps : List Val) (num last : Nat) (bz : Bytes) (n : Nat) :
    (decFields Γ c rec fs ps num last bz n).Pres s (decFields Γ c' rec' fs ps num last bz n) := by
  induction fs generalizing ps num last bz n with
  | nil => cases ps <;> exact .rfl
  | cons f fs ih =>
    cases ps with
    | nil => exact .rfl
    | cons p ps =>
      unfold decFields
      split
      · exact .map (ih _ _ _ _ _)
      refine .infoThen hc ?_
      split
      · exact .map (ih _ _ _ _ _)
      split
      · exact .andSlide (h _ _ _ _ _) fun _ _ _ => .map (ih _ _ _ _ _)
      split
      · exact .rfl
      · exact .rfl
      · exact .rfl
      · split
        · exact .map (ih _ _ _ _ _)
        split
        · exact .rfl
        refine .slideThen fun bz n => ?_
        split
        · exact .rfl
        split
        · exact .rfl
        exact .andSlide (h _ _ _ _ _) fun _ _ _ => .map (ih _ _ _ _ _)

theorem decIface_ext (id : TId) (prior : Val) (fo : FOpts) (bare : Bool) (bz : Bytes) :
    (decIface Γ c rec id prior fo bare bz).Pres s (decIface Γ c' rec' id prior fo bare bz) := by
  unfold decIface
  split
  · rcases hc.iface id with ⟨h1, h2⟩ | ⟨ii, ii', h1, h2, _, _, h5⟩
    · by_cases hs : s
      · rw [h1, h2 hs]; exact .rfl
      · refine .inl ⟨hs, ?_⟩
        rw [h1]; intro _ _ hh; cases hh
    · rw [h1, h2]
      refine .unframe fun bz n => .andSlide .rfl fun dp bz n => ?_
      rcases h5 dp with ⟨hs, h5⟩ | h5
      · refine .inl ⟨hs, ?_⟩
        cases hl : lookupConc c ii dp with
        | ok ci => exact absurd hl (h5 ci)
        | error e => intro _ _ hh; cases hh
      rw [h5]
      split
      · exact .rfl
      · rename_i ci _
        have hk : ∀ bz n, DRes.Pres s (α := Val)
            (match rec (.base ci.tid) (Γ.zero ci.tid) fo true bz with
              | .ok m v =>
                if m ≤ bz.length then
                  if (bz.drop m).length > 0 then .err (n + m) .leftover
                  else if Γ.implements ci.dynTy id then
                    .ok (n + m) (.iface ci.dynTy (wrapTy ci.dynTy v))
                  else .panic .notAssignable
                else .panic .slide
              | .err m e =>
                if m ≤ bz.length then
                  if Γ.implements ci.dynTy id then .err (n + m) e else .panic .notAssignable
                else .panic .slide
              | .panic p => .panic p
              | .oof => .oof)
            (match rec' (.base ci.tid) (Γ.zero ci.tid) fo true bz with
              | .ok m v =>
                if m ≤ bz.length then
                  if (bz.drop m).length > 0 then .err (n + m) .leftover
                  else if Γ.implements ci.dynTy id then
                    .ok (n + m) (.iface ci.dynTy (wrapTy ci.dynTy v))
                  else .panic .notAssignable
                else .panic .slide
              | .err m e =>
                if m ≤ bz.length then
                  if Γ.implements ci.dynTy id then .err (n + m) e else .panic .notAssignable
                else .panic .slide
              | .panic p => .panic p
              | .oof => .oof) := by
          intro bz n
          rcases h (.base ci.tid) (Γ.zero ci.tid) fo true bz with ⟨hs, hh⟩ | hh
          · refine .inl ⟨hs, ?_⟩
            cases hr : rec (.base ci.tid) (Γ.zero ci.tid) fo true bz with
            | ok m v => exact absurd hr (hh m v)
            | err m e =>
              intro _ _ hx
              simp only at hx
              split at hx
              · split at hx <;> cases hx
              · cases hx
            | panic p => intro _ _ hx; cases hx
            | oof => intro _ _ hx; cases hx
          · rw [hh]; exact .rfl
        unfold concKey
        split
        · split
          · exact .rfl
          · exact .rfl
          · exact .rfl
          · split
            · exact .rfl
            split
            · exact .rfl
            exact .slideThen hk
        · exact hk _ _
  · exact .rfl

theorem decShape_ext (id : TId) (prior : Val) (fo : FOpts) (bare : Bool) (bz : Bytes) :
    (decShape Γ c rec id prior fo bare bz).Pres s (decShape Γ c' rec' id prior fo bare bz) := by
  unfold decShape
  split
  · exact decIface_ext hc h _ _ _ _ _
  · split
    · exact .rfl
    · unfold decArray
      refine .infoThen hc (.unframe fun bz n => ?_)
      split
      · split
        · exact .map (decPackedArr_ext hc h _ _ _ _ _)
        · exact .map (decUnpackedArr_ext hc h _ _ _ _ _)
      · exact .rfl
  · split
    · exact .rfl
    · unfold decSlice
      refine .infoThen hc (.unframe fun bz n => ?_)
      split
      · exact .map (decPackedSlice_ext hc h _ _ _ _ _)
      · exact .map (decUnpackedSlice_ext hc h _ _ _ _ _)
  · refine .unframe fun bz n => ?_
    split
    · exact .map (decFields_ext hc h _ _ _ _ _ _)
    · exact .rfl
  all_goals exact .rfl

theorem decBody_ext (t : Ty) (prior : Val) (fo : FOpts) (bare : Bool) (bz : Bytes) :
    (decBody Γ c rec t prior fo bare bz).Pres s (decBody Γ c' rec' t prior fo bare bz) := by
  unfold decBody
  split
  · exact .rfl
  simp only
  refine .map ?_
  split
  · exact .infoThen hc (.andSlide (h _ _ _ _ _) fun _ _ _ => .rfl)
  · exact decShape_ext hc h _ _ _ _ _

end dec


section enc
variable {Γ : Prog} {c c' : Codec} {rec rec' : TId → Val → FOpts → Bool → Res Bytes}
variable (hc : c.Agree s c')
variable (h : ∀ id v fo bare, (rec id v fo bare).Pres s (rec' id v fo bare))
include hc h

theorem encPacked_ext (e : Ty) (fo : FOpts) (vs : List Val) :
    (encPacked Γ rec e fo vs).Pres s (encPacked Γ rec' e fo vs) := by
  induction vs with
  | nil => exact .rfl
  | cons v vs ih => exact .bind (h _ _ _ _) fun _ => .bind ih fun _ => .rfl

theorem encElem_ext (e : Ty) (fo : FOpts) (v : Val) : (encElem Γ rec e fo v).Pres s (encElem Γ rec' e fo v) := by
  unfold encElem
  split
  · exact .rfl
  · split
    · exact .rfl
    · exact h _ _ _ _

theorem encUnpacked_ext (e : Ty) (fo : FOpts) (vs : List Val) :
    (encUnpacked Γ rec e fo vs).Pres s (encUnpacked Γ rec' e fo vs) := by
  induction vs with
  | nil => exact .rfl
  | cons v vs ih =>
    exact .bind .rfl fun _ => .bind (encElem_ext hc h _ _ _) fun _ => .bind ih fun _ => .rfl

theorem encList_ext (e : Ty) (v : Val) (fo : FOpts) (bare : Bool) :
    (encList Γ c rec e v fo bare).Pres s (encList Γ c' rec' e v fo bare) := by
  unfold encList
  refine .bind (getInfo_ext hc _) fun _ => ?_
  split
  · exact .rfl
  · split
    · exact .bind (encPacked_ext hc h _ _ _) fun _ => .rfl
    · exact .bind (encUnpacked_ext hc h _ _ _) fun _ => .rfl
  · exact .rfl

theorem encField_ext (f : Field) (num : Nat) (v : Val) :
    (encField Γ c rec f num v).Pres s (encField Γ c' rec' f num v) := by
  unfold encField
  refine .bind (getInfo_ext hc _) fun _ => ?_
  split
  · exact .rfl
  · split
    · exact .rfl
    split
    · split
      · exact encList_ext hc h _ _ _ _
      · exact .rfl
    · exact .bind .rfl fun _ => .bind (h _ _ _ _) fun _ => .rfl

theorem encFields_ext (num : Nat) (fs : List Field) (vs : List Val) :
    (encFields Γ c rec num fs vs).Pres s (encFields Γ c' rec' num fs vs) := by
  induction fs generalizing num vs with
  | nil => cases vs <;> exact .rfl
  | cons f fs ih =>
    cases vs with
    | nil => exact .rfl
    | cons v vs =>
      unfold encFields
      split
      · exact ih _ _
      · exact .bind (encField_ext hc h _ _ _) fun _ => .bind (ih _ _) fun _ => .rfl

theorem encIface_ext (id : TId) (v : Val) (fo : FOpts) (bare : Bool) :
    (encIface Γ c rec id v fo bare).Pres s (encIface Γ c' rec' id v fo bare) := by
  unfold encIface
  split
  · exact .rfl
  · split
    · exact .rfl
    · split
      · exact .rfl
      · refine .bind (getInfo_ext hc _) fun _ => ?_
        rename_i t cv _ crv _ _ _
        rcases hc.conc t.deref with ⟨hs, hn⟩ | he
        · refine .inl ⟨hs, ?_⟩
          rw [hn]; intro _ hh; cases hh
        rw [he]
        split
        · exact .rfl
        · rename_i ci hci
          rcases hc.iface id with ⟨h1, h2⟩ | ⟨ii, ii', h1, h2, h3, h4, _⟩
          · by_cases hs : s
            · rw [h1, h2 hs]; exact .rfl
            · refine .inl ⟨hs, ?_⟩
              rw [h1]; intro _ hh; cases hh
          · rw [h1, h2]
            simp only [h3, h4 _ ci hci]
            exact .bind (h _ _ _ _) fun _ => .rfl
  · exact .rfl

theorem encShape_ext (k : Nat) (id : TId) (v : Val) (fo : FOpts) (bare : Bool) :
    (encShape Γ c rec k id v fo bare).Pres s (encShape Γ c' rec' k id v fo bare) := by
  unfold encShape
  split
  · exact encIface_ext hc h _ _ _ _
  · split
    · exact .rfl
    split
    · exact .rfl
    · exact encList_ext hc h _ _ _ _
  · split
    · exact .rfl
    split
    · exact .rfl
    · exact encList_ext hc h _ _ _ _
  · split
    · exact .bind (encFields_ext hc h _ _ _) fun _ => .rfl
    · exact .rfl
  all_goals exact .rfl

theorem encBody_ext (k : Nat) (id : TId) (v : Val) (fo : FOpts) (bare : Bool) :
    (encBody Γ c rec k id v fo bare).Pres s (encBody Γ c' rec' k id v fo bare) := by
  unfold encBody
  split
  · exact .bind .rfl fun _ => .bind (getInfo_ext hc _) fun _ => h _ _ _ _
  · exact encShape_ext hc h _ _ _ _ _

end enc



section
variable {Γ : Prog} {c c' : Codec} (hc : c.Agree s c')
include hc

theorem dec_ext (f : Nat) (t : Ty) (p : Val) (fo : FOpts) (bare : Bool) (bz : Bytes) :
    (dec Γ c f t p fo bare bz).Pres s (dec Γ c' f t p fo bare bz) := by
  induction f generalizing t p fo bare bz with
  | zero => exact .rfl
  | succ f ih => exact decBody_ext hc ih _ _ _ _ _

theorem enc_ext (f : Nat) (id : TId) (v : Val) (fo : FOpts) (bare : Bool) :
    (enc Γ c f id v fo bare).Pres s (enc Γ c' f id v fo bare) := by
  induction f generalizing id v fo bare with
  | zero => exact .rfl
  | succ f ih => exact encBody_ext hc ih _ _ _ _ _

theorem marshalBare_ext (f : Nat) (t : Ty) (v : Val) (ht : c'.conc? t.deref = c.conc? t.deref) :
    (marshalBare Γ c f t v).Pres s (marshalBare Γ c' f t v) := by
  unfold marshalBare
  split
  · exact .rfl
  · simp only [ht]
    refine .bind (getInfo_ext hc _) fun _ => .bind ?_ fun _ => .rfl
    split
    · exact .bind .rfl fun _ => .bind (enc_ext hc _ _ _ _ _) fun _ => .rfl
    · exact enc_ext hc _ _ _ _ _

theorem decodeAll_ext (f : Nat) (t : Ty) (p : Val) (bare : Bool) (bz : Bytes) :
    (decodeAll Γ c f t p bare bz).Pres s (decodeAll Γ c' f t p bare bz) := by
  unfold decodeAll
  rcases dec_ext (Γ := Γ) hc f t p { fnum := 1 } bare bz with ⟨hs, h⟩ | h
  · refine .inl ⟨hs, ?_⟩
    cases hr : dec Γ c f t p { fnum := 1 } bare bz with
    | ok n v => exact absurd hr (h n v)
    | _ => intro _ hh; cases hh
  · rw [h]; exact .rfl

theorem unmarshalContents_ext (f : Nat) (t : Ty) (p : Val) (bz : Bytes) :
    (unmarshalContents Γ c f t p bz).Pres s (unmarshalContents Γ c' f t p bz) := by
  unfold unmarshalContents
  split
  · exact decodeAll_ext hc _ _ _ _ _
  split
  · exact .rfl
  split
  · split
    · exact .rfl
    · exact .rfl
    · exact .rfl
    · split
      · exact .rfl
      split
      · exact .rfl
      split
      · exact decodeAll_ext hc _ _ _ _ _
      · exact .rfl
  · exact decodeAll_ext hc _ _ _ _ _

theorem unmarshalBare_ext (f : Nat) (t : Ty) (p : Val) (bz : Bytes) (ht : c'.conc? t.deref = c.conc? t.deref) :
    (unmarshalBare Γ c f t p bz).Pres s (unmarshalBare Γ c' f t p bz) := by
  unfold unmarshalBare stripPrefix
  rw [ht]
  exact .bind (getInfo_ext hc _) fun _ => .bind .rfl fun _ => unmarshalContents_ext hc _ _ _ _

theorem marshalLP_ext (f : Nat) (t : Ty) (v : Val) (ht : c'.conc? t.deref = c.conc? t.deref) :
    (marshalLP Γ c f t v).Pres s (marshalLP Γ c' f t v) :=
  .bind (marshalBare_ext hc f t v ht) fun _ => .rfl

theorem unmarshalLP_ext (f : Nat) (t : Ty) (p : Val) (bz : Bytes) (ht : c'.conc? t.deref = c.conc? t.deref) :
    (unmarshalLP Γ c f t p bz).Pres s (unmarshalLP Γ c' f t p bz) := by
  unfold unmarshalLP
  split
  · exact .rfl
  simp only
  split
  · exact .rfl
  split
  · exact .rfl
  split
  · exact .rfl
  exact unmarshalBare_ext hc _ _ _ _ ht

end

end Amino
