import Verif.TogLin

/-! # The binary encoder and decoder in pieces -/

namespace Amino
open Spec Run

variable {Γ : Prog} {H : Bytes → Bytes} {α : Type}

section
variable {recS : TId → Val → FOpts → Bool → Run (Res Bytes)} {rec : Codec → TId → Val → FOpts → Bool → Res Bytes}
  (hr : ∀ id v fo bare, (recS id v fo bare).Lin Γ H Codec.Clear fun c => rec c id v fo bare)
include hr

theorem encPacked_lin (e : Ty) (fo : FOpts) (vs : List Val) :
    (encPackedS Γ recS e fo vs).Lin Γ H Codec.Clear fun c => encPacked Γ (rec c) e fo vs := by
  induction vs with
  | nil => exact .pure
  | cons v vs ih => exact (hr _ _ _ _).andThen fun b => ih.andThen fun bs => .pure

theorem encElem_lin (e : Ty) (fo : FOpts) (v : Val) :
    (encElemS Γ recS e fo v).Lin Γ H Codec.Clear fun c => encElem Γ (rec c) e fo v := by
  unfold encElemS encElem
  cases derefVal e v with
  | none => exact .pure
  | some dv => exact .ite .pure (hr _ _ _ _)

theorem encUnpacked_lin (e : Ty) (fo : FOpts) (vs : List Val) :
    (encUnpackedS Γ recS e fo vs).Lin Γ H Codec.Clear fun c => encUnpacked Γ (rec c) e fo vs := by
  induction vs with
  | nil => exact .pure
  | cons v vs ih =>
    exact Lin.pure.andThen fun k => (encElem_lin hr e fo v).andThen fun b => ih.andThen fun bs => .pure

theorem encList_lin (e : Ty) (v : Val) (fo : FOpts) (bare : Bool) :
    (encListS Γ H recS e v fo bare).Lin Γ H Codec.Clear fun c => encList Γ c (rec c) e v fo bare := by
  refine .info ?_
  cases v with
  | list vs => exact (Lin.ite (encPacked_lin hr e fo vs) (encUnpacked_lin hr e fo vs)).andThen fun buf => .pure
  | _ => exact .pure

theorem writeField_lin (num : Nat) (id : TId) (fo : FOpts) (dv : Val) (we bare : Bool) :
    (writeFieldS Γ recS num id fo dv we bare).Lin Γ H Codec.Clear fun c => writeField Γ (rec c) num id fo dv we bare :=
  Lin.pure.andThen fun _ => (hr _ _ _ _).andThen fun _ => .pure

theorem encField_lin (f : Field) (num : Nat) (v : Val) :
    (encFieldS Γ H recS f num v).Lin Γ H Codec.Clear fun c => encField Γ c (rec c) f num v := by
  refine .info ?_
  cases derefVal f.ty v with
  | none => exact .pure
  | some dv =>
    refine .ite .pure (.ite ?_ (writeField_lin hr _ _ _ _ _ _))
    cases (Γ.shape f.ty.deref).elem? with
    | none => exact .pure
    | some e => exact encList_lin hr _ _ _ _

theorem encFields_lin (num : Nat) (fs : List Field) (vs : List Val) :
    (encFieldsS Γ H recS num fs vs).Lin Γ H Codec.Clear fun c => encFields Γ c (rec c) num fs vs := by
  induction fs generalizing num vs with
  | nil => cases vs <;> exact .pure
  | cons f fs ih =>
    cases vs with
    | nil => exact .pure
    | cons v vs =>
      exact .ite (ih _ _) ((encField_lin hr f _ v).andThen fun b => (ih _ _).andThen fun bs => .pure)

theorem encIface_lin (id : TId) (v : Val) (fo : FOpts) (bare : Bool) :
    (encIfaceS Γ H recS id v fo bare).Lin Γ H Codec.Clear fun c => encIface Γ c (rec c) id v fo bare := by
  unfold encIfaceS encIface
  cases v with
  | iface t cv =>
    dsimp only
    cases derefVal t cv with
    | none => exact .pure
    | some crv =>
      refine .ite .pure (.infoConc (g := fun oc c => match oc with
        | none => .err .unregisteredConcrete
        | some ci =>
          match c.iface? id with
          | none => .err .unregisteredIface
          | some ii =>
            (rec c t.deref crv fo true).bind fun b =>
            framed bare ((if ii.always || (ii.withPrefix ci.prefx).length > 1 then 0 :: ci.disamb else [])
              ++ ci.prefx ++ b)) ?_)
      intro oc
      cases oc with
      | none => exact .pure
      | some ci =>
        refine ((Lin.many id ci.prefx).andThen fun many => (hr _ _ _ _).andThen fun b => .pure).congr fun c => ?_
        dsimp only [Lin.manyQ]
        cases c.iface? id <;> rfl
  | _ => exact .pure

theorem encShape_lin (k : Nat) (id : TId) (v : Val) (fo : FOpts) (bare : Bool) :
    (encShapeS Γ H recS k id v fo bare).Lin Γ H Codec.Clear fun c => encShape Γ c (rec c) k id v fo bare := by
  unfold encShapeS encShape
  cases Γ.shape id with
  | iface => exact encIface_lin hr _ _ _ _
  | slice e =>
    refine .ite ?_ (.ite ?_ (encList_lin hr _ _ _ _))
    · cases v <;> exact .pure
    · cases innerIsByte Γ k e with
      | none => exact .pure
      | some b => cases b <;> exact .pure
  | array n e =>
    refine .ite ?_ (.ite ?_ (encList_lin hr _ _ _ _))
    · cases v <;> exact .pure
    · cases innerIsByte Γ k e with
      | none => exact .pure
      | some b => cases b <;> exact .pure
  | struct fs =>
    cases v with
    | struct vs => exact (encFields_lin hr _ _ _).andThen fun _ => .pure
    | _ => exact .pure
  | float64 => refine .ite .pure ?_; cases v <;> exact .pure
  | float32 => refine .ite .pure ?_; cases v <;> exact .pure
  | map _ => exact .pure
  | _ => cases v <;> exact .pure

theorem encBody_lin (k : Nat) (id : TId) (v : Val) (fo : FOpts) (bare : Bool) :
    (encBodyS Γ H recS k id v fo bare).Lin Γ H Codec.Clear fun c => encBody Γ c (rec c) k id v fo bare := by
  unfold encBodyS encBody
  cases Γ.marsh id with
  | none => exact encShape_lin hr _ _ _ _ _
  | some p => exact Lin.pure.andThen fun r => .info (hr _ _ _ _)

end

theorem enc_lin (f : Nat) (id : TId) (v : Val) (fo : FOpts) (bare : Bool) :
    (encS Γ H f id v fo bare).Lin Γ H Codec.Clear fun c => enc Γ c f id v fo bare := by
  induction f generalizing id v fo bare with
  | zero => exact .pure
  | succ f ih => exact encBody_lin (rec := fun c => enc Γ c f) ih f id v fo bare

theorem marshalBare_lin (f : Nat) (t : Ty) (v : Val) :
    (marshalBareS Γ H f t v).Lin Γ H Codec.Clear fun c => marshalBare Γ c f t v := by
  unfold marshalBareS marshalBare
  cases derefVal t v with
  | none => exact .pure
  | some rv =>
    refine .infoConc (g := fun oc c => (if !Γ.structOrRep t.deref then
      writeField Γ (enc Γ c f) 1 t.deref {} rv false (Γ.typ3 t.deref {} != typ3ByteLength)
     else enc Γ c f t.deref rv { fnum := 1 } true).bind fun bz =>
      match oc with
      | some ci => .ok (ci.prefx ++ bz)
      | none => .ok bz) fun oc => ?_
    refine (Lin.ite (writeField_lin (rec := fun c => enc Γ c f) (enc_lin f) _ _ _ _ _ _) (enc_lin f _ _ _ _)).andThen
      fun bz => ?_
    cases oc <;> exact .pure

theorem marshalLP_lin (f : Nat) (t : Ty) (v : Val) :
    (marshalLPS Γ H f t v).Lin Γ H Codec.Clear fun c => marshalLP Γ c f t v :=
  (marshalBare_lin f t v).andThen fun _ => .pure

/-! ## Decoder -/

section
variable {recS : Ty → Val → FOpts → Bool → Bytes → Run (DRes Val)}
  {rec : Codec → Ty → Val → FOpts → Bool → Bytes → DRes Val}
  (hr : ∀ t p fo bare bz, (recS t p fo bare bz).Lin Γ H Codec.Clear fun c => rec c t p fo bare bz)
include hr

theorem decPackedSlice_lin (e : Ty) (fo : FOpts) (k : Nat) (bz : Bytes) (n : Nat) :
    (decPackedSliceS Γ recS e fo k bz n).Lin Γ H Codec.Clear fun c => decPackedSlice Γ (rec c) e fo k bz n := by
  induction k generalizing bz n with
  | zero => cases bz <;> exact .pure
  | succ k ih =>
    cases bz with
    | nil => exact .pure
    | cons b bz => exact (hr _ _ _ _ _).andSlide fun v bz n => (ih bz n).map

theorem decUnpackedSlice_lin (e : Ty) (fo : FOpts) (k : Nat) (bz : Bytes) (n : Nat) :
    (decUnpackedSliceS Γ recS e fo k bz n).Lin Γ H Codec.Clear fun c => decUnpackedSlice Γ (rec c) e fo k bz n := by
  induction k generalizing bz n with
  | zero => cases bz <;> exact .pure
  | succ k ih =>
    cases bz with
    | nil => exact .pure
    | cons b bz =>
      unfold decUnpackedSliceS decUnpackedSlice
      generalize decodeKey (b :: bz) = r
      cases r with
      | ok m p =>
        exact .ite .pure (.ite .pure (.ite .pure (.slideThen fun bz n => .ite (.slideThen fun bz n => (ih bz n).map)
          ((hr _ _ _ _ _).andSlide fun v bz n => (ih bz n).map))))
      | _ => exact .pure

theorem decSlice_lin (e : Ty) (fo : FOpts) (bare : Bool) (bz : Bytes) :
    (decSliceS Γ H recS e fo bare bz).Lin Γ H Codec.Clear fun c => decSlice Γ c (rec c) e fo bare bz :=
  .infoThen (.unframe fun bz n =>
    (Lin.ite (decPackedSlice_lin hr e fo _ bz n) (decUnpackedSlice_lin hr e fo _ bz n)).map)

theorem decPackedArr_lin (e : Ty) (fo : FOpts) (ps : List Val) (bz : Bytes) (n : Nat) :
    (decPackedArrS Γ recS e fo ps bz n).Lin Γ H Codec.Clear fun c => decPackedArr Γ (rec c) e fo ps bz n := by
  induction ps generalizing bz n with
  | nil => exact .pure
  | cons p ps ih => exact (hr _ _ _ _ _).andSlide fun v bz n => (ih bz n).map

theorem decUnpackedArr_lin (e : Ty) (fo : FOpts) (ps : List Val) (bz : Bytes) (n : Nat) :
    (decUnpackedArrS Γ recS e fo ps bz n).Lin Γ H Codec.Clear fun c => decUnpackedArr Γ (rec c) e fo ps bz n := by
  induction ps generalizing bz n with
  | nil => exact .pure
  | cons p ps ih =>
    unfold decUnpackedArrS decUnpackedArr
    generalize decodeKey bz = r
    cases r with
    | ok m p =>
      exact .ite .pure (.ite .pure (.slideThen fun bz n => .ite (.slideThen fun bz n => (ih bz n).map)
        ((hr _ _ _ _ _).andSlide fun v bz n => (ih bz n).map)))
    | _ => exact .pure

theorem decArray_lin (e : Ty) (prior : Val) (fo : FOpts) (bare : Bool) (bz : Bytes) :
    (decArrayS Γ H recS e prior fo bare bz).Lin Γ H Codec.Clear fun c => decArray Γ c (rec c) e prior fo bare bz := by
  refine .infoThen (.unframe fun bz n => ?_)
  cases prior with
  | list ps => exact (Lin.ite (decPackedArr_lin hr e fo ps bz n) (decUnpackedArr_lin hr e fo ps bz n)).map
  | _ => exact .pure

theorem decFields_lin (fs : List Field) (ps : List Val) (num last : Nat) (bz : Bytes) (n : Nat) :
    (decFieldsS Γ H recS fs ps num last bz n).Lin Γ H Codec.Clear fun c => decFields Γ c (rec c) fs ps num last bz n := by
  induction fs generalizing ps num last bz n with
  | nil => cases ps <;> exact .pure
  | cons f fs ih =>
    cases ps with
    | nil => exact .pure
    | cons p ps =>
      unfold decFieldsS decFields
      refine .ite (ih _ _ _ _ _).map (.infoThen (.ite (ih _ _ _ _ _).map
        (.ite ((hr _ _ _ _ _).andSlide fun v bz n => (ih _ _ _ _ _).map) ?_)))
      generalize decodeKey bz = r
      cases r with
      | ok m q =>
        exact .ite (ih _ _ _ _ _).map (.ite .pure (.slideThen fun bz n => .ite .pure (.ite .pure
          ((hr _ _ _ _ _).andSlide fun v bz n => (ih _ _ _ _ _).map))))
      | _ => exact .pure

omit hr in
theorem concKey_lin {cid : TId} {fo : FOpts} {bz : Bytes} {n : Nat} {k : Bytes → Nat → Run (DRes α)}
    {g : Bytes → Nat → Codec → DRes α} (hk : ∀ bz n, (k bz n).Lin Γ H Codec.Clear (g bz n)) :
    (concKeyS Γ cid fo bz n k).Lin Γ H Codec.Clear fun c => concKey Γ cid fo bz n fun bz n => g bz n c := by
  unfold concKeyS concKey
  refine .ite ?_ (hk _ _)
  generalize decodeKey bz = r
  cases r with
  | ok m q => exact .ite .pure (.ite .pure (.slideThen hk))
  | _ => exact .pure

/-- `r` tells whether the interface is registered, `r'` which concrete type was found. -/
private def ifStep (Γ : Prog) (rec : Ty → Val → FOpts → Bool → Bytes → DRes Val) (id : TId) (fo : FOpts) (bz : Bytes)
    (n : Nat) : Res ConcInfo → DRes Val
  | .err e => .err n e
  | .panic p => .panic p
  | .oof => .oof
  | .ok ci => concKey Γ ci.tid fo bz n fun bz n => ifaceOut Γ id ci bz n (rec (.base ci.tid) (Γ.zero ci.tid) fo true bz)

theorem decIface_lin (id : TId) (prior : Val) (fo : FOpts) (bare : Bool) (bz : Bytes) :
    (decIfaceS Γ H recS id prior fo bare bz).Lin Γ H Codec.Clear fun c => decIface Γ c (rec c) id prior fo bare bz := by
  unfold decIfaceS
  cases prior with
  | nil =>
    dsimp only
    have inner : ∀ bz n dp, Lin Γ H Codec.Clear ((lookConc Γ H id dp).bind fun
        | .err e => .pure (.err n e)
        | .panic p => .pure (.panic p)
        | .oof => .pure .oof
        | .ok ci =>
          concKeyS Γ ci.tid fo bz n fun bz n =>
          (recS (.base ci.tid) (Γ.zero ci.tid) fo true bz).bind fun r => .pure (ifaceOut Γ id ci bz n r))
        fun c => ifStep Γ (rec c) id fo bz n (Lin.concQ id dp c) := by
      intro bz n dp
      refine (Lin.conc id dp).bind (g := fun r c => ifStep Γ (rec c) id fo bz n r) ?_ ?_
      · intro r
        cases r with
        | ok ci =>
          refine concKey_lin fun bz n => ?_
          refine (hr _ _ _ _ _).after (g := ifaceOut Γ id ci bz n) ?_
          intro r hb hg
          cases r with
          | ok m v => exact hb ⟨m, v, rfl⟩
          | err m e =>
            obtain ⟨_, _, h⟩ := hg
            simp only [ifaceOut] at h
            split at h
            · split at h <;> cases h
            · cases h
          | panic p => obtain ⟨_, _, h⟩ := hg; cases h
          | oof => obtain ⟨_, _, h⟩ := hg; cases h
        | err e => exact .pure
        | panic p => exact .pure
        | oof => exact .pure
      · intro r s hb
        cases r with
        | ok ci => exact absurd ⟨_, rfl⟩ hb
        | err e => exact ⟨rfl, fun ⟨_, _, h⟩ => by cases h⟩
        | panic p => exact ⟨rfl, fun ⟨_, _, h⟩ => by cases h⟩
        | oof => exact ⟨rfl, fun ⟨_, _, h⟩ => by cases h⟩
    have outer := (Lin.iface (Γ := Γ) (H := H) id).bind (k := fun
      | .err e => .pure (.err 0 e)
      | .panic p => .pure (.panic p)
      | .oof => .pure .oof
      | .ok _ =>
        unframeS bare bz fun bz n =>
        (Run.pure (decodeDisambPrefix bz)).andSlide bz n fun dp bz n =>
        (lookConc Γ H id dp).bind fun
        | .err e => .pure (.err n e)
        | .panic p => .pure (.panic p)
        | .oof => .pure .oof
        | .ok ci =>
          concKeyS Γ ci.tid fo bz n fun bz n =>
          (recS (.base ci.tid) (Γ.zero ci.tid) fo true bz).bind fun r => .pure (ifaceOut Γ id ci bz n r))
      (g := fun r c => match r with
        | .err e => .err 0 e
        | .panic p => .panic p
        | .oof => .oof
        | .ok _ => unframe bare bz fun bz n => (decodeDisambPrefix bz).andSlide bz n fun dp bz n =>
          ifStep Γ (rec c) id fo bz n (Lin.concQ id dp c)) (by
        intro r
        cases r with
        | ok u => exact .unframe fun bz n => Lin.pure.andSlide fun dp bz n => inner bz n dp
        | err e => exact .pure
        | panic p => exact .pure
        | oof => exact .pure) (by
        intro r s hb
        cases r with
        | ok ci => exact absurd ⟨_, rfl⟩ hb
        | err e => exact ⟨rfl, fun ⟨_, _, h⟩ => by cases h⟩
        | panic p => exact ⟨rfl, fun ⟨_, _, h⟩ => by cases h⟩
        | oof => exact ⟨rfl, fun ⟨_, _, h⟩ => by cases h⟩)
    refine outer.congr fun c => ?_
    unfold decIface Lin.ifaceQ
    cases hi : c.iface? id with
    | none => simp
    | some ii =>
      simp only [Option.isSome_some, if_true]
      congr 1
      funext bz n
      congr 1
      funext dp bz n
      simp only [Lin.concQ, hi]
      cases lookupConc c ii dp with
      | error e => rfl
      | ok ci =>
        simp only [ifStep]
        refine congrArg _ (funext fun bz => funext fun n => ?_)
        cases rec c (.base ci.tid) (Γ.zero ci.tid) fo true bz <;> rfl
  | _ => exact .pure

theorem decShape_lin (id : TId) (prior : Val) (fo : FOpts) (bare : Bool) (bz : Bytes) :
    (decShapeS Γ H recS id prior fo bare bz).Lin Γ H Codec.Clear fun c => decShape Γ c (rec c) id prior fo bare bz := by
  unfold decShapeS decShape
  cases Γ.shape id with
  | iface => exact decIface_lin hr _ _ _ _ _
  | array n e => exact .ite .pure (decArray_lin hr _ _ _ _ _)
  | slice e => exact .ite .pure (decSlice_lin hr _ _ _ _)
  | struct fs =>
    refine .unframe fun bz n => ?_
    cases prior with
    | struct ps => exact (decFields_lin hr _ _ _ _ _ _).map
    | _ => exact .pure
  | _ => exact .pure

theorem decBody_lin (t : Ty) (prior : Val) (fo : FOpts) (bare : Bool) (bz : Bytes) :
    (decBodyS Γ H recS t prior fo bare bz).Lin Γ H Codec.Clear fun c => decBody Γ c (rec c) t prior fo bare bz := by
  unfold decBodyS decBody
  refine .ite .pure (Lin.map ?_)
  cases Γ.unmarsh t.deref with
  | none => exact decShape_lin hr _ _ _ _ _
  | some p => exact .infoThen ((hr _ _ _ _ _).andSlide fun r _ n => .pure)

end

theorem dec_lin (f : Nat) (t : Ty) (p : Val) (fo : FOpts) (bare : Bool) (bz : Bytes) :
    (decS Γ H f t p fo bare bz).Lin Γ H Codec.Clear fun c => dec Γ c f t p fo bare bz := by
  induction f generalizing t p fo bare bz with
  | zero => exact .pure
  | succ f ih => exact decBody_lin (rec := fun c => dec Γ c f) ih t p fo bare bz

theorem decodeAll_lin (f : Nat) (t : Ty) (p : Val) (bare : Bool) (bz : Bytes) :
    (decodeAllS Γ H f t p bare bz).Lin Γ H Codec.Clear fun c => decodeAll Γ c f t p bare bz := by
  refine (dec_lin f t p { fnum := 1 } bare bz).after (ρ' := Res Val) (g := fun r => match r with
    | .ok n v => if n ≠ bz.length then .err .leftover else .ok v
    | .err _ e => .err e
    | .panic p => .panic p
    | .oof => .oof) ?_
  intro r hb hg
  cases r with
  | ok n v => exact hb ⟨n, v, rfl⟩
  | err n e => obtain ⟨_, h⟩ := hg; cases h
  | panic p => obtain ⟨_, h⟩ := hg; cases h
  | oof => obtain ⟨_, h⟩ := hg; cases h

theorem unmarshalContents_lin (f : Nat) (t : Ty) (p : Val) (bz : Bytes) :
    (unmarshalContentsS Γ H f t p bz).Lin Γ H Codec.Clear fun c => unmarshalContents Γ c f t p bz := by
  unfold unmarshalContentsS unmarshalContents
  refine .ite (decodeAll_lin _ _ _ _ _) (.ite .pure (.ite ?_ (decodeAll_lin _ _ _ _ _)))
  generalize decodeKey bz = r
  cases r with
  | ok m q => exact .ite .pure (.ite .pure (.ite (decodeAll_lin _ _ _ _ _) .pure))
  | _ => exact .pure

theorem unmarshalBare_lin (f : Nat) (t : Ty) (p : Val) (bz : Bytes) :
    (unmarshalBareS Γ H f t p bz).Lin Γ H Codec.Clear fun c => unmarshalBare Γ c f t p bz :=
  .infoConc (g := fun oc c => (stripWith oc bz).bind fun bz => unmarshalContents Γ c f t p bz) fun _ =>
    Lin.pure.andThen fun _ => unmarshalContents_lin f t p _

theorem unmarshalLP_lin (f : Nat) (t : Ty) (p : Val) (bz : Bytes) :
    (unmarshalLPS Γ H f t p bz).Lin Γ H Codec.Clear fun c => unmarshalLP Γ c f t p bz :=
  .ite .pure (.ite .pure (.ite .pure (.ite .pure (unmarshalBare_lin f t p _))))

end Amino
