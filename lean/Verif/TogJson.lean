import Verif.TogLin

/-! # The JSON encoder and decoder in pieces -/

namespace Amino
open Spec Run

variable {Γ : Prog} {H : Bytes → Bytes} {J : JLib} {P : Codec → Prop}

section
variable {recS : Bool → Ty → Val → FOpts → Run (Res Bytes)} {rec : Codec → Bool → Ty → Val → FOpts → Res Bytes}
  (hr : ∀ a t v fo, (recS a t v fo).Lin Γ H P fun c => rec c a t v fo)
include hr

theorem jencIface_lin (t : Ty) (v : Val) (fo : FOpts) :
    (jencIfaceS Γ H recS t v fo).Lin Γ H P fun c => jencIface Γ c (rec c) t v fo := by
  unfold jencIfaceS jencIface
  refine .ite .pure ?_
  cases derefVal t v with
  | none => exact .pure
  | some dv =>
    refine .infoConc (g := fun oc c => match oc with
      | none => .err .unregisteredConcrete
      | some ci => (rec c t.isPtr (.base t.deref) dv fo).bind fun b => .ok (wrapText ci.name b)) fun oc => ?_
    cases oc with
    | none => exact .pure
    | some ci => exact (hr _ _ _ _).andThen fun b => .pure

theorem jencElems_lin (addr : Bool) (e : Ty) (fo : FOpts) (vs : List Val) :
    (jencElemsS recS addr e fo vs).Lin Γ H P fun c => jencElems (rec c) addr e fo vs := by
  induction vs with
  | nil => exact .pure
  | cons v vs ih => exact (hr _ _ _ _).andThen fun b => ih.andThen fun bs => .pure

theorem jencList_lin (addr : Bool) (e : Ty) (fo : FOpts) (vs : List Val) :
    (jencListS Γ H recS addr e fo vs).Lin Γ H P fun c => jencList Γ c (rec c) addr e fo vs :=
  .info ((jencElems_lin hr addr e fo vs).andThen fun _ => .pure)

theorem jencFields_lin (addr : Bool) (fs : List Field) (vs : List Val) :
    (jencFieldsS Γ H recS addr fs vs).Lin Γ H P fun c => jencFields Γ c (rec c) addr fs vs := by
  induction fs generalizing vs with
  | nil => cases vs <;> exact .pure
  | cons f fs ih =>
    cases vs with
    | nil => exact .pure
    | cons v vs =>
      exact .ite (.info (.ite (ih vs) ((hr _ _ _ _).andThen fun b => (ih vs).andThen fun bs => .pure))) (ih vs)

theorem jencEntry_lin (e : Ty) (fo : FOpts) (v : Val) :
    (jencEntryS Γ H recS e fo v).Lin Γ H P fun c => jencEntry Γ c (rec c) e fo v := by
  unfold jencEntryS jencEntry
  cases derefVal e v with
  | none => exact hr _ _ _ _
  | some dv => exact .info (hr _ _ _ _)

theorem jencEntries_lin (e : Ty) (fo : FOpts) (kvs : List (Bytes × Val)) :
    (jencEntriesS Γ H recS e fo kvs).Lin Γ H P fun c => jencEntries Γ c (rec c) e fo kvs := by
  induction kvs with
  | nil => exact .pure
  | cons p kvs ih =>
    obtain ⟨k, v⟩ := p
    exact (jencEntry_lin hr e fo v).andThen fun b => ih.andThen fun bs => .pure

theorem jencShape_lin (addr : Bool) (id : TId) (v : Val) (fo : FOpts) :
    (jencShapeS Γ H J recS addr id v fo).Lin Γ H P fun c => jencShape Γ c J (rec c) addr id v fo := by
  unfold jencShapeS jencShape
  cases Γ.shape id with
  | iface =>
    cases v with
    | iface t v => exact jencIface_lin hr _ _ _
    | _ => exact .pure
  | slice e =>
    cases v with
    | list vs => exact jencList_lin hr _ _ _ _
    | _ => exact .pure
  | array n e =>
    cases v with
    | list vs => exact jencList_lin hr _ _ _ _
    | _ => exact .pure
  | struct fs =>
    cases v with
    | struct vs => exact (jencFields_lin hr _ _ _).andThen fun _ => .pure
    | _ => exact .pure
  | map e =>
    cases v with
    | map kvs => exact (jencEntries_lin hr _ _ _).andThen fun _ => .pure
    | _ => exact .pure
  | _ => cases v <;> exact .pure

theorem jencBase_lin (addr : Bool) (id : TId) (v : Val) (fo : FOpts) :
    (jencBaseS Γ H J recS addr id v fo).Lin Γ H P fun c => jencBase Γ c J (rec c) addr id v fo := by
  unfold jencBaseS jencBase
  refine .ite (jencShape_lin hr _ _ _ _) ?_
  cases J.marsh id addr with
  | some m => exact .pure
  | none =>
    cases Γ.marsh id with
    | none => exact jencShape_lin hr _ _ _ _
    | some p => exact Lin.pure.andThen fun r => .info (hr _ _ _ _)

end

theorem jenc_lin (f : Nat) (addr : Bool) (t : Ty) (v : Val) (fo : FOpts) :
    (jencS Γ H J f addr t v fo).Lin Γ H P fun c => jenc Γ c J f addr t v fo := by
  induction f generalizing addr t v fo with
  | zero => exact .pure
  | succ f ih =>
    unfold jencS jenc
    cases derefVal t v with
    | none => exact .pure
    | some dv => exact jencBase_lin (rec := fun c => jenc Γ c J f) ih _ _ _ _

theorem marshalJSON_lin (f : Nat) (o : Option (Ty × Val)) :
    (marshalJSONS Γ H J f o).Lin Γ H P fun c => marshalJSON Γ c J f o := by
  cases o with
  | none => exact .pure
  | some p =>
    obtain ⟨t, v⟩ := p
    refine .infoConc (g := fun oc c => (jenc Γ c J f false t v {}).bind fun b => match oc with
      | some ci => .ok (wrapText ci.name b)
      | none => .ok b) fun oc => ?_
    refine (jenc_lin f false t v {}).andThen fun b => ?_
    cases oc <;> exact .pure

section
variable {recS : Ty → Val → FOpts → Bytes → Run (Res Val)} {rec : Codec → Ty → Val → FOpts → Bytes → Res Val}
  (hr : ∀ t p fo bz, (recS t p fo bz).Lin Γ H P fun c => rec c t p fo bz)
include hr

theorem jdecIface_lin (id : TId) (fo : FOpts) (bz : Bytes) :
    (jdecIfaceS Γ H recS id fo bz).Lin Γ H P fun c => jdecIface Γ c (rec c) id fo bz := by
  refine Lin.pure.andThen fun nd => ?_
  refine ((Lin.name nd.1).andThen fun ci => (hr (.base ci.tid) (Γ.zero ci.tid) fo nd.2).after
    (g := jifaceOut Γ id ci) ?_).congr fun c => ?_
  · intro r hb hg
    cases r with
    | ok v => exact hb ⟨v, rfl⟩
    | err e =>
      obtain ⟨_, h⟩ := hg
      simp only [jifaceOut] at h
      split at h <;> cases h
    | panic p => obtain ⟨_, h⟩ := hg; cases h
    | oof => obtain ⟨_, h⟩ := hg; cases h
  · unfold Lin.nameQ
    cases c.name? nd.1 with
    | none => rfl
    | some ci =>
      simp only [Res.bind_ok]
      cases rec c (.base ci.tid) (Γ.zero ci.tid) fo nd.2 <;> rfl

theorem jdecArr_lin (e : Ty) (fo : FOpts) (ps : List Val) (bs : List Bytes) :
    (jdecArrS recS e fo ps bs).Lin Γ H P fun c => jdecArr (rec c) e fo ps bs := by
  induction ps generalizing bs with
  | nil => exact .pure
  | cons p ps ih =>
    cases bs with
    | nil => exact .pure
    | cons b bs => exact (hr _ _ _ _).andThen fun v => (ih bs).andThen fun vs => .pure

theorem jdecElems_lin (e : Ty) (fo : FOpts) (bs : List Bytes) :
    (jdecElemsS Γ recS e fo bs).Lin Γ H P fun c => jdecElems Γ (rec c) e fo bs := by
  induction bs with
  | nil => exact .pure
  | cons b bs ih => exact (hr _ _ _ _).andThen fun v => ih.andThen fun vs => .pure

theorem jdecField_lin (fo : FOpts) (m : List (Bytes × Bytes)) (f : Field) (p : Val) :
    (jdecFieldS Γ recS fo m f p).Lin Γ H P fun c => jdecField Γ (rec c) fo m f p := by
  unfold jdecFieldS jdecField
  cases m.lookup f.opts.jsonName with
  | none => exact .pure
  | some b => exact .ite .pure (hr _ _ _ _)

theorem jdecFields_lin (fo : FOpts) (m : List (Bytes × Bytes)) (fs : List Field) (ps : List Val) :
    (jdecFieldsS Γ H recS fo m fs ps).Lin Γ H P fun c => jdecFields Γ c (rec c) fo m fs ps := by
  induction fs generalizing ps with
  | nil => cases ps <;> exact .pure
  | cons f fs ih =>
    cases ps with
    | nil => exact .pure
    | cons p ps =>
      exact .ite (.info ((jdecField_lin hr fo m f p).andThen fun v => (ih ps).andThen fun vs => .pure))
        ((ih ps).andThen fun vs => .pure)

theorem jdecEntries_lin (e : Ty) (fo : FOpts) (kvs : List (Bytes × Bytes)) :
    (jdecEntriesS Γ recS e fo kvs).Lin Γ H P fun c => jdecEntries Γ (rec c) e fo kvs := by
  induction kvs with
  | nil => exact .pure
  | cons p kvs ih =>
    obtain ⟨k, b⟩ := p
    exact (hr _ _ _ _).andThen fun v => ih.andThen fun l => .pure

theorem jdecShape_lin (id : TId) (prior : Val) (fo : FOpts) (bz : Bytes) :
    (jdecShapeS Γ H J recS id prior fo bz).Lin Γ H P fun c => jdecShape Γ c J (rec c) id prior fo bz := by
  unfold jdecShapeS jdecShape
  cases Γ.shape id with
  | iface => exact jdecIface_lin hr _ _ _
  | array n e =>
    refine .ite .pure (.info (Lin.pure.andThen fun raws => .ite .pure ?_))
    cases prior with
    | list ps => exact (jdecArr_lin hr _ _ _ _).andThen fun _ => .pure
    | _ => exact .pure
  | slice e =>
    exact .ite .pure (.info (Lin.pure.andThen fun raws => .ite .pure ((jdecElems_lin hr _ _ _).andThen fun _ => .pure)))
  | struct fs =>
    refine Lin.pure.andThen fun m => ?_
    cases prior with
    | struct ps => exact (jdecFields_lin hr _ _ _ _).andThen fun _ => .pure
    | _ => exact .pure
  | map e => exact Lin.pure.andThen fun m => .info ((jdecEntries_lin hr _ _ _).andThen fun _ => .pure)
  | _ => exact .pure

theorem jdecBase_lin (id : TId) (prior : Val) (fo : FOpts) (bz : Bytes) :
    (jdecBaseS Γ H J recS id prior fo bz).Lin Γ H P fun c => jdecBase Γ c J (rec c) id prior fo bz := by
  unfold jdecBaseS jdecBase
  refine .ite (jdecShape_lin hr _ _ _ _) ?_
  cases J.unmarsh id with
  | some m => exact .pure
  | none =>
    cases Γ.unmarsh id with
    | none => exact jdecShape_lin hr _ _ _ _
    | some p => exact .info ((hr _ _ _ _).andThen fun r => .pure)

end

theorem jdec_lin (f : Nat) (t : Ty) (p : Val) (fo : FOpts) (bz : Bytes) :
    (jdecS Γ H J f t p fo bz).Lin Γ H P fun c => jdec Γ c J f t p fo bz := by
  induction f generalizing t p fo bz with
  | zero => exact .pure
  | succ f ih =>
    exact .ite .pure (.ite .pure ((jdecBase_lin (rec := fun c => jdec Γ c J f) ih _ _ _ _).andThen fun _ => .pure))

theorem unmarshalJSON_lin (f : Nat) (t : Ty) (p : Val) (bz : Bytes) :
    (unmarshalJSONS Γ H J f t p bz).Lin Γ H P fun c => unmarshalJSON Γ c J f t p bz := by
  refine .ite .pure (.infoConc (g := fun oc c => match oc with
    | some ci => (decodeInterfaceJSON bz).bind fun nd =>
      if nd.1 ≠ ci.name then .err .prefixMismatch else jdec Γ c J f t p {} nd.2
    | none => jdec Γ c J f t p {} bz) fun oc => ?_)
  cases oc with
  | none => exact jdec_lin _ _ _ _ _
  | some ci => exact Lin.pure.andThen fun nd => .ite .pure (jdec_lin _ _ _ _ _)

end Amino
