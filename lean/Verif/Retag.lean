import Verif.AminoApi
import Verif.JsonDecode

/-!
# Programs that differ in tags only

`Γ.mapOpts g` is the program with the options of every field changed by `g`.  The functions of amino give the same
results for both if `g` keeps the options they look at.
-/

set_option linter.unusedSectionVars false
set_option linter.unusedSimpArgs false

namespace Amino

/-- Change the options of the fields. -/
def Shape.mapOpts (g : FOpts → FOpts) : Shape → Shape
  | .struct fs => .struct (fs.map fun f => { f with opts := g f.opts })
  | s => s

/-- Change the options of the fields of all structs. -/
def Prog.mapOpts (g : FOpts → FOpts) (Γ : Prog) : Prog := { Γ with shape := fun id => (Γ.shape id).mapOpts g }

/-- `g` keeps what the binary decoder looks at. -/
structure KeepsBin (g : FOpts → FOpts) : Prop where
  fixed64 : ∀ fo, (g fo).fixed64 = fo.fixed64
  fixed32 : ∀ fo, (g fo).fixed32 = fo.fixed32
  fnum : ∀ fo, (g fo).fnum = fo.fnum
  floatOk : ∀ fo, (g fo).floatOk = fo.floatOk
  emptyElements : ∀ fo, (g fo).emptyElements = fo.emptyElements
  setNum : ∀ fo n, { g fo with fnum := n } = g { fo with fnum := n }
  plain : ∀ n, g { fnum := n } = { fnum := n }

/-- `g` keeps what the JSON functions look at. -/
structure KeepsJson (g : FOpts → FOpts) : Prop where
  jsonName : ∀ fo, (g fo).jsonName = fo.jsonName
  omitEmpty : ∀ fo, (g fo).omitEmpty = fo.omitEmpty
  floatOk : ∀ fo, (g fo).floatOk = fo.floatOk
  plain : g {} = {}

variable {Γ : Prog} {c : Codec} {g : FOpts → FOpts}

section
theorem mapOpts_isStruct (id : TId) : (Γ.mapOpts g).isStruct id = Γ.isStruct id := by
  unfold Prog.isStruct Prog.mapOpts Shape.mapOpts
  cases h : Γ.shape id <;> simp [h]

theorem mapOpts_isIface (id : TId) : (Γ.mapOpts g).isIface id = Γ.isIface id := by
  unfold Prog.isIface Prog.mapOpts Shape.mapOpts
  cases h : Γ.shape id <;> simp [h]

theorem mapOpts_isKnown (id : TId) : (Γ.mapOpts g).isKnown id = Γ.isKnown id := by
  unfold Prog.isKnown Prog.mapOpts Shape.mapOpts
  cases h : Γ.shape id <;> simp [h]

theorem mapOpts_isByteKind (t : Ty) : (Γ.mapOpts g).isByteKind t = Γ.isByteKind t := by
  cases t with
  | ptr t => rfl
  | base id =>
    unfold Prog.isByteKind Prog.mapOpts Shape.mapOpts
    cases h : Γ.shape id <;> simp [h]

theorem mapOpts_isListKind (t : Ty) : (Γ.mapOpts g).isListKind t = Γ.isListKind t := by
  cases t with
  | ptr t => rfl
  | base id =>
    unfold Prog.isListKind Prog.mapOpts Shape.mapOpts
    cases h : Γ.shape id <;> simp [h]

theorem mapOpts_zeroTy (t : Ty) : (Γ.mapOpts g).zeroTy t = Γ.zeroTy t := by cases t <;> rfl

theorem mapOpts_zero (id : TId) : (Γ.mapOpts g).zero id = Γ.zero id := rfl
theorem mapOpts_marsh (id : TId) : (Γ.mapOpts g).marsh id = Γ.marsh id := rfl
theorem mapOpts_unmarsh (id : TId) : (Γ.mapOpts g).unmarsh id = Γ.unmarsh id := rfl
theorem mapOpts_implements (t : Ty) (id : TId) : (Γ.mapOpts g).implements t id = Γ.implements t id := rfl
theorem mapOpts_byteId : (Γ.mapOpts g).byteId = Γ.byteId := rfl

theorem mapOpts_isDefaultBase (id : TId) (v : Val) : isDefaultBase ((Γ.mapOpts g).shape id) v = isDefaultBase (Γ.shape id) v := by
  unfold Prog.mapOpts Shape.mapOpts
  cases h : Γ.shape id <;> simp [h, isDefaultBase]

theorem mapOpts_isDefault (t : Ty) (v : Val) : (Γ.mapOpts g).isDefault t v = Γ.isDefault t v := by
  unfold Prog.isDefault
  simp only [mapOpts_isDefaultBase]

theorem mapOpts_defaultValue (t : Ty) : (Γ.mapOpts g).defaultValue t = Γ.defaultValue t := by
  unfold Prog.defaultValue
  rw [mapOpts_zeroTy]
  unfold Prog.mapOpts Shape.mapOpts
  cases h : Γ.shape t.deref <;> simp [h]

theorem mapOpts_derefPrior (t : Ty) (v : Val) : (Γ.mapOpts g).derefPrior t v = Γ.derefPrior t v := by
  induction t generalizing v with
  | base id => rfl
  | ptr t ih => cases v <;> simp only [Prog.derefPrior, ih, mapOpts_zeroTy]

theorem mapOpts_derefZero (t : Ty) (v : Val) : (Γ.mapOpts g).derefZero t v = Γ.derefZero t v := rfl

theorem mapOpts_elem (id : TId) : ((Γ.mapOpts g).shape id).elem? = (Γ.shape id).elem? := by
  unfold Prog.mapOpts Shape.mapOpts
  cases h : Γ.shape id <;> simp [h, Shape.elem?]

theorem mapOpts_structOrRep (id : TId) : (Γ.mapOpts g).structOrRep id = Γ.structOrRep id := by
  unfold Prog.structOrRep
  have h0 : (Γ.mapOpts g).shape id = (Γ.shape id).mapOpts g := rfl
  rw [h0]
  cases h : Γ.shape id with
  | slice e => cases e <;> simp only [Shape.mapOpts, mapOpts_isStruct]
  | array n e => cases e <;> simp only [Shape.mapOpts, mapOpts_isStruct]
  | _ => rfl

theorem mapOpts_innerIsByte (k : Nat) (t : Ty) : innerIsByte (Γ.mapOpts g) k t = innerIsByte Γ k t := by
  induction k generalizing t with
  | zero => rfl
  | succ k ih =>
    cases t with
    | ptr t => rfl
    | base id =>
      unfold innerIsByte
      have h0 : (Γ.mapOpts g).shape id = (Γ.shape id).mapOpts g := rfl
      simp only [h0, ih]
      cases h : Γ.shape id <;> rfl

theorem mapOpts_preferNil (e : Ty) (v : Val) : preferNil (Γ.mapOpts g) e v = preferNil Γ e v := by
  unfold preferNil
  rw [mapOpts_isDefault]

theorem mapOpts_badFloat (hf : ∀ fo, (g fo).floatOk = fo.floatOk) (f : Field) :
    (Γ.mapOpts g).badFloat { f with opts := g f.opts } = Γ.badFloat f := by
  unfold Prog.badFloat
  simp only [hf]
  cases f.ty with
  | ptr t => rfl
  | base id =>
    have h0 : (Γ.mapOpts g).shape id = (Γ.shape id).mapOpts g := rfl
    simp only [h0]
    cases h : Γ.shape id <;> rfl

theorem mapOpts_getInfo (hf : ∀ fo, (g fo).floatOk = fo.floatOk) (id : TId) : getInfo (Γ.mapOpts g) c id = getInfo Γ c id := by
  unfold getInfo
  have h0 : (Γ.mapOpts g).shape id = (Γ.shape id).mapOpts g := rfl
  rw [h0]
  cases h : Γ.shape id with
  | struct fs =>
    simp only [Shape.mapOpts, List.any_map]
    have : ((Γ.mapOpts g).badFloat ∘ fun f : Field => { f with opts := g f.opts }) = Γ.badFloat :=
      funext fun f => mapOpts_badFloat hf f
    rw [this]
  | _ => rfl

end

/-! ## The binary decoder -/

section bin
variable (hg : KeepsBin g)
include hg

theorem mapOpts_typ3 (id : TId) (fo : FOpts) : (Γ.mapOpts g).typ3 id (g fo) = Γ.typ3 id fo := by
  unfold Prog.typ3
  have h0 : (Γ.mapOpts g).shape id = (Γ.shape id).mapOpts g := rfl
  simp only [h0, hg.fixed32, hg.fixed64]
  cases h : Γ.shape id <;> rfl

theorem mapOpts_typ3_plain (id : TId) : (Γ.mapOpts g).typ3 id {} = Γ.typ3 id {} := by
  have := mapOpts_typ3 (Γ := Γ) hg id {}
  rwa [hg.plain 0] at this

theorem mapOpts_unpackedList (f : Field) : (Γ.mapOpts g).unpackedList { f with opts := g f.opts } = Γ.unpackedList f := by
  unfold Prog.unpackedList
  simp only
  cases f.ty with
  | ptr t => rfl
  | base id =>
    have h0 : (Γ.mapOpts g).shape id = (Γ.shape id).mapOpts g := rfl
    simp only [h0, mapOpts_typ3 hg, mapOpts_isByteKind]
    cases h : Γ.shape id <;> rfl

theorem mapOpts_infoThen {α : Type} (id : TId) (n : Nat) (k : DRes α) : infoThen (Γ.mapOpts g) c id n k = infoThen Γ c id n k := by
  unfold infoThen
  rw [mapOpts_getInfo hg.floatOk]

section
variable {rec rec' : Ty → Val → FOpts → Bool → Bytes → DRes Val}
  (hr : ∀ t p fo b bz, rec' t p (g fo) b bz = rec t p fo b bz)
include hr

theorem mapOpts_decPackedSlice (e : Ty) (fo : FOpts) (k : Nat) (bz : Bytes) (n : Nat) :
    decPackedSlice (Γ.mapOpts g) rec' e (g fo) k bz n = decPackedSlice Γ rec e fo k bz n := by
  induction k generalizing bz n with
  | zero => cases bz <;> rfl
  | succ k ih => cases bz <;> simp only [decPackedSlice, hr, ih, mapOpts_zeroTy, mapOpts_preferNil]

theorem mapOpts_decUnpackedSlice (e : Ty) (fo : FOpts) (k : Nat) (bz : Bytes) (n : Nat) :
    decUnpackedSlice (Γ.mapOpts g) rec' e (g fo) k bz n = decUnpackedSlice Γ rec e fo k bz n := by
  induction k generalizing bz n with
  | zero => cases bz <;> rfl
  | succ k ih =>
    cases bz with
    | nil => rfl
    | cons b bz =>
      simp only [decUnpackedSlice, hg.setNum, hr, ih]
      simp only [hg.fnum, hg.emptyElements, mapOpts_zeroTy, mapOpts_defaultValue, mapOpts_isStruct]

theorem mapOpts_decSlice (e : Ty) (fo : FOpts) (bare : Bool) (bz : Bytes) :
    decSlice (Γ.mapOpts g) c rec' e (g fo) bare bz = decSlice Γ c rec e fo bare bz := by
  unfold decSlice
  simp only [mapOpts_infoThen hg, mapOpts_typ3 hg, mapOpts_decPackedSlice hg hr, mapOpts_decUnpackedSlice hg hr]

theorem mapOpts_decPackedArr (e : Ty) (fo : FOpts) (ps : List Val) (bz : Bytes) (n : Nat) :
    decPackedArr (Γ.mapOpts g) rec' e (g fo) ps bz n = decPackedArr Γ rec e fo ps bz n := by
  induction ps generalizing bz n with
  | nil => rfl
  | cons p ps ih => simp only [decPackedArr, hr, ih, mapOpts_preferNil]

theorem mapOpts_decUnpackedArr (e : Ty) (fo : FOpts) (ps : List Val) (bz : Bytes) (n : Nat) :
    decUnpackedArr (Γ.mapOpts g) rec' e (g fo) ps bz n = decUnpackedArr Γ rec e fo ps bz n := by
  induction ps generalizing bz n with
  | nil => simp only [decUnpackedArr, hg.fnum]
  | cons p ps ih =>
    simp only [decUnpackedArr, hg.setNum, hr, ih]
    simp only [hg.fnum, hg.emptyElements, mapOpts_defaultValue, mapOpts_isStruct]

theorem mapOpts_decArray (e : Ty) (prior : Val) (fo : FOpts) (bare : Bool) (bz : Bytes) :
    decArray (Γ.mapOpts g) c rec' e prior (g fo) bare bz = decArray Γ c rec e prior fo bare bz := by
  unfold decArray
  simp only [mapOpts_infoThen hg, mapOpts_typ3 hg, mapOpts_decPackedArr hg hr, mapOpts_decUnpackedArr hg hr]

theorem mapOpts_decFields (fs : List Field) (ps : List Val) (num last : Nat) (bz : Bytes) (n : Nat) :
    decFields (Γ.mapOpts g) c rec' (fs.map fun f => { f with opts := g f.opts }) ps num last bz n =
      decFields Γ c rec fs ps num last bz n := by
  induction fs generalizing ps num last bz n with
  | nil => cases ps <;> rfl
  | cons f fs ih =>
    cases ps with
    | nil => rfl
    | cons p ps =>
      simp only [List.map_cons, decFields, hg.setNum, hr, ih, mapOpts_infoThen hg, mapOpts_typ3 hg, mapOpts_defaultValue,
        mapOpts_unpackedList hg]

theorem mapOpts_concKey {α : Type} (cid : TId) (fo : FOpts) (bz : Bytes) (n : Nat) (k : Bytes → Nat → DRes α) :
    concKey (Γ.mapOpts g) cid (g fo) bz n k = concKey Γ cid fo bz n k := by
  unfold concKey
  simp only [mapOpts_structOrRep, mapOpts_isIface, mapOpts_isKnown, hg.fnum, mapOpts_typ3_plain hg]

theorem mapOpts_decIface (id : TId) (prior : Val) (fo : FOpts) (bare : Bool) (bz : Bytes) :
    decIface (Γ.mapOpts g) c rec' id prior (g fo) bare bz = decIface Γ c rec id prior fo bare bz := by
  unfold decIface
  simp only [mapOpts_concKey hg hr, hr, mapOpts_zero, mapOpts_implements]
  rfl

theorem mapOpts_decShape (id : TId) (prior : Val) (fo : FOpts) (bare : Bool) (bz : Bytes) :
    decShape (Γ.mapOpts g) c rec' id prior (g fo) bare bz = decShape Γ c rec id prior fo bare bz := by
  unfold decShape
  have h0 : (Γ.mapOpts g).shape id = (Γ.shape id).mapOpts g := rfl
  rw [h0]
  cases h : Γ.shape id with
  | iface => exact mapOpts_decIface hg hr id prior fo bare bz
  | array n e => simp only [Shape.mapOpts, mapOpts_isByteKind, mapOpts_decArray hg hr]; rfl
  | slice e => simp only [Shape.mapOpts, mapOpts_isByteKind, mapOpts_decSlice hg hr]; rfl
  | struct fs => simp only [Shape.mapOpts, mapOpts_decFields hg hr]
  | int k => cases k <;> simp only [Shape.mapOpts, decInt, hg.fixed64, hg.fixed32]
  | float32 => simp only [Shape.mapOpts, hg.floatOk]
  | float64 => simp only [Shape.mapOpts, hg.floatOk]
  | _ => rfl

theorem mapOpts_decBody (t : Ty) (prior : Val) (fo : FOpts) (bare : Bool) (bz : Bytes) :
    decBody (Γ.mapOpts g) c rec' t prior (g fo) bare bz = decBody Γ c rec t prior fo bare bz := by
  unfold decBody
  simp only [mapOpts_isIface, mapOpts_derefPrior, mapOpts_unmarsh, mapOpts_infoThen hg, hr, mapOpts_zero, mapOpts_decShape hg hr]

end

theorem mapOpts_dec (f : Nat) (t : Ty) (prior : Val) (fo : FOpts) (bare : Bool) (bz : Bytes) :
    dec (Γ.mapOpts g) c f t prior (g fo) bare bz = dec Γ c f t prior fo bare bz := by
  induction f generalizing t prior fo bare bz with
  | zero => rfl
  | succ f ih => exact mapOpts_decBody hg ih t prior fo bare bz

theorem mapOpts_decodeAll (f : Nat) (t : Ty) (prior : Val) (bare : Bool) (bz : Bytes) :
    decodeAll (Γ.mapOpts g) c f t prior bare bz = decodeAll Γ c f t prior bare bz := by
  unfold decodeAll
  rw [← hg.plain 1, mapOpts_dec hg, hg.plain 1]

theorem mapOpts_unmarshalBare (f : Nat) (t : Ty) (prior : Val) (bz : Bytes) :
    unmarshalBare (Γ.mapOpts g) c f t prior bz = unmarshalBare Γ c f t prior bz := by
  unfold unmarshalBare unmarshalContents ptrToListPanics
  simp only [mapOpts_getInfo hg.floatOk, mapOpts_structOrRep, mapOpts_decodeAll hg, mapOpts_isListKind, mapOpts_isIface,
    mapOpts_isKnown, mapOpts_typ3_plain hg]

/-! ## The binary encoder -/

section
variable (hw : ∀ fo, (g fo).writeEmpty = fo.writeEmpty)
  {rec rec' : TId → Val → FOpts → Bool → Res Bytes} (hr : ∀ id v fo b, rec' id v (g fo) b = rec id v fo b)
include hr

theorem mapOpts_encPacked (e : Ty) (fo : FOpts) (vs : List Val) :
    encPacked (Γ.mapOpts g) rec' e (g fo) vs = encPacked Γ rec e fo vs := by
  induction vs with
  | nil => rfl
  | cons v vs ih => simp only [encPacked, hr, ih, mapOpts_derefZero]

theorem mapOpts_encElem (e : Ty) (fo : FOpts) (v : Val) : encElem (Γ.mapOpts g) rec' e (g fo) v = encElem Γ rec e fo v := by
  unfold encElem
  simp only [hg.setNum, hr]
  simp only [mapOpts_isStruct, hg.emptyElements, mapOpts_isDefaultBase]

theorem mapOpts_encUnpacked (e : Ty) (fo : FOpts) (vs : List Val) :
    encUnpacked (Γ.mapOpts g) rec' e (g fo) vs = encUnpacked Γ rec e fo vs := by
  induction vs with
  | nil => rfl
  | cons v vs ih => simp only [encUnpacked, hg.fnum, mapOpts_encElem hg hr, ih]

theorem mapOpts_encList (e : Ty) (v : Val) (fo : FOpts) (bare : Bool) :
    encList (Γ.mapOpts g) c rec' e v (g fo) bare = encList Γ c rec e v fo bare := by
  unfold encList
  simp only [mapOpts_getInfo hg.floatOk, mapOpts_typ3 hg, mapOpts_encPacked hg hr, mapOpts_encUnpacked hg hr]

theorem mapOpts_writeField (num : Nat) (id : TId) (fo : FOpts) (dv : Val) (we bare : Bool) :
    writeField (Γ.mapOpts g) rec' num id (g fo) dv we bare = writeField Γ rec num id fo dv we bare := by
  unfold writeField
  simp only [mapOpts_typ3 hg, hr]

theorem mapOpts_encIface (id : TId) (v : Val) (fo : FOpts) (bare : Bool) :
    encIface (Γ.mapOpts g) c rec' id v (g fo) bare = encIface Γ c rec id v fo bare := by
  unfold encIface
  simp only [mapOpts_isIface, mapOpts_getInfo hg.floatOk, hr]

include hw

theorem mapOpts_encField (f : Field) (num : Nat) (v : Val) :
    encField (Γ.mapOpts g) c rec' { f with opts := g f.opts } num v = encField Γ c rec f num v := by
  unfold encField
  simp only [hg.setNum, mapOpts_encList hg hr, mapOpts_writeField hg hr]
  simp only [mapOpts_getInfo hg.floatOk, hw, mapOpts_isDefaultBase, mapOpts_unpackedList hg, mapOpts_elem]

theorem mapOpts_encFields (num : Nat) (fs : List Field) (vs : List Val) :
    encFields (Γ.mapOpts g) c rec' num (fs.map fun f => { f with opts := g f.opts }) vs = encFields Γ c rec num fs vs := by
  induction fs generalizing num vs with
  | nil => cases vs <;> rfl
  | cons f fs ih =>
    cases vs with
    | nil => rfl
    | cons v vs => simp only [List.map_cons, encFields, mapOpts_encField hg hw hr, ih]

theorem mapOpts_encShape (k : Nat) (id : TId) (v : Val) (fo : FOpts) (bare : Bool) :
    encShape (Γ.mapOpts g) c rec' k id v (g fo) bare = encShape Γ c rec k id v fo bare := by
  unfold encShape
  have h0 : (Γ.mapOpts g).shape id = (Γ.shape id).mapOpts g := rfl
  rw [h0]
  cases h : Γ.shape id with
  | iface => exact mapOpts_encIface hg hr id v fo bare
  | array n e => simp only [Shape.mapOpts, mapOpts_isByteKind, mapOpts_isListKind, mapOpts_innerIsByte, mapOpts_encList hg hr]
  | slice e => simp only [Shape.mapOpts, mapOpts_isByteKind, mapOpts_isListKind, mapOpts_innerIsByte, mapOpts_encList hg hr]
  | struct fs => simp only [Shape.mapOpts, mapOpts_encFields hg hw hr]
  | int k => cases k <;> simp only [Shape.mapOpts, encInt, hg.fixed64, hg.fixed32]
  | float32 => simp only [Shape.mapOpts, hg.floatOk]
  | float64 => simp only [Shape.mapOpts, hg.floatOk]
  | _ => rfl

theorem mapOpts_encBody (k : Nat) (id : TId) (v : Val) (fo : FOpts) (bare : Bool) :
    encBody (Γ.mapOpts g) c rec' k id v (g fo) bare = encBody Γ c rec k id v fo bare := by
  unfold encBody
  simp only [mapOpts_marsh, mapOpts_getInfo hg.floatOk, hr, mapOpts_encShape hg hw hr]

end

theorem mapOpts_enc (hw : ∀ fo, (g fo).writeEmpty = fo.writeEmpty) (f : Nat) (id : TId) (v : Val) (fo : FOpts) (bare : Bool) :
    enc (Γ.mapOpts g) c f id v (g fo) bare = enc Γ c f id v fo bare := by
  induction f generalizing id v fo bare with
  | zero => rfl
  | succ f ih => exact mapOpts_encBody hg hw ih f id v fo bare

theorem mapOpts_marshalBare (hw : ∀ fo, (g fo).writeEmpty = fo.writeEmpty) (f : Nat) (t : Ty) (v : Val) :
    marshalBare (Γ.mapOpts g) c f t v = marshalBare Γ c f t v := by
  have h1 : ∀ id rv we b, writeField (Γ.mapOpts g) (enc (Γ.mapOpts g) c f) 1 id {} rv we b = writeField Γ (enc Γ c f) 1 id {} rv we b := by
    intro id rv we b
    have := mapOpts_writeField (Γ := Γ) hg (mapOpts_enc (Γ := Γ) (c := c) hg hw f) 1 id {} rv we b
    rwa [hg.plain 0] at this
  have h2 : ∀ id rv, enc (Γ.mapOpts g) c f id rv { fnum := 1 } true = enc Γ c f id rv { fnum := 1 } true := by
    intro id rv
    have := mapOpts_enc (Γ := Γ) (c := c) hg hw f id rv { fnum := 1 } true
    rwa [hg.plain 1] at this
  unfold marshalBare
  simp only [mapOpts_getInfo hg.floatOk, mapOpts_structOrRep, mapOpts_typ3_plain hg, h1, h2]

end bin

/-! ## JSON -/

section json
variable {J : JLib} (hg : KeepsJson g)
include hg

section
variable {rec rec' : Bool → Ty → Val → FOpts → Res Bytes} (hr : ∀ a t v fo, rec' a t v (g fo) = rec a t v fo)
include hr

theorem mapOpts_jencIface (t : Ty) (v : Val) (fo : FOpts) : jencIface (Γ.mapOpts g) c rec' t v (g fo) = jencIface Γ c rec t v fo := by
  unfold jencIface
  simp only [mapOpts_isIface, mapOpts_getInfo hg.floatOk, hr]

theorem mapOpts_jencElems (a : Bool) (e : Ty) (fo : FOpts) (vs : List Val) :
    jencElems rec' a e (g fo) vs = jencElems rec a e fo vs := by
  induction vs with
  | nil => rfl
  | cons v vs ih => simp only [jencElems, hr, ih]

theorem mapOpts_jencList (a : Bool) (e : Ty) (fo : FOpts) (vs : List Val) :
    jencList (Γ.mapOpts g) c rec' a e (g fo) vs = jencList Γ c rec a e fo vs := by
  unfold jencList
  simp only [mapOpts_getInfo hg.floatOk, mapOpts_jencElems hg hr]

theorem mapOpts_jsonEmpty (t : Ty) (v : Val) : (Γ.mapOpts g).jsonEmpty t v = Γ.jsonEmpty t v := by
  unfold Prog.jsonEmpty
  have h0 : (Γ.mapOpts g).shape t.deref = (Γ.shape t.deref).mapOpts g := rfl
  simp only [mapOpts_zeroTy, h0]
  cases h : Γ.shape t.deref <;> rfl

theorem mapOpts_jencFields (a : Bool) (fs : List Field) (vs : List Val) :
    jencFields (Γ.mapOpts g) c rec' a (fs.map fun f => { f with opts := g f.opts }) vs = jencFields Γ c rec a fs vs := by
  induction fs generalizing vs with
  | nil => cases vs <;> rfl
  | cons f fs ih =>
    cases vs with
    | nil => rfl
    | cons v vs =>
      simp only [List.map_cons, jencFields, mapOpts_getInfo hg.floatOk, hg.omitEmpty, hg.jsonName, mapOpts_jsonEmpty hg hr, hr, ih]

theorem mapOpts_jencEntries (e : Ty) (fo : FOpts) (kvs : List (Bytes × Val)) :
    jencEntries (Γ.mapOpts g) c rec' e (g fo) kvs = jencEntries Γ c rec e fo kvs := by
  induction kvs with
  | nil => rfl
  | cons kv kvs ih => simp only [jencEntries, jencEntry, mapOpts_getInfo hg.floatOk, hr, ih]

theorem mapOpts_jencShape (a : Bool) (id : TId) (v : Val) (fo : FOpts) :
    jencShape (Γ.mapOpts g) c J rec' a id v (g fo) = jencShape Γ c J rec a id v fo := by
  unfold jencShape
  have h0 : (Γ.mapOpts g).shape id = (Γ.shape id).mapOpts g := rfl
  rw [h0]
  cases h : Γ.shape id <;> cases v <;>
    simp only [Shape.mapOpts, mapOpts_jencIface hg hr, mapOpts_jencList hg hr, mapOpts_jencFields hg hr, mapOpts_jencEntries hg hr,
      hg.floatOk, jencBytes, mapOpts_byteId] <;> rfl

theorem mapOpts_time (id : TId) : (Γ.mapOpts g).shape id = .time ↔ Γ.shape id = .time := by
  have h0 : (Γ.mapOpts g).shape id = (Γ.shape id).mapOpts g := rfl
  rw [h0]
  cases h : Γ.shape id <;> simp [Shape.mapOpts]

theorem mapOpts_jencBase (a : Bool) (id : TId) (v : Val) (fo : FOpts) :
    jencBase (Γ.mapOpts g) c J rec' a id v (g fo) = jencBase Γ c J rec a id v fo := by
  unfold jencBase
  simp only [mapOpts_time hg hr, mapOpts_jencShape hg hr, mapOpts_marsh, mapOpts_getInfo hg.floatOk, hr]

end

theorem mapOpts_jenc (f : Nat) (a : Bool) (t : Ty) (v : Val) (fo : FOpts) :
    jenc (Γ.mapOpts g) c J f a t v (g fo) = jenc Γ c J f a t v fo := by
  induction f generalizing a t v fo with
  | zero => rfl
  | succ f ih => simp only [jenc, mapOpts_jencBase hg ih]

theorem mapOpts_marshalJSON (f : Nat) (o : Option (Ty × Val)) : marshalJSON (Γ.mapOpts g) c J f o = marshalJSON Γ c J f o := by
  cases o with
  | none => rfl
  | some q =>
    obtain ⟨t, v⟩ := q
    have := mapOpts_jenc (Γ := Γ) (c := c) (J := J) hg f false t v {}
    rw [hg.plain] at this
    simp only [marshalJSON, mapOpts_getInfo hg.floatOk, this]

section
variable {rec rec' : Ty → Val → FOpts → Bytes → Res Val} (hr : ∀ t p fo bz, rec' t p (g fo) bz = rec t p fo bz)
include hr

theorem mapOpts_jdecIface (id : TId) (fo : FOpts) (bz : Bytes) :
    jdecIface (Γ.mapOpts g) c rec' id (g fo) bz = jdecIface Γ c rec id fo bz := by
  unfold jdecIface
  simp only [hr, mapOpts_zero, mapOpts_implements]
  rfl

theorem mapOpts_jdecArr (e : Ty) (fo : FOpts) (ps : List Val) (bs : List Bytes) :
    jdecArr rec' e (g fo) ps bs = jdecArr rec e fo ps bs := by
  induction ps generalizing bs with
  | nil => rfl
  | cons p ps ih => cases bs <;> simp only [jdecArr, hr, ih]

theorem mapOpts_jdecElems (e : Ty) (fo : FOpts) (bs : List Bytes) :
    jdecElems (Γ.mapOpts g) rec' e (g fo) bs = jdecElems Γ rec e fo bs := by
  induction bs with
  | nil => rfl
  | cons b bs ih => simp only [jdecElems, hr, ih, mapOpts_zeroTy]

theorem mapOpts_jdecFields (fo : FOpts) (m : List (Bytes × Bytes)) (fs : List Field) (ps : List Val) :
    jdecFields (Γ.mapOpts g) c rec' (g fo) m (fs.map fun f => { f with opts := g f.opts }) ps = jdecFields Γ c rec fo m fs ps := by
  induction fs generalizing ps with
  | nil => cases ps <;> rfl
  | cons f fs ih =>
    cases ps with
    | nil => rfl
    | cons p ps =>
      simp only [List.map_cons, jdecFields, jdecField, mapOpts_getInfo hg.floatOk, hg.omitEmpty, hg.jsonName, hr, ih, mapOpts_zeroTy]

theorem mapOpts_jdecEntries (e : Ty) (fo : FOpts) (kvs : List (Bytes × Bytes)) :
    jdecEntries (Γ.mapOpts g) rec' e (g fo) kvs = jdecEntries Γ rec e fo kvs := by
  induction kvs with
  | nil => rfl
  | cons kv kvs ih => simp only [jdecEntries, hr, ih, mapOpts_zeroTy]

theorem mapOpts_jdecShape (id : TId) (prior : Val) (fo : FOpts) (bz : Bytes) :
    jdecShape (Γ.mapOpts g) c J rec' id prior (g fo) bz = jdecShape Γ c J rec id prior fo bz := by
  unfold jdecShape
  have h0 : (Γ.mapOpts g).shape id = (Γ.shape id).mapOpts g := rfl
  rw [h0]
  cases h : Γ.shape id <;>
    simp only [Shape.mapOpts, mapOpts_jdecIface hg hr, mapOpts_isByteKind, jdecByteArr, mapOpts_byteId, mapOpts_getInfo hg.floatOk,
      mapOpts_jdecArr hg hr, mapOpts_jdecElems hg hr, mapOpts_jdecFields hg hr, mapOpts_jdecEntries hg hr, mapOpts_zero, hg.floatOk] <;> rfl

theorem mapOpts_jdecBase (id : TId) (prior : Val) (fo : FOpts) (bz : Bytes) :
    jdecBase (Γ.mapOpts g) c J rec' id prior (g fo) bz = jdecBase Γ c J rec id prior fo bz := by
  have ht : (Γ.mapOpts g).shape id = .time ↔ Γ.shape id = .time := by
    have h0 : (Γ.mapOpts g).shape id = (Γ.shape id).mapOpts g := rfl
    rw [h0]
    cases h : Γ.shape id <;> simp [Shape.mapOpts]
  unfold jdecBase
  simp only [ht, mapOpts_jdecShape hg hr, mapOpts_unmarsh, mapOpts_getInfo hg.floatOk, hr, mapOpts_zero]

end

theorem mapOpts_jdec (f : Nat) (t : Ty) (prior : Val) (fo : FOpts) (bz : Bytes) :
    jdec (Γ.mapOpts g) c J f t prior (g fo) bz = jdec Γ c J f t prior fo bz := by
  induction f generalizing t prior fo bz with
  | zero => rfl
  | succ f ih => simp only [jdec, mapOpts_isIface, mapOpts_zeroTy, mapOpts_derefPrior, mapOpts_jdecBase hg ih]

theorem mapOpts_unmarshalJSON (f : Nat) (t : Ty) (prior : Val) (bz : Bytes) :
    unmarshalJSON (Γ.mapOpts g) c J f t prior bz = unmarshalJSON Γ c J f t prior bz := by
  have h : ∀ b, jdec (Γ.mapOpts g) c J f t prior {} b = jdec Γ c J f t prior {} b := by
    intro b
    have := mapOpts_jdec (Γ := Γ) (c := c) (J := J) hg f t prior {} b
    rwa [hg.plain] at this
  unfold unmarshalJSON
  simp only [mapOpts_getInfo hg.floatOk, h]

end json

end Amino
