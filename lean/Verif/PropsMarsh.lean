import Verif.SpecMarsh
import Verif.PropsTop

/-! # Property C44: MarshalAmino and UnmarshalAmino -/

namespace Amino
open Spec

variable {Γ : Prog} {c : Codec} {R : TId → Val → TId → Val → Prop}

theorem Spec.ValRel.flip {t t' : Ty} {v v' : Val} (h : ValRel Γ R t t' v v') :
    ValRel Γ (fun id x rid r => R rid r id x) t' t v' v := by
  cases h with
  | null h1 h2 => exact .null h2 h1
  | some h1 h2 h3 h4 => exact .some h2 h1 h3 h4.symm

theorem Spec.ValRels.flip {t t' : Ty} {vs vs' : List Val} (h : ValRels Γ R t t' vs vs') :
    ValRels Γ (fun id x rid r => R rid r id x) t' t vs' vs := by
  induction h with
  | nil => exact .nil
  | cons h _ ih => exact .cons h.flip ih

theorem keepEmpty_opts {e : Ty} {fo fo' : FOpts} (h : fo.emptyElements = fo'.emptyElements) :
    keepEmpty Γ e fo = keepEmpty Γ e fo' := by unfold keepEmpty; rw [h]

theorem Spec.FieldRel.flip {f f' : Field} {v v' : Val} (h : FieldRel Γ R f f' v v') :
    FieldRel Γ (fun id x rid r => R rid r id x) f' f v' v := by
  cases h with
  | same h1 h2 => exact .same h1.symm h2.symm
  | single h1 h2 h3 h4 h5 h6 h7 => exact .single h1.symm h2.symm h3.symm (by rw [← h1]; exact h4.symm) h6 h5 h7.flip
  | list h1 h2 h3 h4 h5 h6 h7 h8 h9 h10 h11 =>
    refine .list h1.symm h2.symm h4 h3 ?_ h7 h6 (by rw [← h1]; exact h8.symm) h10 h9 h11.flip
    rcases h5 with ⟨a, b⟩ | ⟨n, a, b⟩
    · exact .inl ⟨b, a⟩
    · exact .inr ⟨n, b, a⟩

theorem Spec.FieldsRel.flip {fs fs' : List Field} {vs vs' : List Val} (h : FieldsRel Γ R fs fs' vs vs') :
    FieldsRel Γ (fun id x rid r => R rid r id x) fs' fs vs' vs := by
  induction h with
  | nil => exact .nil
  | cons h _ ih => exact .cons h.flip ih

section
variable {rec rec' : TId → Val → FOpts → Bool → Res Bytes}
  (hsame : ∀ id v fo b, (rec id v fo b).Le (rec' id v fo b))
  (hrel : ∀ id x rid r fo b, R id x rid r → (rec id x fo b).Le (rec' rid r fo b))
include hrel

theorem encElem_rel {e e' : Ty} {fo : FOpts} {v v' : Val} (hk : keepEmpty Γ e fo = keepEmpty Γ e' fo)
    (h : ValRel Γ R e e' v v') : (encElem Γ rec e fo v).Le (encElem Γ rec' e' fo v') := by
  have hk' : ∀ t : Ty, ((t.isPtr && Γ.isStruct t.deref) && fo.emptyElements) = keepEmpty Γ t fo := by
    intro t; unfold keepEmpty; cases fo.emptyElements <;> simp
  unfold encElem
  rw [hk' e, hk' e', hk]
  cases h with
  | null h1 h2 =>
    rw [pointee_eq] at h1 h2
    rw [h1, h2]
    exact .rfl
  | some h1 h2 h3 h4 =>
    rw [pointee_eq] at h1 h2
    rw [dflt_eq, dflt_eq] at h4
    rw [h1, h2]
    simp only [h4]
    split
    · exact .rfl
    · exact hrel _ _ _ _ _ _ h3

theorem encUnpacked_rel {e e' : Ty} {fo : FOpts} {vs vs' : List Val} (hk : keepEmpty Γ e fo = keepEmpty Γ e' fo)
    (h : ValRels Γ R e e' vs vs') : (encUnpacked Γ rec e fo vs).Le (encUnpacked Γ rec' e' fo vs') := by
  induction h with
  | nil => exact .rfl
  | cons h _ ih =>
    unfold encUnpacked
    exact .bind .rfl fun _ => .bind (encElem_rel hrel hk h) fun _ => .bind ih fun _ => .rfl

include hsame

theorem encField_rel {f f' : Field} {num : Nat} {v v' : Val} (hi : getInfo Γ c f.ty.deref = .ok ())
    (hi' : getInfo Γ c f'.ty.deref = .ok ())
    (hie : ∀ l e, f.ty = .base l → ListOf Γ l e → getInfo Γ c e.deref = .ok ())
    (hie' : ∀ l e, f'.ty = .base l → ListOf Γ l e → getInfo Γ c e.deref = .ok ())
    (h : FieldRel Γ R f f' v v') :
    (encField Γ c rec f num v).Le (encField Γ c rec' f' num v') := by
  cases h with
  | same h1 h2 => subst h1 h2; exact encField_le hsame _ _ _
  | single h1 h2 h3 h4 h5 h6 h7 =>
    rw [repeated_eq] at h5 h6
    unfold encField
    rw [hi, hi', Res.bind_ok, Res.bind_ok]
    cases h7 with
    | null k1 k2 =>
      rw [pointee_eq] at k1 k2
      rw [k1, k2, h1]
      exact .rfl
    | some k1 k2 k3 k4 =>
      rw [pointee_eq] at k1 k2
      rw [dflt_eq, dflt_eq] at k4
      rw [k1, k2, h1]
      simp only [k4]
      split
      · exact .rfl
      · rw [h5, h6]
        simp only [Bool.false_eq_true, if_false, writeField]
        rw [h1] at h4
        have ht : Γ.typ3 f.ty.deref { f'.opts with fnum := num } = Γ.typ3 f'.ty.deref { f'.opts with fnum := num } := h4
        rw [ht, h3]
        exact .bind .rfl fun _ => .bind (hrel _ _ _ _ _ _ k3) fun _ => .rfl
  | @list l l' e e' vs vs' h1 h2 h3 h4 h5 h6 h7 h8 h9 h10 h11 =>
    have hl : ListOf Γ l e := by
      rcases h5 with ⟨a, _⟩ | ⟨n, a, _⟩
      · exact .inl a
      · exact .inr ⟨n, a⟩
    have hl' : ListOf Γ l' e' := by
      rcases h5 with ⟨_, a⟩ | ⟨n, _, a⟩
      · exact .inl a
      · exact .inr ⟨n, a⟩
    have he := hie l e h3 hl
    have he' := hie' l' e' h4 hl'
    have hlen : vs.isEmpty = vs'.isEmpty := by cases h11 <;> rfl
    have hdf : isDefaultBase (Γ.shape l) (.list vs) = isDefaultBase (Γ.shape l') (.list vs') := by
      rcases h5 with ⟨a, b⟩ | ⟨n, a, b⟩ <;> rw [a, b] <;> simp [isDefaultBase, hlen]
    have ht : ∀ {f : Field} {l : TId} {e : Ty} (fo : FOpts), f.ty = .base l → ListOf Γ l e → repeated Γ f = true →
        Γ.typ3 e.deref fo = typ3ByteLength := by
      intro f l e fo hf hl hr
      unfold repeated at hr
      rw [hf] at hr
      have : lenKind Γ e.deref = true := by
        rcases hl with hl | ⟨n, hl⟩ <;> simp only [hl] at hr <;> exact hr
      unfold lenKind at this
      unfold Prog.typ3
      cases hs : Γ.shape e.deref <;> rw [hs] at this <;> simp at this ⊢
    have hel : (Γ.shape l).elem? = some e := by rcases hl with hl | ⟨n, hl⟩ <;> rw [hl] <;> rfl
    have hel' : (Γ.shape l').elem? = some e' := by rcases hl' with hl | ⟨n, hl⟩ <;> rw [hl] <;> rfl
    have ht1 := fun fo => ht fo h3 hl h6
    have ht2 := fun fo => ht fo h4 hl' h7
    unfold encField
    rw [hi, hi', Res.bind_ok, Res.bind_ok, ← repeated_eq, ← repeated_eq, h6, h7, h3, h4, h9, h10]
    simp only [derefVal, Ty.deref, hdf, h1, hel, hel', if_true, encList, he, he', Res.bind_ok, ht1, ht2, ne_eq, not_true,
      if_false]
    split
    · exact .rfl
    · refine .bind (encUnpacked_rel hrel ?_ h11) fun _ => .rfl
      rw [h1] at h8
      exact h8

end

/-- The codec can deal with the type of the field (and of its elements): interfaces are registered, floats tagged. -/
def Spec.FieldKnown (Γ : Prog) (c : Codec) (f : Field) : Prop :=
  getInfo Γ c f.ty.deref = .ok () ∧ ∀ l e, f.ty = .base l → ListOf Γ l e → getInfo Γ c e.deref = .ok ()

theorem encFields_rel {rec rec' : TId → Val → FOpts → Bool → Res Bytes}
    (hsame : ∀ id v fo b, (rec id v fo b).Le (rec' id v fo b))
    (hrel : ∀ id x rid r fo b, R id x rid r → (rec id x fo b).Le (rec' rid r fo b))
    {fs fs' : List Field} {vs vs' : List Val} (h : FieldsRel Γ R fs fs' vs vs') (hk : ∀ f ∈ fs, FieldKnown Γ c f)
    (hk' : ∀ f ∈ fs', FieldKnown Γ c f) (num : Nat) :
    (encFields Γ c rec num fs vs).Le (encFields Γ c rec' num fs' vs') := by
  induction h generalizing num with
  | nil => exact .rfl
  | @cons f f' v v' fs fs' vs vs' h _ ih =>
    have ih := ih (fun g hg => hk g (by simp [hg])) (fun g hg => hk' g (by simp [hg]))
    have hv : f.visible = f'.visible := by
      cases h with
      | same h _ => rw [h]
      | single _ h => exact h
      | list _ h => exact h
    simp only [encFields, hv]
    split
    · exact ih _
    · have a := hk f (by simp)
      have b := hk' f' (by simp)
      exact .bind (encField_rel hsame hrel a.1 b.1 a.2 b.2 h) fun _ => .bind (ih _) fun _ => .rfl

theorem enc_marsh {k : Nat} {id rid : TId} {x r : Val} {fo : FOpts} {bare : Bool} (h : Represents Γ id x rid r)
    (hi : getInfo Γ c rid = .ok ()) : enc Γ c (k + 1) id x fo bare = enc Γ c k rid r fo bare := by
  obtain ⟨m, hm, hr⟩ := h
  show encBody Γ c (enc Γ c k) k id x fo bare = _
  unfold encBody
  rw [hm]
  simp only [hr, hi, Res.bind_ok]

theorem marshalBare_fieldsLe {rec rec' : TId → Val → FOpts → Bool → Res Bytes} {k k' : Nat} {a b : TId} {fs fs' : List Field} {vs vs' : List Val}
    (hrec : rec = enc Γ c k) (hrec' : rec' = enc Γ c k')
    (ha : Γ.shape a = .struct fs) (hb : Γ.shape b = .struct fs') (hma : Γ.marsh a = none) (hmb : Γ.marsh b = none)
    (hia : getInfo Γ c a = .ok ()) (hib : getInfo Γ c b = .ok ()) (hp : prefixOf c a = prefixOf c b)
    (hl : (encFields Γ c rec 0 fs vs).Le (encFields Γ c rec' 0 fs' vs')) :
    (marshalBare Γ c (k + 1) (.base a) (.struct vs)).Le (marshalBare Γ c (k' + 1) (.base b) (.struct vs')) := by
  have hsr : ∀ {i fs}, Γ.shape i = .struct fs → Γ.structOrRep i = true := by
    intro i fs h; unfold Prog.structOrRep; rw [h]
  have key : ∀ {i fs vs k}, Γ.shape i = .struct fs → Γ.marsh i = none → getInfo Γ c i = .ok () →
      marshalBare Γ c (k + 1) (.base i) (.struct vs) =
        (encFields Γ c (enc Γ c k) 0 fs vs).bind fun bz => .ok (prefixOf c i ++ bz) := by
    intro i fs vs k h hm hi
    unfold marshalBare
    simp only [derefVal, Ty.deref, hi, Res.bind_ok, hsr h, Bool.not_true, Bool.false_eq_true, if_false]
    have : enc Γ c (k + 1) i (.struct vs) { fnum := 1 } true = (encFields Γ c (enc Γ c k) 0 fs vs).bind fun b => .ok b := by
      show encBody Γ c (enc Γ c k) k i (.struct vs) { fnum := 1 } true = _
      unfold encBody encShape
      rw [hm]
      simp only [h, framed, if_true]
    rw [this]
    unfold prefixOf
    cases encFields Γ c (enc Γ c k) 0 fs vs with
    | ok b => simp only [Res.bind_ok]; cases c.conc? i <;> rfl
    | _ => rfl
  rw [key ha hma hia, key hb hmb hib, hp]
  subst hrec hrec'
  exact .bind hl fun _ => .rfl

/-- C44: a struct with fields of types with MarshalAmino (by value, behind pointers, or as elements of repeated
lists) is encoded exactly as the struct with the representations in their place: same bytes, for all values, if the
representation type has the same wire type, the value is default (zero number, empty string, nil) exactly if its
representation is, and no list type itself has MarshalAmino.

Missing for the full statement: these conditions.  Without them it is false (`C44_default_refuted`,
`C44_list_refuted`, `C44_wireType_refuted`). -/
theorem C44_fields_partial {a b : TId} {fs fs' : List Field} {vs vs' : List Val}
    (ha : Γ.shape a = .struct fs) (hb : Γ.shape b = .struct fs') (hma : Γ.marsh a = none) (hmb : Γ.marsh b = none)
    (hia : getInfo Γ c a = .ok ()) (hib : getInfo Γ c b = .ok ()) (hp : prefixOf c a = prefixOf c b)
    (hk : ∀ f ∈ fs, FieldKnown Γ c f) (hk' : ∀ f ∈ fs', FieldKnown Γ c f)
    (hrid : ∀ id rid m, Γ.marsh id = some (rid, m) → getInfo Γ c rid = .ok ())
    (h : FieldsRel Γ (Represents Γ) fs fs' vs vs') (bz : Bytes) :
    (∃ k, marshalBare Γ c k (.base a) (.struct vs) = .ok bz) ↔ (∃ k, marshalBare Γ c k (.base b) (.struct vs') = .ok bz) := by
  have h0 : ∀ {i fs vs}, Γ.shape i = .struct fs → getInfo Γ c i = .ok () →
      marshalBare Γ c 0 (.base i) (.struct vs) ≠ .ok bz := by
    intro i fs vs hs hi
    have : Γ.structOrRep i = true := by unfold Prog.structOrRep; rw [hs]
    unfold marshalBare
    simp [derefVal, Ty.deref, hi, this, enc]
  constructor
  · rintro ⟨k, hm⟩
    cases k with
    | zero => exact absurd hm (h0 ha hia)
    | succ k =>
      have := marshalBare_fieldsLe (k := k) (k' := k) rfl rfl ha hb hma hmb hia hib hp
        (encFields_rel (fun _ _ _ _ => .rfl) (by
          intro id x rid r fo bare hr
          cases k with
          | zero => exact .inl rfl
          | succ k =>
            have hr' := hr
            obtain ⟨m, hm, _⟩ := hr'
            rw [enc_marsh hr (hrid _ _ _ hm)]
            exact enc_le_succ _ _ _ _ _ _ _) h hk hk' 0)
      rcases this with h' | h'
      · rw [h'] at hm; cases hm
      · exact ⟨_, h'.trans hm⟩
  · rintro ⟨k, hm⟩
    cases k with
    | zero => exact absurd hm (h0 hb hib)
    | succ k =>
      have := marshalBare_fieldsLe (k := k) (k' := k + 1) rfl rfl hb ha hmb hma hib hia hp.symm
        (encFields_rel (fun _ _ _ _ => enc_le_succ _ _ _ _ _ _ _) (by
          intro rid r id x fo bare hr
          have hr' := hr
          obtain ⟨m, hm, _⟩ := hr'
          rw [enc_marsh hr (hrid _ _ _ hm)]
          exact .rfl) h.flip hk' hk 0)
      rcases this with h' | h'
      · rw [h'] at hm; cases hm
      · exact ⟨_, h'.trans hm⟩

/-- C44 at the top level: MarshalBinaryBare writes the prefix bytes of the type (if registered) and then what it
writes for the representation, if both or neither are structs (or lists of structs) and the wire types agree. -/
theorem C44_marshal_partial {id rid : TId} {x r : Val} (hr : Represents Γ id x rid r) (hi : getInfo Γ c id = .ok ())
    (hir : getInfo Γ c rid = .ok ()) (hc : c.conc? rid = none) (hs : Γ.structOrRep id = Γ.structOrRep rid)
    (ht : Γ.typ3 id {} = Γ.typ3 rid {}) (k : Nat) :
    marshalBare Γ c (k + 1) (.base id) x =
      (marshalBare Γ c k (.base rid) r).bind fun bz => .ok (prefixOf c id ++ bz) := by
  unfold marshalBare
  simp only [derefVal, Ty.deref, hi, hir, Res.bind_ok, hs, hc, writeField, ht, enc_marsh hr hir]
  have : ∀ q : Res Bytes, (q.bind fun bz => match c.conc? id with | some ci => .ok (ci.prefx ++ bz) | none => .ok bz) =
      (q.bind fun bz => Res.ok bz).bind fun bz => .ok (prefixOf c id ++ bz) := by
    intro q
    unfold prefixOf
    cases q <;> simp only [Res.bind] <;> cases c.conc? id <;> rfl
  exact this _

/-- C44 at the top level: UnmarshalBinaryBare accepts what it accepts for the representation (after the prefix bytes
of the type), and calls UnmarshalAmino with the result, under the same conditions. -/
theorem C44_unmarshal_partial {id rid : TId} {um : Val → Val → Res Val} (hu : Γ.unmarsh id = some (rid, um))
    (hi : getInfo Γ c id = .ok ()) (hir : getInfo Γ c rid = .ok ()) (hc : c.conc? rid = none) (hp4 : Prefix4 c)
    (hs : Γ.structOrRep id = Γ.structOrRep rid) (ht : Γ.typ3 id {} = Γ.typ3 rid {})
    (hni : Γ.isIface id = false) (hnr : Γ.isIface rid = false) (hki : Γ.isKnown id = true) (hkr : Γ.isKnown rid = true)
    (p : Val) (b : Bytes) (w : Val) (g : Nat) :
    unmarshalBare Γ c (g + 1) (.base id) p (prefixOf c id ++ b) = .ok w ↔
      ∃ r, unmarshalBare Γ c g (.base rid) (Γ.zero rid) b = .ok r ∧ um p r = .ok w := by
  have hD : ∀ bare bz, decodeAll Γ c (g + 1) (.base id) p bare bz = .ok w ↔
      ∃ r, decodeAll Γ c g (.base rid) (Γ.zero rid) bare bz = .ok r ∧ um p r = .ok w := by
    intro bare bz
    unfold decodeAll
    have : dec Γ c (g + 1) (.base id) p { fnum := 1 } bare bz =
        (dec Γ c g (.base rid) (Γ.zero rid) { fnum := 1 } bare bz).andSlide bz 0 fun r _ n =>
          match um p r with
          | .ok v => .ok n v
          | .err e => .err n e
          | .panic p => .panic p
          | .oof => .oof := by
      show decBody Γ c (dec Γ c g) (.base id) p { fnum := 1 } bare bz = _
      unfold decBody
      simp only [Ty.isPtr, Bool.false_and, Bool.false_eq_true, if_false, Ty.deref, hu, infoThen, hir, Prog.derefPrior]
      generalize (dec Γ c g (.base rid) (Γ.zero rid) { fnum := 1 } bare bz).andSlide bz 0 (fun r _ n =>
          match um p r with
          | .ok v => DRes.ok n v
          | .err e => .err n e
          | .panic p => .panic p
          | .oof => .oof) = q
      cases q <;> rfl
    rw [this]
    cases hd : dec Γ c g (.base rid) (Γ.zero rid) { fnum := 1 } bare bz with
    | ok n r =>
      simp only [DRes.andSlide]
      by_cases hn : n ≤ bz.length
      · rw [if_pos hn]
        cases hup : um p r with
        | ok v =>
          simp only [Nat.zero_add]
          by_cases hne : n ≠ bz.length
          · rw [if_pos hne, if_pos hne]; simp
          · rw [if_neg hne, if_neg hne]; simp [hup]
        | err e => simp; intro r' h'; split at h' <;> simp at h'; subst h'; simp [hup]
        | panic e => simp; intro r' h'; split at h' <;> simp at h'; subst h'; simp [hup]
        | oof => simp; intro r' h'; split at h' <;> simp at h'; subst h'; simp [hup]
      · rw [if_neg hn]
        have : n ≠ bz.length := by omega
        rw [if_pos this]
        simp
    | err n e =>
      simp only [DRes.andSlide]
      by_cases hn : n ≤ bz.length
      · simp [hn]
      · simp [hn]
    | panic e => simp [DRes.andSlide]
    | oof => simp [DRes.andSlide]
  have hsr : ∀ bz, stripPrefix c rid bz = .ok bz := by intro bz; unfold stripPrefix; rw [hc]
  unfold unmarshalBare
  rw [show (Ty.base id).deref = id from rfl, show (Ty.base rid).deref = rid from rfl, hi, hir, Res.bind_ok, Res.bind_ok,
    stripPrefix_prefixOf hp4, hsr, Res.bind_ok, Res.bind_ok]
  unfold unmarshalContents
  rw [show (Ty.base id).deref = id from rfl, show (Ty.base rid).deref = rid from rfl, hs]
  cases Γ.structOrRep rid with
  | true => simp only [if_true]; exact hD _ _
  | false =>
    simp only [Bool.false_eq_true, if_false, ptrToListPanics, Ty.isPtr, Bool.false_and, hni, hnr, hki, hkr, Bool.and_false,
      Bool.not_false, Bool.and_true, ht]
    split
    · split
      · simp
      · simp
      · simp
      · split
        · simp
        · split
          · simp
          · split
            · exact hD _ _
            · simp
    · exact hD _ _

namespace Demo

/-- With types that have MarshalAmino and UnmarshalAmino:
```
type Name  struct { s string }     // id 40, represented by the string
type A     struct { N Name; X int64; P *Name; L []Name }     // 41
type B     struct { N string; X int64; P *string; L []string } // 42
type Temp  int64                   // id 43, represented by int64(t) + 1
type Path  []string                // id 44, represented by the string of the first element
type Stamp struct { n int64 }      // id 45, represented by the int64
type C     struct { T Temp };  type D struct { T int64 }     // 46, 47
type E     struct { P Path }                                 // 48
type F     struct { S Stamp }                                // 49
```
and `[]Name` (50). -/
def repProg : Prog := { prog with
  shape := fun id => match id with
    | 40 => .struct [{ ty := .base stringT, visible := false }]
    | 41 => .struct [{ ty := .base 40 }, { ty := .base int64T }, { ty := .ptr (.base 40) }, { ty := .base 50 }]
    | 42 => .struct [{ ty := .base stringT }, { ty := .base int64T }, { ty := .ptr (.base stringT) }, { ty := .base stringsT }]
    | 43 => .int .int64
    | 44 => .slice (.base stringT)
    | 45 => .struct [{ ty := .base int64T, visible := false }]
    | 46 => .struct [{ ty := .base 43 }]
    | 47 => .struct [{ ty := .base int64T }]
    | 48 => .struct [{ ty := .base 44 }]
    | 49 => .struct [{ ty := .base 45 }]
    | 50 => .slice (.base 40)
    | _ => shape id
  zero := fun id => match id with
    | 40 => .struct [.str []]
    | 41 => .struct [.struct [.str []], .int 0, .nil, .nil]
    | 42 => .struct [.str [], .int 0, .nil, .nil]
    | 43 => .int 0
    | 44 => .nil
    | 45 => .struct [.int 0]
    | 46 | 47 => .struct [.int 0]
    | 48 => .struct [.nil]
    | 49 => .struct [.struct [.int 0]]
    | 50 => .nil
    | _ => zero id
  marsh := fun id => match id with
    | 40 => some (stringT, fun v => match v with | .struct [.str s] => .ok (.str s) | _ => .panic .illTyped)
    | 43 => some (int64T, fun v => match v with | .int i => .ok (.int (i + 1)) | _ => .panic .illTyped)
    | 44 => some (stringT, fun v => match v with
        | .list (.str s :: _) => .ok (.str s) | .nil => .ok (.str []) | _ => .panic .illTyped)
    | 45 => some (int64T, fun v => match v with | .struct [.int i] => .ok (.int i) | _ => .panic .illTyped)
    | _ => none
  unmarsh := fun id => match id with
    | 40 => some (stringT, fun _ r => .ok (.struct [r]))
    | 43 => some (int64T, fun _ r => match r with | .int i => .ok (.int (i - 1)) | _ => .panic .illTyped)
    | 44 => some (stringT, fun _ r => .ok (.list [r]))
    | 45 => some (int64T, fun _ r => .ok (.struct [r]))
    | _ => none }

end Demo

/-- A: `A{Name{"h"}, 7, &Name{"i"}, []Name{{"j"}}}` is written as `B{"h", 7, &"i", []string{"j"}}`. -/
example (bz : Bytes) :
    (∃ k, marshalBare Demo.repProg Demo.codecFoo k (.base 41)
      (.struct [.struct [.str [104]], .int 7, .ptr (.struct [.str [105]]), .list [.struct [.str [106]]]]) = .ok bz) ↔
    (∃ k, marshalBare Demo.repProg Demo.codecFoo k (.base 42)
      (.struct [.str [104], .int 7, .ptr (.str [105]), .list [.str [106]]]) = .ok bz) := by
  have hkn : ∀ i, i = 41 ∨ i = 42 → ∀ fs, Demo.repProg.shape i = .struct fs → ∀ f ∈ fs, FieldKnown Demo.repProg Demo.codecFoo f := by
    intro i hi fs hs f hf
    have key : ∀ l e, ListOf Demo.repProg l e → (l = 40 ∨ l = 50 ∨ l = 1 ∨ l = 2 ∨ l = 22) →
        getInfo Demo.repProg Demo.codecFoo e.deref = .ok () := by
      intro l e hl h
      rcases h with rfl | rfl | rfl | rfl | rfl <;> rcases hl with hl | ⟨n, hl⟩ <;> cases hl <;> rfl
    rcases hi with rfl | rfl <;> cases hs <;> simp only [List.mem_cons, List.not_mem_nil, or_false] at hf <;>
      rcases hf with rfl | rfl | rfl | rfl
    all_goals
      refine ⟨rfl, ?_⟩
      intro l e hl h
      cases hl
      try exact key _ _ h (by decide)
  refine C44_fields_partial (a := 41) (b := 42) rfl rfl rfl rfl rfl rfl rfl (hkn 41 (.inl rfl) _ rfl) (hkn 42 (.inr rfl) _ rfl) ?_ ?_ bz
  · intro id rid m h
    simp only [Demo.repProg] at h
    split at h <;> first | (cases h; rfl) | cases h
  · refine .cons (.single rfl rfl rfl rfl rfl rfl (.some rfl rfl ⟨_, rfl, rfl⟩ rfl)) ?_
    refine .cons (.same rfl rfl) ?_
    refine .cons (.single rfl rfl rfl rfl rfl rfl (.some rfl rfl ⟨_, rfl, rfl⟩ rfl)) ?_
    refine .cons (.list rfl rfl rfl rfl (.inl ⟨rfl, rfl⟩) rfl rfl rfl rfl rfl ?_) .nil
    exact .cons (.some rfl rfl ⟨_, rfl, rfl⟩ rfl) .nil

/-- `Temp(4)` at the top level is written as `int64(5)`. -/
example : marshalBare Demo.repProg Demo.codecFoo 6 (.base 43) (.int 4) =
    (marshalBare Demo.repProg Demo.codecFoo 5 (.base Demo.int64T) (.int 5)).bind fun bz => .ok ([] ++ bz) :=
  C44_marshal_partial (Γ := Demo.repProg) (c := Demo.codecFoo) (id := 43) (rid := Demo.int64T) (x := .int 4) (r := .int 5) ⟨_, rfl, rfl⟩ rfl rfl rfl rfl rfl 5

example : unmarshalBare Demo.repProg Demo.codecFoo 6 (.base 43) (.int 0) [8, 5] = .ok (.int 4) :=
  (C44_unmarshal_partial (Γ := Demo.repProg) (c := Demo.codecFoo) (id := 43) (rid := Demo.int64T) rfl rfl rfl rfl
    Demo.prefix4_foo rfl rfl rfl rfl rfl rfl (.int 0) [8, 5] (.int 4) 5).mpr ⟨.int 5, by decide +kernel, rfl⟩

/-- C44 is false for a default value with a non-default representation: `C{Temp(0)}` is written as nothing, although
`Temp(0)` is represented by 1 and `D{1}` is written as `08 01`. -/
theorem C44_default_refuted :
    marshalBare Demo.repProg Demo.codecFoo 9 (.base 46) (.struct [.int 0]) = .ok [] ∧
    marshalBare Demo.repProg Demo.codecFoo 9 (.base 47) (.struct [.int 1]) = .ok [8, 1] := by
  decide +kernel

/-- C44 is false for a list type with MarshalAmino in a field: the encoder ignores MarshalAmino, the decoder uses
UnmarshalAmino, and what was written cannot be read. -/
theorem C44_list_refuted :
    marshalBare Demo.repProg Demo.codecFoo 9 (.base 48) (.struct [.list [.str [104], .str [105]]]) = .ok [10, 1, 104, 10, 1, 105] ∧
    unmarshalBare Demo.repProg Demo.codecFoo 9 (.base 48) (.struct [.nil]) [10, 1, 104, 10, 1, 105] = .err .insufficient := by
  decide +kernel

/-- C44 is false if the representation has another wire type: `F{Stamp{7}}` is written with a key announcing a
length-delimited value of 7 bytes, where 7 is the value; and `Stamp{7}` at the top level has no key, unlike
`int64(7)`. -/
theorem C44_wireType_refuted :
    marshalBare Demo.repProg Demo.codecFoo 9 (.base 49) (.struct [.struct [.int 7]]) = .ok [10, 7] ∧
    marshalBare Demo.repProg Demo.codecFoo 9 (.base 47) (.struct [.int 7]) = .ok [8, 7] ∧
    marshalBare Demo.repProg Demo.codecFoo 9 (.base 45) (.struct [.int 7]) = .ok [7] ∧
    marshalBare Demo.repProg Demo.codecFoo 9 (.base Demo.int64T) (.int 7) = .ok [8, 7] := by
  decide +kernel

end Amino
