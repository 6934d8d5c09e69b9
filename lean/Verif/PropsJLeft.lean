import Verif.JLeftover
import Verif.PropsJStale
import Verif.JDemo

/-! # Property C93: the variable after a failed UnmarshalJSON -/

namespace Amino
open Spec

namespace Spec

/-- Structs and arrays in `v` have as many components as the type `t` has, as far as UnmarshalJSON looks. -/
inductive Fits (Γ : Prog) (J : JLib) : Ty → Val → Prop
  | nil {t : Ty} : Fits Γ J (.ptr t) .nil
  | ptr {t : Ty} {v : Val} : Fits Γ J t v → Fits Γ J (.ptr t) (.ptr v)
  | method {id : TId} {v : Val} : J.unmarsh id ≠ none ∨ Γ.unmarsh id ≠ none → Fits Γ J (.base id) v
  | leaf {id : TId} {v : Val} : (∀ fs, Γ.shape id ≠ .struct fs) →
      (∀ n e, Γ.shape id = .array n e → Γ.isByteKind e = true) → Fits Γ J (.base id) v
  | array {id : TId} {n : Nat} {e : Ty} {vs : List Val} : Γ.shape id = .array n e → Γ.isByteKind e = false → vs.length = n →
      (∀ v ∈ vs, Fits Γ J e v) → Fits Γ J (.base id) (.list vs)
  | struct {id : TId} {fs : List Field} {vs : List Val} : Γ.shape id = .struct fs → vs.length = fs.length →
      (∀ q ∈ fs.zip vs, Fits Γ J q.1.ty q.2) → Fits Γ J (.base id) (.struct vs)

/-- Types that UnmarshalJSON can overwrite in any state: every field is encoded and none is tagged `omitempty`
(except inside slices, maps and interfaces, which are built anew), and UnmarshalJSON and UnmarshalAmino methods
ignore the old contents of the receiver.  If `nul`, also kinds of which `null` in odd places can leave the old contents are
excluded. -/
structure JReusable (Γ : Prog) (J : JLib) (nul : Bool) (S : TId → Prop) : Prop where
  null : ∀ {id}, S id → J.unmarsh id = none → Γ.unmarsh id = none → nul = true → keptByNull Γ (Γ.shape id) = false
  array : ∀ {id n e}, S id → Γ.shape id = .array n e → Γ.isByteKind e = false → S e.deref
  struct : ∀ {id fs}, S id → J.unmarsh id = none → Γ.unmarsh id = none → Γ.shape id = .struct fs → ∀ f ∈ fs, f.visible = true ∧ f.opts.omitEmpty = false ∧ S f.ty.deref
  time : ∀ {id}, S id → Γ.shape id = .time → J.unmarsh id = none ∧ Γ.unmarsh id = none
  method : ∀ {id um}, S id → J.unmarsh id = some um → ∀ p p' b, um p b = um p' b
  unmarsh : ∀ {id rid um}, S id → Γ.unmarsh id = some (rid, um) → ∀ p p' r, um p r = um p' r

end Spec

variable {Γ : Prog} {c : Codec} {J : JLib} {S : TId → Prop} {spoil : TId → Val → Bytes → Val} {nul : Bool}

theorem fits_of_hasTy {t : Ty} {v : Val} (h : HasTy Γ t v) : Fits Γ J t v := by
  induction h with
  | ptrNil => exact .nil
  | ptr _ ih => exact .ptr ih
  | arrayBytes hs hb => exact .leaf (by simp [hs]) (by intro n e he; rw [hs] at he; cases he; exact hb)
  | array hs hb hl _ ih => exact .array hs hb hl ih
  | struct hs hl _ ih => exact .struct hs hl.symm ih
  | _ => exact .leaf (by simp_all) (by simp_all)

theorem fits_zeroTy (hz : ∀ id, Fits Γ J (.base id) (Γ.zero id)) (t : Ty) : Fits Γ J t (Γ.zeroTy t) := by
  cases t with
  | base id => exact hz id
  | ptr t => exact .nil

theorem fits_derefPrior (hz : ∀ id, Fits Γ J (.base id) (Γ.zero id)) {t : Ty} {v : Val} (h : Fits Γ J t v) :
    Fits Γ J (.base t.deref) (Γ.derefPrior t v) := by
  induction t generalizing v with
  | base id => exact h
  | ptr t ih =>
    rw [derefPrior_target]
    cases h with
    | nil => exact ih (fits_zeroTy hz t)
    | ptr h => exact ih h

/-! ## Contents of a reusable type do not matter -/

def FitBlind (Γ : Prog) (J : JLib) (nul : Bool) (S : TId → Prop) (rec : Ty → Val → FOpts → Bytes → Res Val) : Prop :=
  ∀ {t p p'} fo b, (nul = false → MemberNulls b) → S t.deref → Fits Γ J t p → Fits Γ J t p' → rec t p fo b = rec t p' fo b

section
variable {rec : Ty → Val → FOpts → Bytes → Res Val}

theorem jdecArr_fits (hb : FitBlind Γ J nul S rec) {e : Ty} (he : S e.deref) (fo : FOpts) : ∀ (ps ps' : List Val) (bs : List Bytes),
    ps.length = ps'.length → (nul = false → ∀ b ∈ bs, MemberNulls b) → (∀ v ∈ ps, Fits Γ J e v) → (∀ v ∈ ps', Fits Γ J e v) →
    jdecArr rec e fo ps bs = jdecArr rec e fo ps' bs
  | [], [], _, _, _, _, _ => rfl
  | [], _ :: _, _, h, _, _, _ => by simp at h
  | _ :: _, [], _, h, _, _, _ => by simp at h
  | _ :: _, _ :: _, [], _, _, _, _ => rfl
  | p :: ps, p' :: ps', b :: bs, h, hn, hp, hp' => by
    simp only [List.mem_cons, forall_eq_or_imp] at hp hp'
    rw [jdecArr, jdecArr, hb fo b (fun h => hn h b (by simp)) he hp.1 hp'.1,
      jdecArr_fits hb he fo ps ps' bs (by simpa using h) (fun h b hm => hn h b (by simp [hm])) hp.2 hp'.2]

theorem jdecFields_fits (hb : FitBlind Γ J nul S rec) (fo : FOpts) (m : List (Bytes × Bytes))
    (hm : nul = false → ∀ q ∈ m, MemberNulls q.2) : ∀ (fs : List Field) (ps ps' : List Val), ps.length = fs.length →
    ps'.length = fs.length →
    (∀ f ∈ fs, f.visible = true ∧ f.opts.omitEmpty = false ∧ S f.ty.deref) →
    (∀ q ∈ fs.zip ps, Fits Γ J q.1.ty q.2) → (∀ q ∈ fs.zip ps', Fits Γ J q.1.ty q.2) →
    jdecFields Γ c rec fo m fs ps = jdecFields Γ c rec fo m fs ps'
  | [], [], [], _, _, _, _, _ => rfl
  | [], _ :: _, _, h, _, _, _, _ => by simp at h
  | [], _, _ :: _, _, h, _, _, _ => by simp at h
  | _ :: _, [], _, h, _, _, _, _ => by simp at h
  | _ :: _, _, [], _, h, _, _, _ => by simp at h
  | f :: fs, p :: ps, p' :: ps', h, h', hf, hp, hp' => by
    simp only [List.zip_cons_cons, List.mem_cons, forall_eq_or_imp] at hf hp hp'
    obtain ⟨⟨hv, ho, hs⟩, hf⟩ := hf
    have hd : jdecField Γ rec fo m f p = jdecField Γ rec fo m f p' := by
      unfold jdecField
      cases hx : m.lookup f.opts.jsonName with
      | none => simp only [ho, Bool.false_eq_true, if_false]
      | some b =>
        simp only [ho, Bool.false_eq_true, if_false, hb fo b (fun h => hm h _ (mem_of_lookup hx)) hs hp.1 hp'.1]
    rw [jdecFields, jdecFields, if_pos hv, if_pos hv, hd,
      jdecFields_fits hb fo m hm fs ps ps' (by simpa using h) (by simpa using h') hf hp.2 hp'.2]

end

theorem jdec_fitBlind (hz : ∀ id, Fits Γ J (.base id) (Γ.zero id)) (hR : JReusable Γ J nul S) (g : Nat) :
    FitBlind Γ J nul S (jdec Γ c J g) := by
  induction g with
  | zero => intro t p p' fo b _ _ _ _; rfl
  | succ g ih =>
    intro t p p' fo b hn ht hp hp'
    have hp := fits_derefPrior hz hp
    have hp' := fits_derefPrior hz hp'
    rw [jdec, jdec]
    split
    · rfl
    split
    · rfl
    rename_i hnull
    suffices hh : jdecBase Γ c J (jdec Γ c J g) t.deref (Γ.derefPrior t p) fo b =
        jdecBase Γ c J (jdec Γ c J g) t.deref (Γ.derefPrior t p') fo b by rw [hh]
    generalize Γ.derefPrior t p = q at hp ⊢
    generalize Γ.derefPrior t p' = q' at hp' ⊢
    generalize t.deref = id at hp hp' ht ⊢
    unfold jdecBase
    have hsh : J.unmarsh id = none → Γ.unmarsh id = none →
        jdecShape Γ c J (jdec Γ c J g) id q fo b = jdecShape Γ c J (jdec Γ c J g) id q' fo b := by
      intro hj hu
      have hm : ¬ (J.unmarsh id ≠ none ∨ Γ.unmarsh id ≠ none) := by simp [hj, hu]
      cases hp with
      | method h => exact absurd h hm
      | leaf hs ha =>
        exact jdecShape_leaf hs ha (hR.null ht hj hu) hn _ _ _
      | array hs hb hl hv =>
        cases hp' with
        | method h => exact absurd h hm
        | leaf _ ha => rw [ha _ _ hs] at hb; cases hb
        | array hs' _ hl' hv' =>
          rw [hs] at hs'; cases hs'
          simp only [jdecShape, hs]
          split
          · rfl
          congr 1; funext _
          cases hx : unmRaws b with
          | none => rfl
          | some raws =>
            simp only [ofOpt, Res.bind_ok,
              jdecArr_fits ih (hR.array ht hs hb) fo _ _ raws (hl.trans hl'.symm) (parts_raws hn hx) hv hv']
        | struct hs' => rw [hs] at hs'; cases hs'
      | struct hs hl hv =>
        cases hp' with
        | method h => exact absurd h hm
        | leaf hs' _ => exact absurd hs (hs' _)
        | array hs' => rw [hs] at hs'; cases hs'
        | struct hs' hl' hv' =>
          rw [hs] at hs'; cases hs'
          simp only [jdecShape, hs]
          cases hx : unmRawMap b with
          | none => rfl
          | some m =>
            simp only [ofOpt, Res.bind_ok, jdecFields_fits ih fo m (parts_map hn hx) _ _ _ hl hl' (hR.struct ht hj hu hs) hv hv']
    by_cases htm : Γ.shape id = .time
    · rw [if_pos htm, if_pos htm]
      exact hsh (hR.time ht htm).1 (hR.time ht htm).2
    · rw [if_neg htm, if_neg htm]
      cases hj : J.unmarsh id with
      | some um => exact hR.method ht hj _ _ _
      | none =>
        cases hu : Γ.unmarsh id with
        | none => exact hsh hj hu
        | some w => obtain ⟨rid, um⟩ := w; simp only [hR.unmarsh ht hu q q']

/-! ## After success the variable holds the result -/

section
variable {rec : Ty → Val → FOpts → Bytes → Res Val} {lft : Ty → Val → FOpts → Bytes → Val}

theorem jleftArr_ok {e : Ty} {fo : FOpts} : ∀ {ps vs : List Val} {bs : List Bytes}, jdecArr rec e fo ps bs = .ok vs →
    jleftArr rec lft e fo ps bs = vs
  | [], vs, bs, h => by
    unfold jdecArr at h
    cases h
    unfold jleftArr
    rfl
  | p :: ps, vs, [], h => by
    unfold jdecArr at h
    cases h
    rfl
  | p :: ps, vs, b :: bs, h => by
    unfold jdecArr at h
    obtain ⟨v, hv, h⟩ := Res.bind_eq_ok h
    obtain ⟨ws, hw, h⟩ := Res.bind_eq_ok h
    cases h
    unfold jleftArr
    simp only [hv, jleftArr_ok hw]

theorem jleftFields_ok {fo : FOpts} {m : List (Bytes × Bytes)} : ∀ {fs : List Field} {ps vs : List Val},
    jdecFields Γ c rec fo m fs ps = .ok vs → jleftFields Γ c rec lft fo m fs ps = vs
  | [], [], vs, h => by
    unfold jdecFields at h
    cases h
    rfl
  | [], p :: ps, vs, h => by simp [jdecFields] at h
  | f :: fs, [], vs, h => by simp [jdecFields] at h
  | f :: fs, p :: ps, vs, h => by
    unfold jdecFields at h
    unfold jleftFields
    split at h
    · rename_i hv
      obtain ⟨_, hi, h⟩ := Res.bind_eq_ok h
      obtain ⟨v, hd, h⟩ := Res.bind_eq_ok h
      obtain ⟨ws, hw, h⟩ := Res.bind_eq_ok h
      cases h
      rw [if_pos hv]
      simp only [hi, hd, jleftFields_ok hw]
    · rename_i hv
      obtain ⟨ws, hw, h⟩ := Res.bind_eq_ok h
      cases h
      rw [if_neg hv, jleftFields_ok hw]

theorem ofOpt_ok {α : Type} {e : Err} {o : Option α} {a : α} (h : ofOpt e o = .ok a) : o = some a := by
  cases o with
  | none => cases h
  | some b => cases h; rfl

theorem jleftShape_ok {id : TId} {prior : Val} {fo : FOpts} {bz : Bytes} {v : Val} (h : jdecShape Γ c J rec id prior fo bz = .ok v) :
    jleftShape Γ c J spoil rec lft id prior fo bz = v := by
  unfold jleftShape
  split
  · rename_i hs
    unfold jdecShape at h
    simp only [hs] at h
    unfold jdecIface at h
    obtain ⟨nd, hnd, h⟩ := Res.bind_eq_ok h
    unfold jleftIface
    simp only [hnd]
    split at h
    · cases h
    rename_i ci hci
    simp only [hci]
    split at h
    · rename_i w hr
      simp only [hr]
      split at h
      · rename_i hi; cases h; rw [if_pos hi]
      · cases h
    · split at h <;> cases h
    · cases h
    · cases h
  · rename_i n e hs
    unfold jdecShape at h
    simp only [hs] at h
    split at h
    · rename_i hb
      rw [if_pos hb]
      simp only [h]
    · rename_i hb
      rw [if_neg hb]
      obtain ⟨_, hi, h⟩ := Res.bind_eq_ok h
      obtain ⟨raws, hr, h⟩ := Res.bind_eq_ok h
      simp only [hi, ofOpt_ok hr]
      split at h
      · cases h
      rename_i hl
      rw [if_neg hl]
      split at h
      · obtain ⟨ws, hw, h⟩ := Res.bind_eq_ok h
        cases h
        simp only [jleftArr_ok hw]
      · cases h
  · simp only [h]
  · rename_i fs hs
    unfold jdecShape at h
    simp only [hs] at h
    obtain ⟨m, hm, h⟩ := Res.bind_eq_ok h
    simp only [ofOpt_ok hm]
    split at h
    · obtain ⟨ws, hw, h⟩ := Res.bind_eq_ok h
      cases h
      simp only [jleftFields_ok hw]
    · cases h
  · simp only [h]
  · simp only [h]

theorem jleftBase_ok {id : TId} {prior : Val} {fo : FOpts} {bz : Bytes} {v : Val} (h : jdecBase Γ c J rec id prior fo bz = .ok v) :
    jleftBase Γ c J spoil rec lft id prior fo bz = v := by
  unfold jdecBase at h
  unfold jleftBase
  split at h
  · rename_i ht; rw [if_pos ht]; exact jleftShape_ok h
  rename_i ht
  rw [if_neg ht]
  split at h
  · rename_i um hj; rw [hj]; simp only [h]
  rename_i hj
  rw [hj]
  dsimp only
  split at h
  · rename_i rid um hu
    rw [hu]
    obtain ⟨_, hi, h⟩ := Res.bind_eq_ok h
    obtain ⟨r, hr, h⟩ := Res.bind_eq_ok h
    simp only [hi, hr, h]
  · rename_i hu
    rw [hu]
    exact jleftShape_ok h

end

theorem jleft_ok {f : Nat} {t : Ty} {prior : Val} {fo : FOpts} {bz : Bytes} {v : Val} (h : jdec Γ c J f t prior fo bz = .ok v) :
    jleft Γ c J spoil f t prior fo bz = v := by
  cases f with
  | zero => cases h
  | succ f =>
    unfold jdec at h
    unfold jleft
    split at h
    · cases h
    rename_i h1
    rw [if_neg h1]
    split at h
    · rename_i h2; rw [if_pos h2]; cases h; rfl
    rename_i h2
    rw [if_neg h2]
    obtain ⟨w, hw, h⟩ := Res.bind_eq_ok h
    cases h
    rw [jleftBase_ok hw]

/-- C93: after a successful call the variable holds the decoded value. -/
theorem C93_success {t : Ty} {p v : Val} {f : Nat} {bz : Bytes} (h : unmarshalJSON Γ c J f t p bz = .ok v) :
    leftJSON Γ c J spoil f t p bz = v := by
  unfold unmarshalJSON at h
  unfold leftJSON
  split at h
  · cases h
  rename_i h0
  rw [if_neg h0]
  obtain ⟨_, hi, h⟩ := Res.bind_eq_ok h
  simp only [hi]
  cases hc : c.conc? t.deref with
  | some ci =>
    simp only [hc] at h
    obtain ⟨nd, hnd, h⟩ := Res.bind_eq_ok h
    simp only [hnd]
    split at h
    · cases h
    rename_i hn
    rw [if_neg hn]
    exact jleft_ok h
  | none =>
    simp only [hc] at h
    exact jleft_ok h

/-! ## The contents keep their form -/

def LftFits (Γ : Prog) (J : JLib) (lft : Ty → Val → FOpts → Bytes → Val) : Prop :=
  ∀ {t p} fo b, Fits Γ J t p → Fits Γ J t (lft t p fo b)

section
variable {rec : Ty → Val → FOpts → Bytes → Res Val} {lft : Ty → Val → FOpts → Bytes → Val}
  (hz : ∀ id, Fits Γ J (.base id) (Γ.zero id)) (hl : LftFits Γ J lft)
  (hr : ∀ {t p fo b v}, rec t p fo b = .ok v → lft t p fo b = v)
include hl hr

theorem jleftArr_fits {e : Ty} {fo : FOpts} : ∀ (ps : List Val) (bs : List Bytes), ps.length = bs.length →
    (∀ p ∈ ps, Fits Γ J e p) → (jleftArr rec lft e fo ps bs).length = ps.length ∧
      ∀ v ∈ jleftArr rec lft e fo ps bs, Fits Γ J e v
  | [], bs, _, _ => by
    unfold jleftArr
    simp
  | p :: ps, [], h, _ => by simp at h
  | p :: ps, b :: bs, h, hp => by
    simp only [List.mem_cons, forall_eq_or_imp] at hp
    unfold jleftArr
    split
    · rename_i v hv
      have ih := jleftArr_fits (fo := fo) ps bs (by simpa using h) hp.2
      simp only [List.length_cons, List.mem_cons, forall_eq_or_imp]
      exact ⟨by rw [ih.1], hr hv ▸ hl fo b hp.1, ih.2⟩
    · simp only [List.length_cons, List.mem_cons, forall_eq_or_imp]
      exact ⟨trivial, hl fo b hp.1, hp.2⟩

include hz
theorem jdecField_fits {fo : FOpts} {m : List (Bytes × Bytes)} {f : Field} {p v : Val} (hp : Fits Γ J f.ty p)
    (h : jdecField Γ rec fo m f p = .ok v) : Fits Γ J f.ty v := by
  have hd : Fits Γ J f.ty (if f.opts.omitEmpty = true then p else Γ.zeroTy f.ty) := by
    split
    · exact hp
    · exact fits_zeroTy hz _
  unfold jdecField at h
  split at h
  · cases h; exact hd
  · split at h
    · cases h; exact hd
    · exact hr h ▸ hl fo _ hp

theorem jleftFields_fits {fo : FOpts} {m : List (Bytes × Bytes)} : ∀ (fs : List Field) (ps : List Val), ps.length = fs.length →
    (∀ q ∈ fs.zip ps, Fits Γ J q.1.ty q.2) → (jleftFields Γ c rec lft fo m fs ps).length = fs.length ∧
      ∀ q ∈ fs.zip (jleftFields Γ c rec lft fo m fs ps), Fits Γ J q.1.ty q.2
  | [], [], _, _ => by simp [jleftFields]
  | [], p :: ps, h, _ => by simp at h
  | f :: fs, [], h, _ => by simp at h
  | f :: fs, p :: ps, h, hp => by
    have h0 := hp
    simp only [List.zip_cons_cons, List.mem_cons, forall_eq_or_imp] at hp
    have ih := jleftFields_fits (fo := fo) (m := m) fs ps (by simpa using h) hp.2
    have hc : ∀ {w ws}, Fits Γ J f.ty w → (ws.length = fs.length ∧ ∀ q ∈ fs.zip ws, Fits Γ J q.1.ty q.2) →
        (w :: ws).length = (f :: fs).length ∧ ∀ q ∈ (f :: fs).zip (w :: ws), Fits Γ J q.1.ty q.2 := by
      intro w ws hw hws
      simp only [List.length_cons, List.zip_cons_cons, List.mem_cons, forall_eq_or_imp]
      exact ⟨by rw [hws.1], hw, hws.2⟩
    unfold jleftFields
    split
    · split
      · split
        · rename_i v hv
          exact hc (jdecField_fits hz hl hr hp.1 hv) ih
        · refine hc ?_ ⟨by simpa using h, hp.2⟩
          split
          · exact hl fo _ hp.1
          · exact hp.1
      · exact ⟨h, h0⟩
    · exact hc hp.1 ih

theorem jleftShape_fits {id : TId} {prior : Val} (hp : Fits Γ J (.base id) prior) (fo : FOpts) (bz : Bytes) :
    Fits Γ J (.base id) (jleftShape Γ c J spoil rec lft id prior fo bz) := by
  by_cases hm : J.unmarsh id ≠ none ∨ Γ.unmarsh id ≠ none
  · exact .method hm
  unfold jleftShape
  split
  · rename_i hs; exact .leaf (by simp [hs]) (by simp [hs])
  · rename_i n e hs
    split
    · rename_i hb
      exact .leaf (by simp [hs]) (by intro n e he; rw [hs] at he; cases he; exact hb)
    · rename_i hb
      split
      · split
        · exact hp
        rename_i hlen
        cases hp with
        | method h => exact absurd h hm
        | leaf _ ha => exact absurd (ha _ _ hs) hb
        | array hs' hb' hl' hvs =>
          rw [hs] at hs'; cases hs'
          simp only
          have h := jleftArr_fits (Γ := Γ) (J := J) hl hr (fo := fo) _ _ (by rw [hl']; simpa using Eq.symm (Decidable.not_not.mp hlen)) hvs
          exact .array hs hb' (by rw [h.1, hl']) h.2
        | struct hs' => rw [hs] at hs'; cases hs'
      · exact hp
  · rename_i e hs; exact .leaf (by simp [hs]) (by simp [hs])
  · rename_i fs hs
    split
    · cases hp with
      | method h => exact absurd h hm
      | leaf hs' => exact absurd hs (hs' _)
      | array hs' => rw [hs] at hs'; cases hs'
      | struct hs' hl' hvs =>
        rw [hs] at hs'; cases hs'
        simp only
        rename_i m _ _
        have h := jleftFields_fits (c := c) hz hl hr (fo := fo) (m := m) _ _ hl' hvs
        exact .struct hs h.1 h.2
    · exact hp
  · rename_i hs; exact .leaf (by simp [hs]) (by simp [hs])
  · rename_i h1 h2 h3 h4 h5
    exact .leaf h4 (by intro n e h; exact absurd h (h2 _ _))

theorem jleftBase_fits {id : TId} {prior : Val} (hp : Fits Γ J (.base id) prior) (fo : FOpts) (bz : Bytes) :
    Fits Γ J (.base id) (jleftBase Γ c J spoil rec lft id prior fo bz) := by
  by_cases hm : J.unmarsh id ≠ none ∨ Γ.unmarsh id ≠ none
  · exact .method hm
  have hj : J.unmarsh id = none := Classical.byContradiction fun h => hm (.inl h)
  have hu : Γ.unmarsh id = none := Classical.byContradiction fun h => hm (.inr h)
  unfold jleftBase
  simp only [hj, hu, ite_self]
  exact jleftShape_fits hz hl hr hp fo bz

end

theorem fits_wrap {t : Ty} {v : Val} (h : Fits Γ J (.base t.deref) v) : Fits Γ J t (wrapTy t v) := by
  induction t with
  | base id => exact h
  | ptr t ih => exact .ptr (ih h)

theorem jleft_fits (hz : ∀ id, Fits Γ J (.base id) (Γ.zero id)) (f : Nat) : LftFits Γ J (jleft Γ c J spoil f) := by
  induction f with
  | zero => intro t p fo b hp; exact hp
  | succ f ih =>
    intro t p fo b hp
    unfold jleft
    split
    · exact hp
    split
    · exact fits_zeroTy hz t
    · exact fits_wrap (jleftBase_fits hz ih (fun h => jleft_ok h) (fits_derefPrior hz hp) fo b)

theorem leftJSON_fits (hz : ∀ id, Fits Γ J (.base id) (Γ.zero id)) {t : Ty} {p : Val} (hp : Fits Γ J t p) (f : Nat) (bz : Bytes) :
    Fits Γ J t (leftJSON Γ c J spoil f t p bz) := by
  have h : ∀ b, Fits Γ J t (jleft Γ c J spoil f t p {} b) := fun b => jleft_fits hz f {} b hp
  unfold leftJSON
  split
  · exact hp
  split
  · split
    · split
      · split
        · exact hp
        · exact h _
      · exact hp
    · exact h _
  · exact hp

theorem foldl_fits (hz : ∀ id, Fits Γ J (.base id) (Γ.zero id)) {t : Ty} (f : Nat) : ∀ (bs : List Bytes) {p : Val},
    Fits Γ J t p → Fits Γ J t (bs.foldl (leftJSON Γ c J spoil f t) p)
  | [], _, hp => hp
  | b :: bs, _, hp => foldl_fits hz f bs (leftJSON_fits hz hp f b)

/-- C93: a variable of a reusable type can be used for any number of calls of UnmarshalJSON, whether they fail or
not: the next call returns what it would have returned for a new variable.  Interfaces are no obstacle here.

Missing for the full statement: fields tagged `omitempty` (`C93_omitempty_refuted`), fields that are not
encoded, and (`C62_null_refuted`) for byte slices a last text with `null` in odd places. -/
theorem C93_again_partial (hz : ∀ id, HasTy Γ (.base id) (Γ.zero id)) (hR : JReusable Γ J nul S) {t : Ty} (ht : S t.deref)
    {p : Val} (hp : HasTy Γ t p) (f g : Nat) (before : List Bytes) (bz : Bytes) (hn : nul = false → MemberNulls bz) :
    unmarshalJSON Γ c J g t (before.foldl (leftJSON Γ c J spoil f t) p) bz = unmarshalJSON Γ c J g t (Γ.zeroTy t) bz := by
  have hz' : ∀ id, Fits Γ J (.base id) (Γ.zero id) := fun id => fits_of_hasTy (hz id)
  have h := foldl_fits (c := c) (spoil := spoil) hz' f before (fits_of_hasTy hp)
  unfold unmarshalJSON
  split
  · rfl
  congr 1; funext _
  cases hc : c.conc? t.deref with
  | none => exact jdec_fitBlind hz' hR g {} bz hn ht h (fits_zeroTy hz' t)
  | some ci =>
    simp only
    cases hd : decodeInterfaceJSON bz with
    | ok nd =>
      obtain ⟨_, _, _, hs, hx⟩ := decodeInterfaceJSON_part hd
      simp only [Res.bind_ok, jdec_fitBlind (c := c) hz' hR g {} nd.2 (fun h => memberNulls_part (hn h) hs hx) ht h (fits_zeroTy hz' t)]
    | _ => rfl

/-- C93: a failed call leaves numbers, booleans, strings, maps and slices (other than byte slices) as they were.

Missing for the full statement: other types, of which parts may have been replaced (`C93_half_refuted`). -/
theorem C93_kept_partial {id : TId} (hj : J.unmarsh id = none) (hu : Γ.unmarsh id = none) (hs : ∀ fs, Γ.shape id ≠ .struct fs)
    (hi : Γ.shape id ≠ .iface) (ha : ∀ n e, Γ.shape id ≠ .array n e) (htm : Γ.shape id ≠ .time)
    (hb : ∀ e, Γ.shape id = .slice e → Γ.isByteKind e = false) {f : Nat} {p : Val} {bz : Bytes} {e : Err}
    (h : unmarshalJSON Γ c J f (.base id) p bz = .err e) : leftJSON Γ c J spoil f (.base id) p bz = p := by
  have key : ∀ b, jdec Γ c J f (.base id) p {} b = .err e → jleft Γ c J spoil f (.base id) p {} b = p := by
    intro b h
    cases f with
    | zero => cases h
    | succ f =>
      unfold jdec at h
      unfold jleft
      split at h
      · cases h
      rename_i h1
      rw [if_neg h1]
      split at h
      · cases h
      rename_i h2
      rw [if_neg h2]
      have hbase : jdecShape Γ c J (jdec Γ c J f) id p {} b = .err e := by
        have hd : jdecBase Γ c J (jdec Γ c J f) id p {} b = jdecShape Γ c J (jdec Γ c J f) id p {} b := by
          unfold jdecBase
          simp only [htm, hj, hu, if_false]
        change ((jdecBase Γ c J (jdec Γ c J f) id p {} b).bind fun v => .ok v) = _ at h
        rw [hd] at h
        cases hx : jdecShape Γ c J (jdec Γ c J f) id p {} b with
        | ok v => rw [hx] at h; cases h
        | err e' => rw [hx] at h; cases h; rfl
        | panic q => rw [hx] at h; cases h
        | oof => rw [hx] at h; cases h
      change jleftBase Γ c J spoil (jdec Γ c J f) (jleft Γ c J spoil f) id p {} b = p
      unfold jleftBase
      simp only [htm, hj, hu, if_false]
      unfold jleftShape
      split
      · rename_i h; exact absurd h hi
      · rename_i h; exact absurd h (ha _ _)
      · rename_i el h; rw [hbase]; simp [hb _ h]
      · rename_i h; exact absurd h (hs _)
      · rename_i h; exact absurd h htm
      · rw [hbase]
  unfold unmarshalJSON at h
  unfold leftJSON
  split at h
  · rename_i h0; rw [if_pos h0]
  rename_i h0
  rw [if_neg h0]
  cases hg : getInfo Γ c (Ty.base id).deref with
  | ok i =>
    rw [hg] at h
    simp only [Res.bind] at h
    cases hc : c.conc? (Ty.base id).deref with
    | none =>
      rw [hc] at h
      exact key _ h
    | some ci =>
      rw [hc] at h
      dsimp only at h ⊢
      cases hd : decodeInterfaceJSON bz with
      | ok nd =>
        rw [hd] at h
        dsimp only at h ⊢
        split at h
        · rename_i hn; rw [if_pos hn]
        · rename_i hn; rw [if_neg hn]; exact key _ h
      | _ => rfl
  | _ => rfl

namespace JDemo

/-- The program with the tag `omitempty` taken off `Rec.B`. -/
def untagged : Prog :=
  { prog with shape := fun id => if id = recT then .struct (recFields.map fun f => { f with opts := { f.opts with omitEmpty := false } }) else shape id }

theorem untagged_zero (id : TId) : HasTy untagged (.base id) (untagged.zero id) := by
  have hi : ∀ {id k}, untagged.shape id = .int k → HasTy untagged (.base id) (.int 0) := fun h => .int h (zero_inRange _)
  have hs : ∀ {id}, untagged.shape id = .string → HasTy untagged (.base id) (.str []) := fun h => .str h
  have hn : ∀ {id e}, untagged.shape id = .slice e → HasTy untagged (.base id) .nil := fun h => .sliceNil h
  have ht : HasTy untagged (.base timeT) zeroTime :=
    .time rfl (by decide) (by decide) (by decide) (by decide)
  have ha : HasTy untagged (.base arrT) (.list [.int 0, .int 0]) := by
    refine .array (e := .base int64T) rfl rfl rfl ?_
    simp
    exact hi rfl
  have h1 : ∀ {id : TId} {f : Field} {v}, untagged.shape id = .struct [f] → HasTy untagged f.ty v →
      HasTy untagged (.base id) (.struct [v]) := by
    intro id f v hs hv
    refine .struct (fs := [f]) hs rfl ?_
    simpa using hv
  match id with
  | 0 | 1 | 15 => exact hi rfl
  | 2 => exact hs rfl
  | 3 | 11 => exact hn rfl
  | 5 => exact .mapNil rfl
  | 6 => exact .ifaceNil rfl
  | 4 =>
    refine .struct (fs := _) rfl rfl ?_
    simp [recFields]
    exact ⟨hi rfl, hs rfl, hn rfl, .mapNil rfl, .ifaceNil rfl, ht, .ptrNil, hn rfl, ha, h1 rfl (hi rfl), .bool rfl, hi rfl⟩
  | 7 | 12 => exact h1 rfl (hi rfl)
  | 8 => exact ht
  | 9 => exact .f64 rfl
  | 10 => exact h1 rfl (.f64 rfl)
  | 13 => exact h1 rfl (hs rfl)
  | 14 => exact ha
  | n + 16 => exact .bool rfl

/-- All types of that program are reusable, among them a struct with an interface, a map, a pointer and a type with
UnmarshalAmino. -/
theorem untagged_reusable : JReusable untagged lib false fun _ => True where
  null _ _ _ h := by cases h
  array _ _ _ := trivial
  struct {id fs} _ _ hu hs f hf := by
    refine ⟨?_, ?_, trivial⟩ <;>
    · match id with
      | 12 => cases hu
      | 4 => cases hs; revert f; decide
      | 7 | 10 | 13 => cases hs; revert f; decide
      | 0 | 1 | 2 | 3 | 5 | 6 | 8 | 9 | 11 | 14 | 15 => cases hs
      | n + 16 => cases hs
  time {id} _ hs := by
    refine ⟨rfl, ?_⟩
    by_cases h : id = centsT
    · subst h; cases hs
    · simp [untagged, prog, h]
  method _ h := by cases h
  unmarsh {id rid um} _ h := by
    by_cases hc : id = centsT
    · subst hc
      cases h
      intro p p' r
      rfl
    · simp [untagged, prog, hc] at h

/-- `Rec` after any texts, good or bad. -/
example (before : List Bytes) (bz : Bytes) (hn : MemberNulls bz) :
    unmarshalJSON untagged codec lib 5 (.base recT)
        (before.foldl (leftJSON untagged codec lib (fun _ p _ => p) 5 (.base recT)) (untagged.zero recT)) bz =
      unmarshalJSON untagged codec lib 5 (.base recT) (untagged.zero recT) bz :=
  C93_again_partial untagged_zero untagged_reusable (t := .base recT) trivial (untagged_zero recT) 5 5 before bz fun _ => hn

/-- `{"A":"5","B":"x","Z":5}`: a boolean is missing. -/
def halfText : Bytes :=
  [0x7b, 0x22, 0x41, 0x22, 0x3a, 0x22, 0x35, 0x22, 0x2c, 0x22, 0x42, 0x22, 0x3a, 0x22, 0x78, 0x22, 0x2c,
   0x22, 0x5a, 0x22, 0x3a, 0x35, 0x7d]

/-- The text is rejected by both programs. -/
example : unmarshalJSON untagged codec lib 5 (.base recT) (untagged.zero recT) halfText = .err .json := by decide +kernel

/-- A number is kept. -/
example : leftJSON prog codec lib (fun _ p _ => p) 5 (.base int32T) (.int 7) [0x22] = .int 7 :=
  C93_kept_partial (e := .json) rfl rfl (by simp [prog, shape, int32T]) (by simp [prog, shape, int32T])
    (by simp [prog, shape, int32T]) (by simp [prog, shape, int32T]) (by simp [prog, shape, int32T]) (by decide +kernel)

end JDemo

/-- C93 is violated: the text is rejected, but two fields have been replaced. -/
theorem C93_half_refuted :
    unmarshalJSON JDemo.prog JDemo.codec JDemo.lib 5 (.base JDemo.recT) (JDemo.prog.zero JDemo.recT) JDemo.halfText = .err .json ∧
    leftJSON JDemo.prog JDemo.codec JDemo.lib (fun _ p _ => p) 5 (.base JDemo.recT) (JDemo.prog.zero JDemo.recT) JDemo.halfText =
      .struct [.int 5, .str [0x78], .nil, .nil, .nil, JDemo.zeroTime, .nil, .nil, .list [.int 0, .int 0], .struct [.int 0],
        .bool false, .int 0] := by
  decide +kernel

/-- C93 is violated: after the rejected text, `{}` is accepted and gives a value with the string of the rejected
text, in the field tagged `omitempty`. -/
theorem C93_omitempty_refuted :
    unmarshalJSON JDemo.prog JDemo.codec JDemo.lib 5 (.base JDemo.recT)
      (leftJSON JDemo.prog JDemo.codec JDemo.lib (fun _ p _ => p) 5 (.base JDemo.recT) (JDemo.prog.zero JDemo.recT) JDemo.halfText)
      [0x7b, 0x7d] =
      .ok (.struct [.int 0, .str [0x78], .nil, .nil, .nil, JDemo.zeroTime, .nil, .nil, .list [.int 0, .int 0], .struct [.int 0],
        .bool false, .int 0]) ∧
    unmarshalJSON JDemo.prog JDemo.codec JDemo.lib 5 (.base JDemo.recT) (JDemo.prog.zero JDemo.recT) [0x7b, 0x7d] =
      .ok (JDemo.prog.zero JDemo.recT) := by
  decide +kernel

/-- `{"type":"f","value":{"N":5}}`: a 64-bit number without quotes. -/
def JDemo.badFoo : Bytes :=
  [0x7b, 0x22, 0x74, 0x79, 0x70, 0x65, 0x22, 0x3a, 0x22, 0x66, 0x22, 0x2c, 0x22, 0x76, 0x61, 0x6c, 0x75, 0x65, 0x22, 0x3a,
   0x7b, 0x22, 0x4e, 0x22, 0x3a, 0x35, 0x7d, 0x7d]

/-- C93 is violated: a rejected text replaces the contents of an interface by a half-read value. -/
theorem C93_interface_refuted :
    unmarshalJSON JDemo.prog JDemo.codec JDemo.lib 5 (.base JDemo.ifaceT) (.iface (.ptr (.base JDemo.fooT)) (.ptr (.struct [.int 7])))
      JDemo.badFoo = .err .json ∧
    leftJSON JDemo.prog JDemo.codec JDemo.lib (fun _ p _ => p) 5 (.base JDemo.ifaceT)
      (.iface (.ptr (.base JDemo.fooT)) (.ptr (.struct [.int 7]))) JDemo.badFoo =
      .iface (.ptr (.base JDemo.fooT)) (.ptr (.struct [.int 0])) := by
  decide +kernel

end Amino
