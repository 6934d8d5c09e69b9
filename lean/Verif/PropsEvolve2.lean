import Verif.PropsJson2
import Verif.PropsJson4

/-!
# C76: JSON fields are matched by name
-/

namespace Amino
open Spec

/-- The field and value appear in the JSON object. -/
def Spec.written (Γ : Prog) (q : Field × Val) : Bool :=
  q.1.visible && !(q.1.opts.omitEmpty && leftOut Γ q.1.ty q.2)

section
variable {Γ : Prog} {c : Codec} {S : TId → Prop} {fl : Bool} {rec : Bool → Ty → Val → FOpts → Res Bytes}
  {nl : Ty → Val → Bool} {nm : Ty → Val → Option Val} {rd : Ty → Val → FOpts → Bytes → Res Val}

theorem jencFields_members (h : RecJ Γ S fl rec nl nm rd)
    (hinfo : ∀ id, S id → getInfo Γ c id = .ok ()) {a : Bool} {fs : List Field}
    {vs : List Val} {bs : List Bytes} (hS : ∀ f ∈ fs, f.visible = true → JOk Γ S f.ty)
    (hn : (fieldNames fs).Nodup) (ht : FieldsTy Γ fs vs) (he : jencFields Γ c rec a fs vs = .ok bs) :
    ∃ ms : List (Bytes × Bytes), bs = (ms.map fun m => quoteStr m.1 ++ 0x3a :: m.2) ∧
      (ms.map (·.1)).Sublist (fieldNames fs) ∧ (∀ m ∈ ms, JText m.2) ∧
      (∀ m ∈ ms, ∃ q ∈ fs.zip vs, written Γ q = true ∧ q.1.opts.jsonName = m.1) ∧
      ∀ q ∈ fs.zip vs, written Γ q = true → ∃ b w, ms.lookup q.1.opts.jsonName = some b ∧ JText b ∧
        nm q.1.ty q.2 = some w ∧ ∀ fo', FoOk fl fo' → rd q.1.ty (Γ.zeroTy q.1.ty) fo' b = .ok w := by
  induction fs generalizing vs bs with
  | nil =>
    cases vs with
    | cons v vs => exact absurd ht.1 (by simp)
    | nil =>
      simp only [jencFields, Res.ok.injEq] at he
      subst he
      exact ⟨[], rfl, List.Sublist.refl _, by simp, by simp, by simp⟩
  | cons f fs ih =>
    cases vs with
    | nil => exact absurd ht.1 (by simp)
    | cons v vs =>
      have htv := (fieldsTy_cons (Γ := Γ)).mp ht
      rw [jencFields] at he
      have hskip : ∀ (hsub : List.Sublist (fieldNames fs) (fieldNames (f :: fs))) (hw : written Γ (f, v) = false)
          (he : jencFields Γ c rec a fs vs = .ok bs), ∃ ms : List (Bytes × Bytes),
            bs = (ms.map fun m => quoteStr m.1 ++ 0x3a :: m.2) ∧
            (ms.map (·.1)).Sublist (fieldNames (f :: fs)) ∧ (∀ m ∈ ms, JText m.2) ∧
            (∀ m ∈ ms, ∃ q ∈ (f :: fs).zip (v :: vs), written Γ q = true ∧ q.1.opts.jsonName = m.1) ∧
            ∀ q ∈ (f :: fs).zip (v :: vs), written Γ q = true → ∃ b w, ms.lookup q.1.opts.jsonName = some b ∧ JText b ∧
              nm q.1.ty q.2 = some w ∧ ∀ fo', FoOk fl fo' → rd q.1.ty (Γ.zeroTy q.1.ty) fo' b = .ok w := by
        intro hsub hw he
        obtain ⟨ms, h1, h2, h3, h4, h5⟩ := ih (fun x hx => hS x (by simp [hx])) (hsub.nodup hn) htv.2 he
        refine ⟨ms, h1, h2.trans hsub, h3, fun m hm => ?_, fun q hq hwq => ?_⟩
        · obtain ⟨q, hq, e⟩ := h4 m hm
          exact ⟨q, by simp [hq], e⟩
        · rw [List.zip_cons_cons, List.mem_cons] at hq
          rcases hq with rfl | hq
          · rw [hw] at hwq; cases hwq
          · exact h5 q hq hwq
      by_cases hv : f.visible = true
      · have hfn : fieldNames (f :: fs) = f.opts.jsonName :: fieldNames fs := by
          unfold fieldNames; rw [List.filter_cons, if_pos hv]; rfl
        have hSf := hS f (by simp) hv
        rw [if_pos hv, hinfo _ hSf.1, Res.bind_ok] at he
        by_cases ho : (f.opts.omitEmpty && Γ.jsonEmpty f.ty v) = true
        · rw [if_pos ho] at he
          refine hskip ?_ ?_ he
          · rw [hfn]; exact List.sublist_cons_self _ _
          · unfold written; rw [leftOut_eq, ho]; simp
        · rw [if_neg ho] at he
          obtain ⟨b, hb, he⟩ := Res.bind_eq_ok he
          obtain ⟨bs', hbs', he⟩ := Res.bind_eq_ok he
          simp only [Res.ok.injEq] at he
          subst he
          rw [hfn] at hn ⊢
          have hn' := List.nodup_cons.mp hn
          obtain ⟨h1, _, w, hw, _, hrdw⟩ := h a f.ty v f.opts b hSf htv.1 hb
          obtain ⟨ms, e1, e2, e3, e4, e5⟩ := ih (fun x hx => hS x (by simp [hx])) hn'.2 htv.2 hbs'
          have hwr : written Γ (f, v) = true := by
            unfold written; rw [leftOut_eq]
            simp only [Bool.not_eq_true] at ho
            rw [ho, hv]; rfl
          refine ⟨(f.opts.jsonName, b) :: ms, by rw [e1]; rfl, e2.cons_cons _, ?_, ?_, ?_⟩
          · simp only [List.mem_cons, forall_eq_or_imp]; exact ⟨h1, e3⟩
          · intro m hm
            rw [List.mem_cons] at hm
            rcases hm with rfl | hm
            · exact ⟨(f, v), by simp, hwr, rfl⟩
            · obtain ⟨q, hq, e⟩ := e4 m hm
              exact ⟨q, by simp [hq], e⟩
          · intro q hq hwq
            rw [List.zip_cons_cons, List.mem_cons] at hq
            rcases hq with rfl | hq
            · exact ⟨b, w, List.lookup_cons_self, h1, hw, hrdw⟩
            · obtain ⟨b', w', l1, l2, l3⟩ := e5 q hq hwq
              refine ⟨b', w', ?_, l2, l3⟩
              have hqn : q.1.opts.jsonName ∈ fieldNames fs := by
                unfold fieldNames
                refine List.mem_map_of_mem (List.mem_filter.mpr ⟨(List.of_mem_zip hq).1, ?_⟩)
                unfold written at hwq
                simp only [Bool.and_eq_true] at hwq
                exact hwq.1
              have : (q.1.opts.jsonName == f.opts.jsonName) = false := by
                simp only [beq_eq_false_iff_ne]
                intro e
                exact hn'.1 (e ▸ hqn)
              rw [List.lookup_cons, this]
              exact l1
      · rw [if_neg hv] at he
        have hfn : fieldNames (f :: fs) = fieldNames fs := by
          unfold fieldNames; rw [List.filter_cons, if_neg hv]
        refine hskip (by rw [hfn]; exact List.Sublist.refl _) ?_ he
        unfold written
        simp [hv]

/-- Each field of the target is what the field of the source of the same name says. -/
def Spec.ByName (Γ : Prog) (nm : Ty → Val → Option Val) (fs : List Field) (vs : List Val) (gs : List Field)
    (ws : List Val) : Prop :=
  ws.length = gs.length ∧ ∀ p ∈ gs.zip ws,
    (p.1.visible = true → ∀ q ∈ fs.zip vs, written Γ q = true → q.1.opts.jsonName = p.1.opts.jsonName →
      nm p.1.ty q.2 = some p.2) ∧
    ((p.1.visible = true → ∀ q ∈ fs.zip vs, written Γ q = true → q.1.opts.jsonName ≠ p.1.opts.jsonName) →
      p.2 = zeroOf Γ p.1.ty)

theorem jdecFields_byName {fs : List Field} {vs : List Val} {ms : List (Bytes × Bytes)} {fo : FOpts} (hfo : FoOk fl fo)
    (hmem : ∀ m ∈ ms, ∃ q ∈ fs.zip vs, written Γ q = true ∧ q.1.opts.jsonName = m.1)
    (hlook : ∀ q ∈ fs.zip vs, written Γ q = true → ∃ b w, ms.lookup q.1.opts.jsonName = some b ∧ JText b ∧
        nm q.1.ty q.2 = some w ∧ ∀ fo', FoOk fl fo' → rd q.1.ty (Γ.zeroTy q.1.ty) fo' b = .ok w) {gs : List Field}
    (hinfo : ∀ g ∈ gs, g.visible = true → getInfo Γ c g.ty.deref = .ok ())
    (hty : ∀ q ∈ fs.zip vs, written Γ q = true → ∀ g ∈ gs, g.visible = true → q.1.opts.jsonName = g.opts.jsonName →
      q.1.ty = g.ty) :
    ∃ ws, jdecFields Γ c rd fo ms gs (gs.map fun g => Γ.zeroTy g.ty) = .ok ws ∧ ByName Γ nm fs vs gs ws := by
  induction gs with
  | nil => exact ⟨[], rfl, rfl, by simp⟩
  | cons g gs ih =>
    obtain ⟨ws, h1, h2, h3⟩ := ih (fun x hx => hinfo x (by simp [hx])) fun q hq hw x hx => hty q hq hw x (by simp [hx])
    by_cases hv : g.visible = true
    · have hi := hinfo g (by simp) hv
      by_cases hex : ∃ q ∈ fs.zip vs, written Γ q = true ∧ q.1.opts.jsonName = g.opts.jsonName
      · obtain ⟨q, hq, hw, hqn⟩ := hex
        obtain ⟨b, w, l1, l2, l3, l4⟩ := hlook q hq hw
        have htq := hty q hq hw g (by simp) hv hqn
        rw [hqn] at l1
        rw [htq] at l3 l4
        refine ⟨w :: ws, ?_, by simp [h2], ?_⟩
        · rw [List.map_cons, jdecFields, if_pos hv, hi, Res.bind_ok, jdecField, l1]
          simp only
          rw [if_neg (jtext_ne_nil l2), l4 fo hfo, Res.bind_ok, h1]
          rfl
        · simp only [List.zip_cons_cons, List.mem_cons, forall_eq_or_imp]
          refine ⟨⟨fun _ q' hq' hw' hqn' => ?_, fun hno => absurd hqn (hno hv q hq hw)⟩, h3⟩
          obtain ⟨b', w', m1, m2, m3, m4⟩ := hlook q' hq' hw'
          have htq' := hty q' hq' hw' g (by simp) hv hqn'
          rw [hqn', l1] at m1
          rw [htq'] at m3 m4
          cases m1
          have := (l4 fo hfo).symm.trans (m4 fo hfo)
          cases this
          exact m3
      · have hnone : ms.lookup g.opts.jsonName = none := by
          refine lookup_none_of fun hm => ?_
          obtain ⟨m, hm, e⟩ := List.mem_map.mp hm
          obtain ⟨q, hq, hw, hqn⟩ := hmem m hm
          exact hex ⟨q, hq, hw, hqn.trans e⟩
        refine ⟨Γ.zeroTy g.ty :: ws, ?_, by simp [h2], ?_⟩
        · rw [List.map_cons, jdecFields, if_pos hv, hi, Res.bind_ok, jdecField, hnone]
          simp only [ite_self, Res.bind_ok]
          rw [h1]
          rfl
        · simp only [List.zip_cons_cons, List.mem_cons, forall_eq_or_imp]
          refine ⟨⟨fun _ q hq hw hqn => absurd ⟨q, hq, hw, hqn⟩ hex, fun _ => (zeroOf_eq _ _).symm⟩, h3⟩
    · refine ⟨Γ.zeroTy g.ty :: ws, ?_, by simp [h2], ?_⟩
      · rw [List.map_cons, jdecFields, if_neg hv, h1]
        rfl
      · simp only [List.zip_cons_cons, List.mem_cons, forall_eq_or_imp]
        exact ⟨⟨fun h => absurd h hv, fun _ => (zeroOf_eq _ _).symm⟩, h3⟩

end

variable {Γ : Prog} {c : Codec} {J : JLib} {S : TId → Prop}

/-- C76: the JSON text of a value of a struct type, read into a variable of any other struct type: fields of the same
JSON name get their contents, the others are zero, and members of the text without a field are ignored. -/
theorem C76_json_byName (hU : JUniv Γ c J false S) (hL : LibOk J) (hT : Γ.Typed) (hZ : ZeroOk Γ) (hum : UserTotal Γ)
    {old new : TId} {fs gs : List Field} {vs : List Val} {bz : Bytes} {f g : Nat}
    (hso : Γ.shape old = .struct fs) (hsn : Γ.shape new = .struct gs) (hmo : Γ.marsh old = none)
    (hmn : Γ.marsh new = none) (hSo : S old) (hSn : S new) (hco : c.conc? old = none) (hcn : c.conc? new = none)
    (hty : ∀ x ∈ fs, ∀ y ∈ gs, x.visible = true → y.visible = true → x.opts.jsonName = y.opts.jsonName → x.ty = y.ty)
    (ht : HasTy Γ (.base old) (.struct vs)) (he : marshalJSON Γ c J (f + 1) (some (.base old, .struct vs)) = .ok bz)
    (hg : f ≤ g) :
    ∃ ws, unmarshalJSON Γ c J (g + 1) (.base new) (Γ.zero new) bz = .ok (.struct ws) ∧
      ByName Γ (jnorm Γ c f) fs vs gs ws := by
  obtain ⟨hi, b, hb, rfl⟩ := marshalJSON_inv he
  simp only [Ty.deref, hco] at hi ⊢
  have hft : FieldsTy Γ fs vs := by
    cases ht with
    | struct hs hlen hf =>
      rw [hso] at hs
      cases hs
      exact ⟨hlen, hf⟩
  rw [jenc] at hb
  simp only [derefVal, Ty.deref] at hb
  unfold jencBase at hb
  rw [if_neg (by rw [hso]; simp), (hU.methods hSo).1, hmo] at hb
  simp only [jencShape, hso] at hb
  obtain ⟨bs, hbs, hb⟩ := Res.bind_eq_ok hb
  cases hb
  obtain ⟨ms, rfl, hsub, hj, hmem, hlook⟩ := jencFields_members (jenc_rt hU hL hT hZ hum hg) (fun _ => hU.info)
    (fun x hm hv => (hU.field hSo hso hm hv).1) (hU.names hSo hso) hft hbs
  have hn : ((ms.map fun m => (sanitize m.1, m.2))) = ms := by
    have : ∀ m ∈ ms, (sanitize m.1, m.2) = m := by
      intro m hm
      have : m.1 ∈ fieldNames fs := hsub.subset (List.mem_map_of_mem hm)
      obtain ⟨x, hf', e⟩ := List.mem_map.mp this
      have hf'' := List.mem_filter.mp hf'
      have := (hU.field hSo hso hf''.1 hf''.2).2
      rw [e] at this
      rw [sanitize_utf8 this]
    conv => rhs; rw [← List.map_id ms]
    exact List.map_congr_left this
  have ha : assocOf ms [] = ms := assocOf_nodup (acc := []) (hsub.nodup (hU.names hSo hso))
  have hwv : ∀ q : Field × Val, written Γ q = true → q.1.visible = true := by
    intro q hq
    unfold written at hq
    simp only [Bool.and_eq_true] at hq
    exact hq.1
  obtain ⟨ws, h1, h2⟩ := jdecFields_byName (c := c) (fl := false) (fo := {}) (gs := gs) (by simp [FoOk]) hmem hlook
    (fun x hx hv => hU.info (hU.field hSn hsn hx hv).1.1)
    (fun q hq hw y hy hv hne => hty q.1 (List.of_mem_zip hq).1 y hy (hwv q hw) hv hne)
  refine ⟨ws, ?_, h2⟩
  rw [joinComma_eq, unmarshalJSON, if_neg (by simp)]
  simp only [Ty.deref, hU.info hSn, Res.bind_ok, hcn]
  rw [jdec, if_neg (by simp [Ty.isPtr]), if_neg (by simp [jNull])]
  unfold jdecBase
  simp only [Ty.deref, Prog.derefPrior, (hU.methods hSn).2, hU.noMarsh hSn hmn, ite_self, jdecShape, hsn, unmRawMap_obj hj, ofOpt, Res.bind_ok, hn, ha, hZ.struct hsn, h1]
  rfl

namespace JDemo

/-- `Bar{B: "hi"}` read as a `Rec`. -/
example : unmarshalJSON prog codec lib 5 (.base recT) (prog.zero recT)
    [0x7b, 0x22, 0x42, 0x22, 0x3a, 0x22, 0x68, 0x69, 0x22, 0x7d] =
      .ok (.struct [.int 0, .str [0x68, 0x69], .nil, .nil, .nil, zeroTime, .nil, .nil, .list [.int 0, .int 0],
        .struct [.int 0], .bool false, .int 0]) := by
  have ht : HasTy prog (.base barT) (.struct [.str [0x68, 0x69]]) := by
    refine .struct (fs := [{ ty := .base stringT, opts := { jsonName := [0x42] } }]) rfl rfl ?_
    simp
    exact .str rfl
  obtain ⟨ws, h1, h2, h3⟩ := C76_json_byName (S := JDemo.S false) (univ false) libOk typed zeroOk user_total (old := barT)
    (new := recT) (fs := [{ ty := .base stringT, opts := { jsonName := [0x42] } }]) (gs := recFields) (f := 4) (g := 4)
    (bz := [0x7b, 0x22, 0x42, 0x22, 0x3a, 0x22, 0x68, 0x69, 0x22, 0x7d])
    rfl rfl rfl rfl (by simp [JDemo.S, barT]; decide) (by simp [JDemo.S]; decide) rfl rfl (by decide) ht (by decide +kernel) (Nat.le_refl 4)
  match ws, h2 with
  | [w1, w2, w3, w4, w5, w6, w7, w8, w9, w10, w11, w12], _ =>
    rw [h1]
    simp [recFields, written, leftOut, prog, shape, zeroOf] at h3
    obtain ⟨rfl, e2, rfl, rfl, rfl, rfl, rfl, rfl, rfl, rfl, rfl, rfl⟩ := h3
    rw [show jnorm _ codec 4 (.base stringT) (.str [0x68, 0x69]) = some (.str [0x68, 0x69]) by decide +kernel] at e2
    cases e2
    rfl

end JDemo

end Amino
