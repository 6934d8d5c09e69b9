import Verif.JsonStr
import Verif.JsonDecode
import Verif.NormLemmas

/-!
# The JSON round trip
-/

namespace Amino
open Spec

/-! ## Text level -/

theorem joinComma_eq (bs : List Bytes) : joinComma bs = commas bs := by
  induction bs with
  | nil => rfl
  | cons b bs ih =>
    cases bs with
    | nil => rfl
    | cons b' bs =>
      show b ++ 0x2c :: joinComma (b' :: bs) = b ++ 0x2c :: commas (b' :: bs)
      rw [ih]

/-- Members with quoted names. -/
def named (ms : List (Bytes × Bytes)) : List (Bytes × Bytes) := ms.map fun m => (quoteStr m.1, m.2)

theorem jtext_obj {ms : List (Bytes × Bytes)} (hj : ∀ m ∈ ms, JText m.2) :
    JText (0x7b :: (commas (ms.map fun m => quoteStr m.1 ++ 0x3a :: m.2) ++ [0x7d])) := by
  have h := JText.obj (ms := named ms) (fun m hm => by
      obtain ⟨x, _, rfl⟩ := List.mem_map.mp hm
      exact strText_quoteStr _) (fun m hm => by
      obtain ⟨x, hx, rfl⟩ := List.mem_map.mp hm
      exact hj x hx)
  unfold named at h
  rw [List.map_map] at h
  exact h

theorem unmMembers_obj {ms : List (Bytes × Bytes)} (hk : ∀ m ∈ ms, StrText m.1) (hj : ∀ m ∈ ms, JText m.2) :
    unmMembers (0x7b :: (commas (ms.map memberText) ++ [0x7d])) =
      ms.foldr (fun kv acc => acc.bind fun l => (unquote kv.1).map fun k => (k, kv.2) :: l) (some []) := by
  unfold unmMembers
  simp only [if_true]
  rw [objRest_app hk hj]
  · rfl
  · intro m hm
    refine skipVal_jtext (hj m hm) ?_
    have := mem_commas_length (List.mem_map_of_mem (f := memberText) hm)
    simp [memberText] at this ⊢; omega

theorem foldr_unquote (ms : List (Bytes × Bytes)) :
    (named ms).foldr (fun kv acc => acc.bind fun l => (unquote kv.1).map fun k => (k, kv.2) :: l) (some []) =
      some (ms.map fun m => (sanitize m.1, m.2)) := by
  induction ms with
  | nil => rfl
  | cons m ms ih =>
    unfold named at ih ⊢
    rw [List.map_cons, List.foldr_cons, ih]
    simp [unquote_quoteStr]

theorem unmRawMap_obj {ms : List (Bytes × Bytes)} (hj : ∀ m ∈ ms, JText m.2) :
    unmRawMap (0x7b :: (commas (ms.map fun m => quoteStr m.1 ++ 0x3a :: m.2) ++ [0x7d])) =
      some (assocOf (ms.map fun m => (sanitize m.1, m.2)) []) := by
  unfold unmRawMap
  rw [wholeVal_jtext (jtext_obj hj)]
  simp only [Option.bind_some]
  rw [if_neg (by simp [jNull])]
  have h : (ms.map fun m => quoteStr m.1 ++ 0x3a :: m.2) = (named ms).map memberText := by
    unfold named; rw [List.map_map]; rfl
  rw [h, unmMembers_obj, foldr_unquote]
  · rfl
  · intro m hm
    obtain ⟨x, _, rfl⟩ := List.mem_map.mp hm
    exact strText_quoteStr _
  · intro m hm
    obtain ⟨x, hx, rfl⟩ := List.mem_map.mp hm
    exact hj x hx

/-- `"type"` -/
def keyType : Bytes := [0x22, 0x74, 0x79, 0x70, 0x65, 0x22]
/-- `"value"` -/
def keyValue : Bytes := [0x22, 0x76, 0x61, 0x6c, 0x75, 0x65, 0x22]

theorem strText_keyType : StrText keyType :=
  .mk (b := [0x74, 0x79, 0x70, 0x65]) (strBody_plain (by decide))

theorem strText_keyValue : StrText keyValue :=
  .mk (b := [0x76, 0x61, 0x6c, 0x75, 0x65]) (strBody_plain (by decide))

theorem wrapText_eq (name b : Bytes) : wrapText name b =
    0x7b :: (commas ([(keyType, 0x22 :: (name ++ [0x22])), (keyValue, b)].map memberText) ++ [0x7d]) := by
  simp [wrapText, wrapOpen, wrapMid, commas, memberText, keyType, keyValue]

theorem strText_name {n : Bytes} (h : PlainName n) : StrText (0x22 :: (n ++ [0x22])) := .mk (strBody_plain h.2.2)

theorem unquote_name {n : Bytes} (h : PlainName n) : unquote (0x22 :: (n ++ [0x22])) = some n := by
  rw [unquote_mk]
  exact unquoteBody_plain h.2.1 h.2.2 (by omega)

/-- The disfix wrapper is a JSON text if the name is plain. -/
theorem jtext_wrap {n b : Bytes} (h : PlainName n) (hb : JText b) : JText (wrapText n b) := by
  rw [wrapText_eq]
  refine .obj ?_ ?_
  · simp only [List.mem_cons, List.not_mem_nil, or_false, forall_eq_or_imp, forall_eq]
    exact ⟨strText_keyType, strText_keyValue⟩
  · simp only [List.mem_cons, List.not_mem_nil, or_false, forall_eq_or_imp, forall_eq]
    exact ⟨.str (strText_name h), hb⟩

/-- Reading the disfix wrapper gives the name and the contents. -/
theorem decodeInterfaceJSON_wrap {n b : Bytes} (h : PlainName n) (hb : JText b) :
    decodeInterfaceJSON (wrapText n b) = .ok (n, b) := by
  unfold decodeInterfaceJSON unmWrapper
  rw [wholeVal_jtext (jtext_wrap h hb)]
  simp only [Option.bind_some]
  rw [if_neg (by simp [jNull, wrapText, wrapOpen]), wrapText_eq, unmMembers_obj]
  · simp only [List.foldr_cons, List.foldr_nil, Option.bind_some]
    have h1 : unquote keyType = some [0x74, 0x79, 0x70, 0x65] := by decide +kernel
    have h2 : unquote keyValue = some [0x76, 0x61, 0x6c, 0x75, 0x65] := by decide +kernel
    rw [h2, h1]
    simp only [Option.map_some, Option.bind_some]
    have h3 : ([0x74, 0x79, 0x70, 0x65] : Bytes).map lowerAscii = [0x74, 0x79, 0x70, 0x65] := by decide
    have h4 : ([0x76, 0x61, 0x6c, 0x75, 0x65] : Bytes).map lowerAscii = [0x76, 0x61, 0x6c, 0x75, 0x65] := by decide
    rw [unmWrapperMembers, if_pos h3, if_neg (by simp [jNull]), if_pos (by rfl), unquote_name h]
    simp only [Option.bind_some]
    rw [unmWrapperMembers, if_neg (by rw [h4]; decide), if_pos h4, unmWrapperMembers]
    simp only
    rw [if_neg h.1, if_neg (jtext_ne_nil hb)]
  · simp only [List.mem_cons, List.not_mem_nil, or_false, forall_eq_or_imp, forall_eq]
    exact ⟨strText_keyType, strText_keyValue⟩
  · simp only [List.mem_cons, List.not_mem_nil, or_false, forall_eq_or_imp, forall_eq]
    exact ⟨.str (strText_name h), hb⟩

/-! ## Association lists -/

section
variable {α β : Type}

theorem assocSet_map (g : α → β) (k : Bytes) (a : α) (l : List (Bytes × α)) :
    assocSet k (g a) (l.map fun p => (p.1, g p.2)) = (assocSet k a l).map fun p => (p.1, g p.2) := by
  induction l with
  | nil => rfl
  | cons p l ih =>
    rw [List.map_cons, assocSet, assocSet]
    split
    · rfl
    · rw [List.map_cons, ih]

theorem assocOf_map (g : α → β) (l acc : List (Bytes × α)) :
    assocOf (l.map fun p => (p.1, g p.2)) (acc.map fun p => (p.1, g p.2)) =
      (assocOf l acc).map fun p => (p.1, g p.2) := by
  induction l generalizing acc with
  | nil => rfl
  | cons p l ih => rw [List.map_cons, assocOf, assocSet_map, ih]; rfl

theorem mem_assocSet {k : Bytes} {a : α} {l : List (Bytes × α)} {p : Bytes × α} (h : p ∈ assocSet k a l) :
    p = (k, a) ∨ p ∈ l := by
  induction l with
  | nil => simp [assocSet] at h; exact .inl h
  | cons q l ih =>
    rw [assocSet] at h
    split at h
    · rcases List.mem_cons.mp h with h | h
      · exact .inl h
      · exact .inr (by simp [h])
    · rcases List.mem_cons.mp h with h | h
      · exact .inr (by simp [h])
      · rcases ih h with h | h
        · exact .inl h
        · exact .inr (by simp [h])

theorem mem_assocOf {l acc : List (Bytes × α)} {p : Bytes × α} (h : p ∈ assocOf l acc) : p ∈ l ∨ p ∈ acc := by
  induction l generalizing acc with
  | nil => exact .inr h
  | cons q l ih =>
    rw [assocOf] at h
    rcases ih h with h | h
    · exact .inl (by simp [h])
    · rcases mem_assocSet h with h | h
      · exact .inl (by simp [h])
      · exact .inr h

theorem assocSet_fresh {k : Bytes} {a : α} {l : List (Bytes × α)} (h : k ∉ l.map (·.1)) :
    assocSet k a l = l ++ [(k, a)] := by
  induction l with
  | nil => rfl
  | cons q l ih =>
    simp only [List.map_cons, List.mem_cons, not_or] at h
    rw [assocSet, if_neg (fun e => h.1 e.symm), ih h.2]
    rfl

theorem assocOf_nodup {l acc : List (Bytes × α)} (h : ((acc ++ l).map (·.1)).Nodup) : assocOf l acc = acc ++ l := by
  induction l generalizing acc with
  | nil => simp [assocOf]
  | cons q l ih =>
    have hq : q.1 ∉ acc.map (·.1) := by
      simp only [List.map_append, List.map_cons, List.nodup_append, List.nodup_cons, List.mem_cons] at h
      intro hm
      exact h.2.2 _ hm q.1 (.inl rfl) rfl
    rw [assocOf, assocSet_fresh hq, ih]
    · simp
    · simpa using h

end

theorem assign_eq (k : Bytes) (v : Val) (l : List (Bytes × Val)) : assign k v l = assocSet k v l := by
  induction l with
  | nil => rfl
  | cons p l ih => rw [assign, assocSet, ih]

theorem assigns_eq (l acc : List (Bytes × Val)) : assigns l acc = assocOf l acc := by
  induction l generalizing acc with
  | nil => rfl
  | cons p l ih => rw [assigns, assocOf, assign_eq, ih]

/-! ## Components -/

theorem zeroOf_eq (Γ : Prog) (t : Ty) : zeroOf Γ t = Γ.zeroTy t := by cases t <;> rfl

theorem leftOut_eq (Γ : Prog) (t : Ty) (v : Val) : leftOut Γ t v = Γ.jsonEmpty t v := by
  unfold leftOut Prog.jsonEmpty
  rw [pointee_eq]
  cases derefVal t v with
  | none => rfl
  | some dv =>
    have hz : (!t.isPtr && dv == Γ.zero t.deref) = (!t.isPtr && dv.eqb (Γ.zeroTy t)) := by
      cases t with
      | ptr => rfl
      | base id =>
        simp only [Ty.isPtr, Ty.deref, Prog.zeroTy, Bool.not_false, Bool.true_and]
        rw [Bool.eq_iff_iff, Val.eqb_iff]
        simp
    simp only [hz]
    congr 1
    cases Γ.shape t.deref <;> cases dv <;> first
      | rfl
      | (rename_i l; cases l <;> rfl)

theorem derefPrior_zero (Γ : Prog) (t : Ty) : Γ.derefPrior t (Γ.zeroTy t) = Γ.zero t.deref := by
  induction t with
  | base id => rfl
  | ptr t ih => exact ih

section
variable {Γ : Prog} {c : Codec} {J : JLib} {S : TId → Prop} {fl : Bool}
  {rec : Bool → Ty → Val → FOpts → Res Bytes} {nl : Ty → Val → Bool}
  {nm : Ty → Val → Option Val} {rd : Ty → Val → FOpts → Bytes → Res Val}

/-- The reader's options allow what the universe contains. -/
def FoOk (fl : Bool) (fo : FOpts) : Prop := fl = true → fo.floatOk = true

/-- What is claimed one level down. -/
def RecJ (Γ : Prog) (S : TId → Prop) (fl : Bool) (rec : Bool → Ty → Val → FOpts → Res Bytes) (nl : Ty → Val → Bool)
    (nm : Ty → Val → Option Val) (rd : Ty → Val → FOpts → Bytes → Res Val) : Prop :=
  ∀ a t v fo b, JOk Γ S t → HasTy Γ t v → rec a t v fo = .ok b →
    JText b ∧ (b = jNull ↔ nl t v = true) ∧
    ∃ w, nm t v = some w ∧ HasTy Γ t w ∧ ∀ fo', FoOk fl fo' → rd t (Γ.zeroTy t) fo' b = .ok w

theorem jencElems_rt (h : RecJ Γ S fl rec nl nm rd) {a : Bool} {e : Ty} {fo : FOpts} {vs : List Val} {bs : List Bytes}
    (hS : JOk Γ S e) (ht : ∀ v ∈ vs, HasTy Γ e v) (he : jencElems rec a e fo vs = .ok bs) :
    (∀ b ∈ bs, JText b) ∧ bs.length = vs.length ∧ ∃ ws, jnormElems nm e vs = some ws ∧ ws.length = vs.length ∧
      (∀ w ∈ ws, HasTy Γ e w) ∧ ∀ fo', FoOk fl fo' → jdecElems Γ rd e fo' bs = .ok ws ∧
        jdecArr rd e fo' (List.replicate vs.length (Γ.zeroTy e)) bs = .ok ws := by
  induction vs generalizing bs with
  | nil =>
    simp only [jencElems, Res.ok.injEq] at he
    subst he
    exact ⟨by simp, rfl, [], rfl, rfl, by simp, fun _ _ => ⟨rfl, rfl⟩⟩
  | cons v vs ih =>
    rw [jencElems] at he
    obtain ⟨b, hb, he⟩ := Res.bind_eq_ok he
    obtain ⟨bs', hbs, he⟩ := Res.bind_eq_ok he
    simp only [Res.ok.injEq] at he
    subst he
    obtain ⟨h1, _, w, hw, htw, hrd⟩ := h a e v fo b hS (ht v (by simp)) hb
    obtain ⟨i1, i2, ws, hws, hl, htws, hrds⟩ := ih (fun x hx => ht x (by simp [hx])) hbs
    refine ⟨?_, by simp [i2], w :: ws, by simp [jnormElems, hw, hws], by simp [hl], ?_, fun fo' hf => ?_⟩
    · simp only [List.mem_cons, forall_eq_or_imp]; exact ⟨h1, i1⟩
    · simp only [List.mem_cons, forall_eq_or_imp]; exact ⟨htw, htws⟩
    · rw [jdecElems, hrd fo' hf, List.length_cons, List.replicate_succ, jdecArr, hrd fo' hf]
      simp [(hrds fo' hf).1, (hrds fo' hf).2]

theorem lookup_none_of {ms : List (Bytes × Bytes)} {k : Bytes} (h : k ∉ ms.map (·.1)) : ms.lookup k = none := by
  induction ms with
  | nil => rfl
  | cons m ms ih =>
    simp only [List.map_cons, List.mem_cons, not_or] at h
    have : (k == m.1) = false := by simpa using h.1
    obtain ⟨a, b⟩ := m
    rw [List.lookup_cons, this]
    exact ih h.2

/-- The names of the fields taking part. -/
def fieldNames (fs : List Field) : List Bytes := (fs.filter fun f => f.visible).map fun f => f.opts.jsonName

theorem jencFields_rt (h : RecJ Γ S fl rec nl nm rd) (hz : ∀ id, HasTy Γ (.base id) (Γ.zero id))
    (hinfo : ∀ id, S id → getInfo Γ c id = .ok ()) {a : Bool} {fs : List Field}
    {vs : List Val} {bs : List Bytes} (hS : ∀ f ∈ fs, f.visible = true → JOk Γ S f.ty)
    (hn : (fieldNames fs).Nodup) (ht : FieldsTy Γ fs vs) (he : jencFields Γ c rec a fs vs = .ok bs) :
    ∃ ms : List (Bytes × Bytes), bs = (ms.map fun m => quoteStr m.1 ++ 0x3a :: m.2) ∧
      (ms.map (·.1)).Sublist (fieldNames fs) ∧ (∀ m ∈ ms, JText m.2) ∧
      ∃ ws, jnormFields Γ nm fs vs = some ws ∧ FieldsTy Γ fs ws ∧
        ∀ fo' l, FoOk fl fo' → (∀ k ∈ fieldNames fs, l.lookup k = ms.lookup k) →
          jdecFields Γ c rd fo' l fs (fs.map fun f => Γ.zeroTy f.ty) = .ok ws := by
  induction fs generalizing vs bs with
  | nil =>
    cases vs with
    | cons v vs => exact absurd ht.1 (by simp)
    | nil =>
      simp only [jencFields, Res.ok.injEq] at he
      subst he
      exact ⟨[], rfl, List.Sublist.refl _, by simp, [], rfl, ⟨rfl, by simp⟩, fun _ _ _ _ => rfl⟩
  | cons f fs ih =>
    cases vs with
    | nil => exact absurd ht.1 (by simp)
    | cons v vs =>
      have htv := (fieldsTy_cons (Γ := Γ)).mp ht
      rw [jencFields] at he
      by_cases hv : f.visible = true
      · have hfn : fieldNames (f :: fs) = f.opts.jsonName :: fieldNames fs := by
          unfold fieldNames; rw [List.filter_cons, if_pos hv]; rfl
        rw [hfn] at hn
        have hn' := List.nodup_cons.mp hn
        have hSf := hS f (by simp) hv
        rw [if_pos hv, hinfo _ hSf.1, Res.bind_ok] at he
        by_cases ho : (f.opts.omitEmpty && Γ.jsonEmpty f.ty v) = true
        · rw [if_pos ho] at he
          obtain ⟨ms, hbs, hsub, hj, ws, hws, htws, hrd⟩ :=
            ih (fun x hx => hS x (by simp [hx])) hn'.2 htv.2 he
          refine ⟨ms, hbs, ?_, hj, Γ.zeroTy f.ty :: ws, ?_, ?_, ?_⟩
          · rw [hfn]; exact hsub.cons _
          · rw [jnormFields, leftOut_eq, ho, hws, zeroOf_eq]
            simp
          · exact fieldsTy_cons.mpr ⟨hasTy_zeroTy hz _, htws⟩
          · intro fo' l hf hl
            rw [hfn] at hl
            have hnone : l.lookup f.opts.jsonName = none := by
              rw [hl _ (by simp)]
              exact lookup_none_of fun hm => hn'.1 (hsub.subset hm)
            rw [List.map_cons, jdecFields, if_pos hv, hinfo _ hSf.1, Res.bind_ok, jdecField, hnone]
            simp only [ite_self, Res.bind_ok]
            rw [hrd fo' l hf fun k hk => hl k (by simp [hk])]
            rfl
        · rw [if_neg ho] at he
          obtain ⟨b, hb, he⟩ := Res.bind_eq_ok he
          obtain ⟨bs', hbs', he⟩ := Res.bind_eq_ok he
          simp only [Res.ok.injEq] at he
          subst he
          obtain ⟨h1, _, w, hw, htw, hrdw⟩ := h a f.ty v f.opts b hSf htv.1 hb
          obtain ⟨ms, hbs, hsub, hj, ws, hws, htws, hrd⟩ :=
            ih (fun x hx => hS x (by simp [hx])) hn'.2 htv.2 hbs'
          refine ⟨(f.opts.jsonName, b) :: ms, ?_, ?_, ?_, w :: ws, ?_, ?_, ?_⟩
          · rw [hbs]; rfl
          · rw [hfn]; exact hsub.cons_cons _
          · simp only [List.mem_cons, forall_eq_or_imp]; exact ⟨h1, hj⟩
          · rw [jnormFields, leftOut_eq]
            simp only [Bool.not_eq_true] at ho
            rw [ho, hv]
            simp [hw, hws]
          · exact fieldsTy_cons.mpr ⟨htw, htws⟩
          · intro fo' l hf hl
            rw [hfn] at hl
            have hsome : l.lookup f.opts.jsonName = some b := by
              rw [hl _ (by simp), List.lookup_cons_self]
            rw [List.map_cons, jdecFields, if_pos hv, hinfo _ hSf.1, Res.bind_ok, jdecField, hsome]
            simp only
            rw [if_neg (jtext_ne_nil h1), hrdw fo' hf, Res.bind_ok, hrd fo' l hf]
            · rfl
            · intro k hk
              rw [hl k (by simp [hk])]
              have : (k == f.opts.jsonName) = false := by
                simp only [beq_eq_false_iff_ne]
                rintro rfl
                exact hn'.1 hk
              rw [List.lookup_cons, this]
      · rw [if_neg hv] at he
        have hfn : fieldNames (f :: fs) = fieldNames fs := by
          unfold fieldNames; rw [List.filter_cons, if_neg hv]
        rw [hfn] at hn
        obtain ⟨ms, hbs, hsub, hj, ws, hws, htws, hrd⟩ := ih (fun x hx => hS x (by simp [hx])) hn htv.2 he
        refine ⟨ms, hbs, by rw [hfn]; exact hsub, hj, Γ.zeroTy f.ty :: ws, ?_, ?_, ?_⟩
        · rw [jnormFields]
          simp [hv, hws, zeroOf_eq]
        · exact fieldsTy_cons.mpr ⟨hasTy_zeroTy hz _, htws⟩
        · intro fo' l hf hl
          rw [hfn] at hl
          rw [List.map_cons, jdecFields, if_neg hv, hrd fo' l hf hl]
          rfl

theorem jencEntries_rt (h : RecJ Γ S fl rec nl nm rd) {e : Ty} {fo : FOpts}
    {kvs : List (Bytes × Val)} {bs : List Bytes} (hS : JOk Γ S e) (hinfo : getInfo Γ c e.deref = .ok ())
    (ht : ∀ kv ∈ kvs, HasTy Γ e kv.2) (he : jencEntries Γ c rec e fo kvs = .ok bs) :
    ∃ l : List (Bytes × Bytes × Val), bs = (l.map fun p => quoteStr p.1 ++ 0x3a :: p.2.1) ∧
      (∀ p ∈ l, JText p.2.1 ∧ HasTy Γ e p.2.2 ∧ ∀ fo', FoOk fl fo' → rd e (Γ.zeroTy e) fo' p.2.1 = .ok p.2.2) ∧
      jnormEntries nm e kvs = some (l.map fun p => (sanitize p.1, p.2.2)) := by
  induction kvs generalizing bs with
  | nil =>
    simp only [jencEntries, Res.ok.injEq] at he
    subst he
    exact ⟨[], rfl, by simp, rfl⟩
  | cons kv kvs ih =>
    obtain ⟨k, v⟩ := kv
    rw [jencEntries] at he
    obtain ⟨b, hb, he⟩ := Res.bind_eq_ok he
    obtain ⟨bs', hbs, he⟩ := Res.bind_eq_ok he
    simp only [Res.ok.injEq] at he
    subst he
    have hb' : rec false e v fo = .ok b := by
      unfold jencEntry at hb
      cases hd : derefVal e v with
      | none => rw [hd] at hb; exact hb
      | some dv => rw [hd, hinfo] at hb; exact hb
    obtain ⟨h1, _, w, hw, htw, hrd⟩ := h false e v fo b hS (ht (k, v) (by simp)) hb'
    obtain ⟨l, hl, hp, hnm⟩ := ih (fun x hx => ht x (by simp [hx])) hbs
    refine ⟨(k, b, w) :: l, by rw [hl]; rfl, ?_, ?_⟩
    · simp only [List.mem_cons, forall_eq_or_imp]
      exact ⟨⟨h1, htw, hrd⟩, hp⟩
    · simp [jnormEntries, hw, hnm]

theorem jdecEntries_ok {e : Ty} {fo' : FOpts} {l : List (Bytes × Bytes × Val)}
    (h : ∀ p ∈ l, rd e (Γ.zeroTy e) fo' p.2.1 = .ok p.2.2) :
    jdecEntries Γ rd e fo' (l.map fun p => (p.1, p.2.1)) = .ok (l.map fun p => (p.1, p.2.2)) := by
  induction l with
  | nil => rfl
  | cons p l ih =>
    rw [List.map_cons, jdecEntries, h p (by simp), Res.bind_ok, ih fun q hq => h q (by simp [hq])]
    rfl

theorem strText_ne_null {b : Bytes} (h : StrText b) : b ≠ jNull := by
  cases h; simp [jNull]

theorem conc?_tid {c : Codec} {id : TId} {ci : ConcInfo} (h : c.conc? id = some ci) : ci.tid = id := by
  have := List.find?_some h
  simpa using this

theorem strText_ends {b : Bytes} (h : StrText b) : 2 ≤ b.length ∧ b.head? = some 0x22 ∧ b.getLast? = some 0x22 := by
  cases h with
  | @mk b hb =>
    refine ⟨by simp, rfl, ?_⟩
    rw [List.getLast?_cons, List.getLast?_concat]
    rfl

theorem strText_int (i : Int) : StrText (0x22 :: (intText i ++ [0x22])) := by
  refine .mk (strBody_plain fun c hc => ?_)
  have hd : ∀ c ∈ natText i.natAbs, Digit c := by
    have hl : i.natAbs < 10 ^ (i.natAbs.log2 + 1 + 1) := by
      have h1 : i.natAbs < 2 ^ (i.natAbs.log2 + 1) := Nat.lt_log2_self
      have h2 : 2 ^ (i.natAbs.log2 + 1) ≤ 10 ^ (i.natAbs.log2 + 1) := Nat.pow_le_pow_left (by omega) _
      have h3 : 10 ^ (i.natAbs.log2 + 1) ≤ 10 ^ (i.natAbs.log2 + 1 + 1) := Nat.pow_le_pow_right (by omega) (by omega)
      omega
    exact (digits_spec _ _ hl).2.2.1
  have hnum : c = 0x2d ∨ Digit c := by
    unfold intText at hc
    split at hc
    · rcases List.mem_cons.mp hc with hc | hc
      · exact .inl hc
      · exact .inr (hd c hc)
    · exact .inr (hd c hc)
  rcases hnum with rfl | hd
  · decide
  · exact ⟨UInt8.le_trans (by decide) hd.1, digit_ne hd (by decide), digit_ne hd (by decide)⟩

theorem unmFloat_num {parse : Bytes → Option UInt64} {old x : UInt64} {b : Bytes} (hb : NumText b) (h : parse b = some x) :
    unmFloat parse old b = some x := by
  rw [unmFloat, wholeVal_jtext (.num hb), if_neg (by simpa using numText_ne_null hb), h]

theorem jdecInt_rt {k : IntKind} {i : Int} (h : k.inRange i) :
    jdecInt k (if k.bits = 64 then 0x22 :: (intText i ++ [0x22]) else intText i) = .ok (.int i) := by
  unfold jdecInt
  split
  · have hs := strText_ends (strText_int i)
    rw [if_neg (by simp), if_neg (by rw [hs.2.1, hs.2.2]; simp), if_neg (by omega)]
    have : ((0x22 :: (intText i ++ [0x22])).drop 1).take ((0x22 :: (intText i ++ [0x22])).length - 2) = intText i := by
      simp
    rw [this, unmInt_intText h]
    rfl
  · rw [unmInt_intText h]
    rfl

/-- Written as `null` by its kind. -/
def shapeNull (Γ : Prog) (id : TId) (v : Val) : Bool :=
  match Γ.shape id, v with
  | .slice _, .nil | .iface, .nil => true
  | _, _ => false

theorem jencShape_rt (hU : JUniv Γ c J fl S) (hL : LibOk J) (hT : Γ.Typed) (hZ : ZeroOk Γ)
    (h : RecJ Γ S fl rec nl nm rd) {a : Bool} {id : TId} {v : Val} {fo : FOpts} {b : Bytes} (hS : S id)
    (ht : HasTy Γ (.base id) v) (he : jencShape Γ c J rec a id v fo = .ok b) :
    JText b ∧ (b = jNull ↔ shapeNull Γ id v = true) ∧
    (shapeNull Γ id v = false → ∃ w, jnormShape Γ c nm id v = some w ∧ HasTy Γ (.base id) w ∧
      ∀ fo', FoOk fl fo' → jdecShape Γ c J rd id (Γ.zero id) fo' b = .ok w) := by
  have hstr : ∀ {x : Bytes}, StrText x → JText x ∧ x ≠ jNull := fun hx => ⟨.str hx, strText_ne_null hx⟩
  cases ht with
  | bool hs =>
    rename_i x
    simp only [jencShape, hs, Res.ok.injEq] at he
    subst he
    refine ⟨?_, ?_, fun _ => ⟨.bool x, by simp [jnormShape, hs], .bool hs, fun _ _ => ?_⟩⟩
    · cases x
      · exact JText.false
      · exact JText.true
    · cases x <;> simp [shapeNull, hs, jTrue, jFalse, jNull]
    · cases x <;> (simp only [jdecShape, hs]; rfl)
  | int hs hr =>
    rename_i k i
    simp only [jencShape, hs] at he
    have he' : b = if k.bits = 64 then 0x22 :: (intText i ++ [0x22]) else intText i := by
      split at he
      · rename_i h64; rw [if_pos h64]; exact (Res.ok.inj he).symm
      · rename_i h64; rw [if_neg h64]; exact (Res.ok.inj he).symm
    have hj : JText b ∧ b ≠ jNull := by
      rw [he']
      split
      · exact hstr (strText_int i)
      · exact ⟨.num (numText_intText i), numText_ne_null (numText_intText i)⟩
    refine ⟨hj.1, by simp [hj.2, shapeNull, hs], fun _ => ⟨.int i, by simp [jnormShape, hs], .int hs hr, fun _ _ => ?_⟩⟩
    simp only [jdecShape, hs]
    rw [he', jdecInt_rt hr]
  | f32 hs hr =>
    rename_i x
    simp only [jencShape, hs] at he
    split at he
    · cases he
    cases hx : J.f32Text x with
    | none => rw [hx] at he; cases he
    | some b' =>
      rw [hx] at he
      cases he
      have hl := hL.f32 hx
      refine ⟨.num hl.1, by simp [numText_ne_null hl.1, shapeNull, hs],
        fun _ => ⟨.f32 x, by simp [jnormShape, hs], .f32 hs hr, fun fo' hf => ?_⟩⟩
      simp only [jdecShape, hs, hf (hU.floats hS (.inl hs)), unmFloat_num hl.1 hl.2, ofOpt, Res.bind_ok]
      rfl
  | f64 hs =>
    rename_i x
    simp only [jencShape, hs] at he
    split at he
    · cases he
    cases hx : J.f64Text x with
    | none => rw [hx] at he; cases he
    | some b' =>
      rw [hx] at he
      cases he
      have hl := hL.f64 hx
      refine ⟨.num hl.1, by simp [numText_ne_null hl.1, shapeNull, hs],
        fun _ => ⟨.f64 x, by simp [jnormShape, hs], .f64 hs, fun fo' hf => ?_⟩⟩
      simp only [jdecShape, hs, hf (hU.floats hS (.inr hs)), unmFloat_num hl.1 hl.2, ofOpt, Res.bind_ok]
      rfl
  | str hs =>
    rename_i s
    simp only [jencShape, hs, Res.ok.injEq] at he
    subst he
    have hj := hstr (strText_quoteStr s)
    refine ⟨hj.1, by simp [hj.2, shapeNull, hs], fun _ => ⟨.str (sanitize s), by simp [jnormShape, hs], .str hs, fun _ _ => ?_⟩⟩
    simp only [jdecShape, hs, unmStr_quoteStr, ofOpt, Res.bind_ok]
  | time hs h1 h2 h3 h4 =>
    rename_i s ns
    simp only [jencShape, hs] at he
    cases hx : J.timeText s ns with
    | none => rw [hx] at he; cases he
    | some b' =>
      rw [hx] at he
      cases he
      have hl := hL.time h1 h2 h3 h4 hx
      have hj := hstr hl.1
      refine ⟨hj.1, by simp [hj.2, shapeNull, hs], fun _ => ⟨.time s ns, by simp [jnormShape, hs], .time hs h1 h2 h3 h4, fun _ _ => ?_⟩⟩
      simp only [jdecShape, hs]
      rw [if_pos (strText_ends hl.1), if_neg (by rw [hl.2.1]; simp), hl.2.2]
      rfl
  | sliceNil hs =>
    simp only [jencShape, hs, Res.ok.injEq] at he
    subst he
    exact ⟨.null, by simp [shapeNull, hs], by simp [shapeNull, hs]⟩
  | sliceBytes hs hb =>
    rename_i e x
    simp only [jencShape, hs, jencBytes] at he
    split at he
    · cases he
    cases he
    have hj := hstr (strText_b64 x)
    refine ⟨hj.1, by simp [hj.2, shapeNull, hs], fun _ => ⟨if x.length == 0 then Γ.zero id else .bytes x, by simp [jnormShape, hs], ?_, fun _ _ => ?_⟩⟩
    · split
      · exact hT.zero id
      · exact .sliceBytes hs hb
    · simp only [jdecShape, hs, hb, unmBytes_b64, ofOpt, Res.bind_ok, if_true]
      cases x <;> rfl
  | arrayBytes hs hb hl =>
    rename_i n e x
    simp only [jencShape, hs, jencBytes] at he
    split at he
    · cases he
    cases he
    have hj := hstr (strText_b64 x)
    have he := hU.array hS hs
    rw [if_pos hb] at he
    refine ⟨hj.1, by simp [hj.2, shapeNull, hs], fun _ => ⟨.bytes x, by simp [jnormShape, hs], .arrayBytes hs hb hl, fun _ _ => ?_⟩⟩
    simp only [jdecShape, hs, hb, unmBytes_b64, ofOpt, Res.bind_ok, if_true, jdecByteArr]
    rw [if_neg (by simp [he]), if_neg (by simp [hl])]
  | slice hs hb hvs =>
    rename_i e vs
    have hSe := hU.slice hS hs hb
    simp only [jencShape, hs, jencList, hU.info hSe.1, Res.bind_ok] at he
    obtain ⟨bs, hbs, he⟩ := Res.bind_eq_ok he
    cases he
    obtain ⟨h1, h2, ws, hws, hlw, htw, hrd⟩ := jencElems_rt h hSe hvs hbs
    rw [joinComma_eq]
    refine ⟨.arr h1, by simp [jNull, shapeNull, hs], fun _ => ⟨if ws.length == 0 then Γ.zero id else .list ws, by simp [jnormShape, hs, hws], ?_, fun fo' hf => ?_⟩⟩
    · split
      · exact hT.zero id
      · exact .slice hs hb htw
    · simp only [jdecShape, hs, hb, hU.info hSe.1, unmRaws_jtext h1, ofOpt, Res.bind_ok, (hrd fo' hf).1]
      rw [h2, ← hlw]
      cases ws <;> rfl
  | array hs hb hl hvs =>
    rename_i n e vs
    have hSe := hU.array hS hs
    rw [hb, if_neg (by simp)] at hSe
    simp only [jencShape, hs, jencList, hU.info hSe.1, Res.bind_ok] at he
    obtain ⟨bs, hbs, he⟩ := Res.bind_eq_ok he
    cases he
    obtain ⟨h1, h2, ws, hws, hlw, htw, hrd⟩ := jencElems_rt h hSe hvs hbs
    rw [joinComma_eq]
    refine ⟨.arr h1, by simp [jNull, shapeNull, hs], fun _ => ⟨.list ws, by simp [jnormShape, hs, hws], .array hs hb (by omega) htw, fun fo' hf => ?_⟩⟩
    simp only [jdecShape, hs, hb, hU.info hSe.1, unmRaws_jtext h1, ofOpt, Res.bind_ok, hZ.array hs hb]
    rw [if_neg (by simp), if_neg (by omega), ← hl, (hrd fo' hf).2]
    rfl
  | mapNil hs =>
    simp only [jencShape, hs, Res.ok.injEq] at he
    subst he
    have hSe := hU.map hS hs
    refine ⟨jtext_obj (ms := []) (by simp), by simp [jNull, shapeNull, hs], fun _ => ⟨.map [], by simp [jnormShape, hs], .map hs (by simp), fun fo' hf => ?_⟩⟩
    have hr : unmRawMap [0x7b, 0x7d] = some [] := unmRawMap_obj (ms := []) (by simp)
    simp only [jdecShape, hs, hr, ofOpt, Res.bind_ok, hU.info hSe.1]
    rfl
  | map hs hkv =>
    rename_i e kvs
    have hSe := hU.map hS hs
    simp only [jencShape, hs] at he
    obtain ⟨bs, hbs, he⟩ := Res.bind_eq_ok he
    cases he
    obtain ⟨l, rfl, hp, hnm⟩ := jencEntries_rt h hSe (hU.info hSe.1) hkv hbs
    let ms := l.map fun p => (p.1, p.2.1)
    have hms : (l.map fun p => quoteStr p.1 ++ 0x3a :: p.2.1) = ms.map fun m => quoteStr m.1 ++ 0x3a :: m.2 := by
      simp [ms]
    have hj : ∀ m ∈ ms, JText m.2 := by
      intro m hm
      obtain ⟨p, hp', rfl⟩ := List.mem_map.mp hm
      exact (hp p hp').1
    rw [joinComma_eq, hms]
    let L := l.map fun p => (sanitize p.1, p.2)
    have hL' : ∀ p ∈ assocOf L [], ∃ q ∈ l, p.2 = q.2 := by
      intro p hp
      rcases mem_assocOf hp with hp | hp
      · obtain ⟨q, hq, rfl⟩ := List.mem_map.mp hp
        exact ⟨q, hq, rfl⟩
      · cases hp
    have e1 : (ms.map fun m => (sanitize m.1, m.2)) = L.map fun p => (p.1, p.2.1) := by simp [ms, L]
    have e2 : (l.map fun p => (sanitize p.1, p.2.2)) = L.map fun p => (p.1, p.2.2) := by simp [L]
    refine ⟨jtext_obj hj, by simp [jNull, shapeNull, hs], fun _ => ⟨.map ((assocOf L []).map fun p => (p.1, p.2.2)), ?_, .map hs ?_, fun fo' hf => ?_⟩⟩
    · simp only [jnormShape, hs, hnm, Option.map_some, assigns_eq, e2]
      exact congrArg (fun x => some (Val.map x)) (assocOf_map (fun x : Bytes × Val => x.2) L [])
    · intro kv hkv
      obtain ⟨p, hp', rfl⟩ := List.mem_map.mp hkv
      obtain ⟨q, hq, e⟩ := hL' p hp'
      rw [show p.2.2 = q.2.2 by rw [e]]
      exact (hp q hq).2.1
    · simp only [jdecShape, hs, unmRawMap_obj hj, ofOpt, Res.bind_ok, hU.info hSe.1, e1]
      have := assocOf_map (fun x : Bytes × Val => x.1) L []
      simp only [List.map_nil] at this
      rw [this, jdecEntries_ok]
      · rfl
      · intro p hp'
        obtain ⟨q, hq, e⟩ := hL' p hp'
        rw [e]
        exact (hp q hq).2.2 fo' hf
  | ifaceNil hs =>
    simp only [jencShape, hs, Res.ok.injEq] at he
    subst he
    exact ⟨.null, by simp [shapeNull, hs], by simp [shapeNull, hs]⟩
  | iface hs hi htv =>
    rename_i t v
    simp only [jencShape, hs, jencIface] at he
    split at he
    · cases he
    cases hd : derefVal t v with
    | none => rw [hd] at he; cases he
    | some dv =>
      rw [hd] at he
      simp only at he
      obtain ⟨_, _, he⟩ := Res.bind_eq_ok he
      cases hc : c.conc? t.deref with
      | none => rw [hc] at he; cases he
      | some ci =>
        rw [hc] at he
        simp only at he
        obtain ⟨b', hb', he⟩ := Res.bind_eq_ok he
        cases he
        obtain ⟨hSc, hni, hpn, hname, himp⟩ := hU.iface hS hs hi hc
        have htid := conc?_tid hc
        rw [← htid] at hb'
        have hdv : HasTy Γ (.base ci.tid) dv := by rw [htid]; exact hasTy_derefVal htv hd
        obtain ⟨h1, _, w, hw, htw, hrd⟩ := h t.isPtr (.base ci.tid) dv fo b' ⟨hSc, by simp [Ty.isPtr]⟩ hdv hb'
        refine ⟨jtext_wrap hpn h1, by simp [jNull, shapeNull, hs, wrapText, wrapOpen], fun _ =>
          ⟨if ci.ptrPref then .iface (.ptr (.base ci.tid)) (.ptr w) else .iface (.base ci.tid) w, ?_, ?_, fun fo' hf => ?_⟩⟩
        · simp only [jnormShape, hs, pointee_eq, hd, hc]
          rw [← htid, hw]
          rfl
        · split
          · rename_i hp; rw [if_pos hp] at himp; exact .iface hs himp (.ptr htw)
          · rename_i hp; rw [if_neg hp] at himp; exact .iface hs himp htw
        · simp only [jdecShape, hs, jdecIface, decodeInterfaceJSON_wrap hpn h1, Res.bind_ok, hname]
          have := hrd fo' hf
          simp only [Prog.zeroTy] at this
          rw [this]
          unfold ConcInfo.dynTy
          simp only
          rw [if_pos himp]
          cases ci.ptrPref <;> rfl
  | struct hs hlen hf =>
    rename_i fs vs
    simp only [jencShape, hs] at he
    obtain ⟨bs, hbs, he⟩ := Res.bind_eq_ok he
    cases he
    obtain ⟨ms, rfl, hsub, hj, ws, hws, htws, hrd⟩ := jencFields_rt h hT.zero (fun _ => hU.info)
      (fun f hm hv => (hU.field hS hs hm hv).1) (hU.names hS hs) ⟨hlen, hf⟩ hbs
    have hn : ((ms.map fun m => (sanitize m.1, m.2))) = ms := by
      have : ∀ m ∈ ms, (sanitize m.1, m.2) = m := by
        intro m hm
        have : m.1 ∈ fieldNames fs := hsub.subset (List.mem_map_of_mem hm)
        obtain ⟨f, hf', e⟩ := List.mem_map.mp this
        have hf'' := List.mem_filter.mp hf'
        have := (hU.field hS hs hf''.1 hf''.2).2
        rw [e] at this
        rw [sanitize_utf8 this]
      conv => rhs; rw [← List.map_id ms]
      exact List.map_congr_left this
    have ha : assocOf ms [] = ms := assocOf_nodup (acc := []) (hsub.nodup (hU.names hS hs))
    rw [joinComma_eq]
    refine ⟨jtext_obj hj, by simp [jNull, shapeNull, hs], fun _ => ⟨.struct ws, by simp [jnormShape, hs, hws], .struct hs htws.1 htws.2, fun fo' hf => ?_⟩⟩
    simp only [jdecShape, hs, unmRawMap_obj hj, ofOpt, Res.bind_ok, hn, ha, hZ.struct hs]
    rw [hrd fo' ms hf fun _ _ => rfl]
    rfl

end

/-! ## The main induction -/

variable {Γ : Prog} {c : Codec} {J : JLib} {S : TId → Prop} {fl : Bool}

theorem jbase_rt (hU : JUniv Γ c J fl S) (hL : LibOk J) (hT : Γ.Typed) (hZ : ZeroOk Γ) (hum : UserTotal Γ)
    {f g : Nat} (h : RecJ Γ S fl (jenc Γ c J f) (isNull Γ f) (jnorm Γ c f) (jdec Γ c J g))
    {a : Bool} {t : Ty} {v dv : Val} {fo : FOpts} {b : Bytes} (hS : JOk Γ S t) (ht : HasTy Γ t v)
    (hd : derefVal t v = some dv) (he : jencBase Γ c J (jenc Γ c J f) a t.deref dv fo = .ok b) :
    JText b ∧ (b = jNull ↔ isNull Γ (f + 1) t v = true) ∧
    (isNull Γ (f + 1) t v = false → ∃ w, jnormBase Γ c (jnorm Γ c f) t.deref dv = some w ∧
      HasTy Γ (.base t.deref) w ∧ ∀ fo', FoOk fl fo' →
        jdecBase Γ c J (jdec Γ c J g) t.deref (Γ.zero t.deref) fo' b = .ok w) := by
  have htd := hasTy_derefVal ht hd
  have hnl : isNull Γ (f + 1) t v =
      match Γ.marsh t.deref with
      | some (rid, m) => match m dv with | .ok r => isNull Γ f (.base rid) r | _ => false
      | none => shapeNull Γ t.deref dv := by
    rw [isNull, pointee_eq, hd]; rfl
  have hnone : ∀ (hm : Γ.marsh t.deref = none) (_ : jencShape Γ c J (jenc Γ c J f) a t.deref dv fo = .ok b)
      (_ : ∀ fo', jdecBase Γ c J (jdec Γ c J g) t.deref (Γ.zero t.deref) fo' b =
        jdecShape Γ c J (jdec Γ c J g) t.deref (Γ.zero t.deref) fo' b),
      JText b ∧ (b = jNull ↔ isNull Γ (f + 1) t v = true) ∧
      (isNull Γ (f + 1) t v = false → ∃ w, jnormBase Γ c (jnorm Γ c f) t.deref dv = some w ∧
        HasTy Γ (.base t.deref) w ∧ ∀ fo', FoOk fl fo' →
          jdecBase Γ c J (jdec Γ c J g) t.deref (Γ.zero t.deref) fo' b = .ok w) := by
    intro hm he hdec
    rw [hm] at hnl
    rw [hnl]
    have := jencShape_rt hU hL hT hZ h hS.1 htd he
    refine ⟨this.1, this.2.1, fun hn => ?_⟩
    obtain ⟨w, hw, htw, hrd⟩ := this.2.2 hn
    exact ⟨w, by simp only [jnormBase, hm, hw], htw, fun fo' hf => by rw [hdec, hrd fo' hf]⟩
  unfold jencBase at he
  by_cases hs : Γ.shape t.deref = .time
  · rw [if_pos hs] at he
    exact hnone (hU.time hS.1 hs) he fun fo' => by rw [jdecBase, if_pos hs]
  · rw [if_neg hs, (hU.methods hS.1).1] at he
    simp only at he
    cases hm : Γ.marsh t.deref with
    | none =>
      rw [hm] at he
      refine hnone hm he fun fo' => ?_
      rw [jdecBase, if_neg hs, (hU.methods hS.1).2, hU.noMarsh hS.1 hm]
    | some rm =>
      obtain ⟨rid, m⟩ := rm
      rw [hm] at he hnl
      simp only at he hnl
      obtain ⟨r, hr, he⟩ := Res.bind_eq_ok he
      obtain ⟨_, _, he⟩ := Res.bind_eq_ok he
      obtain ⟨⟨um, hu⟩, hSr⟩ := hU.marsh hS.1 hm
      obtain ⟨h1, h2, w, hw, htw, hrd⟩ := h false (.base rid) r fo b ⟨hSr, by simp [Ty.isPtr]⟩ (hT.marsh hm htd hr) he
      rw [hr] at hnl
      simp only at hnl
      obtain ⟨w', hw'⟩ := hum _ _ _ _ hu htw
      rw [hnl]
      refine ⟨h1, h2, fun hn => ⟨w', ?_, hT.unmarsh hu (hT.zero _) htw hw', fun fo' hf => ?_⟩⟩
      · simp only [jnormBase, hm, hr, hu, hw, Option.bind_some, hw']
      · have := hrd fo' hf
        simp only [Prog.zeroTy] at this
        rw [jdecBase, if_neg hs, (hU.methods hS.1).2, hu]
        simp only
        rw [hU.info hSr, Res.bind_ok, this, Res.bind_ok, hw']

/-- Whatever the encoder writes is a JSON text, `null` exactly for the values specified to be null, and
read back as the normalised value. -/
theorem jenc_rt (hU : JUniv Γ c J fl S) (hL : LibOk J) (hT : Γ.Typed) (hZ : ZeroOk Γ) (hum : UserTotal Γ)
    {f g : Nat} (hfg : f ≤ g) : RecJ Γ S fl (jenc Γ c J f) (isNull Γ f) (jnorm Γ c f) (jdec Γ c J g) := by
  induction f generalizing g with
  | zero => intro a t v fo b _ _ he; cases he
  | succ f ih =>
    obtain ⟨g, rfl⟩ : ∃ k, g = k + 1 := ⟨g - 1, by omega⟩
    intro a t v fo b hS ht he
    have hip : (Γ.isIface t.deref && t.isPtr) = false := by
      cases hp : t.isPtr with
      | false => simp
      | true => simp [hS.2 hp]
    rw [jenc] at he
    cases hd : derefVal t v with
    | none =>
      rw [hd] at he
      cases he
      have hn : isNull Γ (f + 1) t v = true := by rw [isNull, pointee_eq, hd]
      refine ⟨.null, by simp [hn], Γ.zeroTy t, by rw [jnorm, if_pos hn, zeroOf_eq], hasTy_zeroTy hT.zero t, fun fo' _ => ?_⟩
      rw [jdec, hip, if_neg (by simp), if_pos rfl]
    | some dv =>
      rw [hd] at he
      obtain ⟨h1, h2, h3⟩ := jbase_rt hU hL hT hZ hum (ih (g := g) (by omega)) hS ht hd he
      refine ⟨h1, h2, ?_⟩
      cases hn : isNull Γ (f + 1) t v with
      | true =>
        refine ⟨Γ.zeroTy t, by rw [jnorm, if_pos hn, zeroOf_eq], hasTy_zeroTy hT.zero t, fun fo' _ => ?_⟩
        rw [jdec, hip, if_neg (by simp), if_pos (h2.mpr hn)]
      | false =>
        obtain ⟨w, hw, htw, hrd⟩ := h3 hn
        refine ⟨refs t w, ?_, hasTy_refs htw, fun fo' hf => ?_⟩
        · rw [jnorm, hn, if_neg (by simp), pointee_eq, hd]
          simp [hw]
        · have hne : b ≠ jNull := fun e => by rw [h2.mp e] at hn; cases hn
          rw [jdec, hip, if_neg (by simp), if_neg hne, derefPrior_zero, hrd fo' hf, Res.bind_ok, refs_eq]

end Amino
