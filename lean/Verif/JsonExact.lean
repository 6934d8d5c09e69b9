import Verif.JsonRT

/-!
# Values that JSON preserves, decimal notation, map order
-/

namespace Amino
open Spec

/-! ## Decimal notation -/

theorem parseDigits_decVal {ds : Bytes} (h : ∀ c ∈ ds, Digit c) (a : Nat) :
    parseDigits ds a = some (ds.foldl (fun n d => 10 * n + (d.toNat - 48)) a) := by
  induction ds generalizing a with
  | nil => rfl
  | cons c r ih =>
    simp only [List.mem_cons, forall_eq_or_imp] at h
    rw [parseDigits, if_pos (isDigit_of h.1), ih h.2, List.foldl_cons, Nat.mul_comm]

theorem intPart_digits {ds : Bytes} (h : IntPart ds) : ds ≠ [] ∧ ∀ c ∈ ds, Digit c := by
  cases h with
  | zero => simp [Digit]
  | pos h1 h2 h3 =>
    simp only [List.mem_cons, forall_eq_or_imp]
    exact ⟨by simp, ⟨UInt8.le_trans (by decide) h1, h2⟩, h3⟩

theorem parseNat_decVal {ds : Bytes} (h : IntPart ds) : parseNat ds = some (decVal ds) := by
  unfold parseNat
  rw [if_neg (intPart_digits h).1]
  exact parseDigits_decVal (intPart_digits h).2 0

theorem parseInt_dec {i : Int} {b : Bytes} (h : DecText i b) : parseInt b = some i := by
  cases h with
  | pos h =>
    obtain ⟨c, r, e, hd⟩ := intPart_head h
    rw [e, parseInt, if_neg (digit_ne hd (by decide)), ← e, parseNat_decVal h]
    rfl
  | neg h h0 =>
    rw [parseInt, if_pos rfl, parseNat_decVal h]
    rfl

theorem numText_dec {i : Int} {b : Bytes} (h : DecText i b) : NumText b := by
  have e : ∀ x : Bytes, x = x ++ [] ++ [] := by simp
  cases h with
  | pos h => rw [e b]; exact .pos h .none .none
  | @neg ds h h0 => rw [e ds]; exact .neg h .none .none

theorem decText_intText (i : Int) : DecText i (intText i) := by
  have h := natText_spec i.natAbs
  have hv : decVal (natText i.natAbs) = i.natAbs := by
    have := parseNat_decVal h.2
    rw [h.1] at this
    exact (Option.some.inj this).symm
  unfold intText
  split
  · rename_i hi
    have := DecText.neg h.2 (by rw [hv]; omega)
    rw [hv] at this
    rwa [show -(i.natAbs : Int) = i by omega] at this
  · rename_i hi
    have := DecText.pos h.2
    rw [hv] at this
    rwa [show (i.natAbs : Int) = i by omega] at this

/-- What an integer variable makes of a decimal number: the number if it is in range, else an error. -/
theorem parseIntKind_dec {k : IntKind} {i : Int} {b : Bytes} (h : DecText i b) :
    parseIntKind k b = if k.inRange i then some i else none := by
  unfold parseIntKind
  rw [parseInt_dec h]
  simp only [Option.bind_some]
  split
  · rename_i hh
    rw [if_neg]
    intro hr
    unfold IntKind.inRange at hr
    rw [if_neg (by simp [hh.1])] at hr
    cases h with
    | pos h =>
      obtain ⟨c, r, e, hd⟩ := intPart_head h
      rw [e] at hh
      simp only [List.head?_cons, Option.some.injEq] at hh
      exact digit_ne hd (by decide) hh.2
    | neg h h0 => omega
  · rfl

theorem unmInt_dec {k : IntKind} {i old : Int} {b : Bytes} (h : DecText i b) :
    unmInt k old b = if k.inRange i then some i else none := by
  unfold unmInt
  rw [wholeVal_jtext (.num (numText_dec h))]
  simp only [Option.bind_some]
  rw [if_neg (numText_ne_null (numText_dec h)), parseIntKind_dec h]

/-- The text of an integer of the kind, by the specification. -/
def intJson (k : IntKind) (ds : Bytes) : Bytes := if k.bits = 64 then 0x22 :: (ds ++ [0x22]) else ds

theorem jdecInt_dec {k : IntKind} {i : Int} {ds : Bytes} (h : DecText i ds) :
    jdecInt k (intJson k ds) = if k.inRange i then .ok (.int i) else .err .json := by
  have hfin : (ofOpt Err.json (if k.inRange i then some i else none)).bind (fun i => Res.ok (Val.int i)) =
      if k.inRange i then .ok (.int i) else .err .json := by split <;> rfl
  unfold jdecInt intJson
  split
  · rw [if_neg (by simp), if_neg, if_neg (by simp)]
    · have : ((0x22 :: (ds ++ [0x22])).drop 1).take ((0x22 :: (ds ++ [0x22])).length - 2) = ds := by simp
      rw [this, unmInt_dec h, hfin]
    · rw [List.getLast?_cons, List.getLast?_concat]
      simp
  · rw [unmInt_dec h, hfin]

theorem intJson_ne_null {k : IntKind} {i : Int} {ds : Bytes} (h : DecText i ds) : intJson k ds ≠ jNull := by
  unfold intJson
  split
  · simp [jNull]
  · exact numText_ne_null (numText_dec h)

/-! ## Map order -/

theorem eq_of_zip {α : Type} {vs ws : List α} (hl : vs.length = ws.length) (h : ∀ p ∈ vs.zip ws, p.1 = p.2) : vs = ws := by
  induction vs generalizing ws with
  | nil => cases ws with
    | nil => rfl
    | cons => simp at hl
  | cons v vs ih =>
    cases ws with
    | nil => simp at hl
    | cons w ws =>
      simp only [List.zip_cons_cons, List.mem_cons, forall_eq_or_imp] at h
      rw [h.1, ih (by simpa using hl) h.2]

theorem sameVal_eq {v w : Val} (h : SameVal v w) (hs : SmallMaps v) : v = w := by
  induction h with
  | refl => rfl
  | ptr _ ih => cases hs with | ptr hs => rw [ih hs]
  | iface _ ih => cases hs with | iface hs => rw [ih hs]
  | list hl _ ih =>
    cases hs with
    | list hs => rw [eq_of_zip hl fun p hp => ih p hp (hs _ (List.of_mem_zip hp).1)]
  | struct hl _ ih =>
    cases hs with
    | struct hs => rw [eq_of_zip hl fun p hp => ih p hp (hs _ (List.of_mem_zip hp).1)]
  | @map l m m' hl hk _ hp ih =>
    cases hs with
    | map hn hs =>
      have e : l = m := eq_of_zip hl fun p hp => Prod.ext (hk p hp) (ih p hp (hs _ (List.of_mem_zip hp).1))
      subst e
      match l, hn with
      | [], _ => rw [hp.nil_eq]
      | [x], _ => rw [List.singleton_perm.mp hp]

/-! ## Exact values -/

section
variable {Γ : Prog} {c : Codec}

theorem pointee_refs (t : Ty) (v : Val) : pointee t (refs t v) = some v := by
  induction t with
  | base id => rfl
  | ptr t ih => exact ih

theorem exact_elems {nm : Ty → Val → Option Val} (h : ∀ t v w, Exact Γ c t v → nm t v = some w → w = v) {e : Ty}
    {vs ws : List Val} (hv : ∀ v ∈ vs, Exact Γ c e v) (hn : jnormElems nm e vs = some ws) : ws = vs := by
  induction vs generalizing ws with
  | nil => cases hn; rfl
  | cons v vs ih =>
    simp only [List.mem_cons, forall_eq_or_imp] at hv
    rw [jnormElems] at hn
    obtain ⟨w, hw, hn⟩ := Option.bind_eq_some_iff.mp hn
    obtain ⟨ws', hws, rfl⟩ := Option.map_eq_some_iff.mp hn
    rw [h _ _ _ hv.1 hw, ih hv.2 hws]

theorem exact_fields {nm : Ty → Val → Option Val} (h : ∀ t v w, Exact Γ c t v → nm t v = some w → w = v)
    {fs : List Field} {vs ws : List Val} (hb : ∀ p ∈ fs.zip vs, FieldBack Γ p.1 p.2)
    (hv : ∀ p ∈ fs.zip vs, p.1.visible = true → (p.1.opts.omitEmpty && leftOut Γ p.1.ty p.2) = false →
      Exact Γ c p.1.ty p.2) (hn : jnormFields Γ nm fs vs = some ws) :
    ws = vs := by
  induction fs generalizing vs ws with
  | nil =>
    cases vs with
    | nil => cases hn; rfl
    | cons => cases hn
  | cons f fs ih =>
    cases vs with
    | nil => cases hn
    | cons v vs =>
      simp only [List.zip_cons_cons, List.mem_cons, forall_eq_or_imp] at hb hv
      rw [jnormFields] at hn
      split at hn
      · rename_i hvis
        simp only [Bool.and_eq_true] at hvis
        obtain ⟨w, hw, hn⟩ := Option.bind_eq_some_iff.mp hn
        obtain ⟨ws', hws, rfl⟩ := Option.map_eq_some_iff.mp hn
        rw [h _ _ _ (hv.1 hvis.1 (by have := hvis.2; revert this; simp only [Bool.not_eq_true']; exact id)) hw, ih hb.2 hv.2 hws]
      · rename_i hvis
        obtain ⟨ws', hws, rfl⟩ := Option.map_eq_some_iff.mp hn
        rw [ih hb.2 hv.2 hws]
        have hb1 := hb.1
        unfold FieldBack at hb1
        congr 1
        cases hvv : f.visible with
        | false => rw [hvv] at hb1; exact hb1.symm
        | true =>
          rw [hvv] at hb1
          simp only [hvv, Bool.true_and, Bool.not_eq_true', Bool.not_eq_false, Bool.and_eq_true] at hvis
          exact (hb1 hvis.1 hvis.2).symm

theorem exact_entries {nm : Ty → Val → Option Val} (h : ∀ t v w, Exact Γ c t v → nm t v = some w → w = v)
    {e : Ty} {l l' : List (Bytes × Val)} (hu : ∀ p ∈ l, Utf8 p.1) (hv : ∀ p ∈ l, Exact Γ c e p.2)
    (hn : jnormEntries nm e l = some l') : l' = l := by
  induction l generalizing l' with
  | nil => cases hn; rfl
  | cons p l ih =>
    obtain ⟨k, v⟩ := p
    simp only [List.mem_cons, forall_eq_or_imp] at hu hv
    rw [jnormEntries] at hn
    obtain ⟨w, hw, hn⟩ := Option.bind_eq_some_iff.mp hn
    obtain ⟨ws', hws, rfl⟩ := Option.map_eq_some_iff.mp hn
    rw [h _ _ _ hv.1 hw, ih hu.2 hv.2 hws, sanitize_utf8 hu.1]

theorem exact_shape {nm : Ty → Val → Option Val} (h : ∀ t v w, Exact Γ c t v → nm t v = some w → w = v)
    {id : TId} {v w : Val} (hmn : Γ.marsh id = none) (hv : Exact Γ c (.base id) v) (hn : jnormShape Γ c nm id v = some w)
    (hnull : shapeNull Γ id v = false) : w = v := by
  unfold jnormShape at hn
  cases hv with
  | marsh hm => rw [hmn] at hm; cases hm
  | ptr hp => cases hp
  | bool hm hs => rw [hs] at hn; exact (Option.some.inj hn).symm
  | int hm hs => rw [hs] at hn; exact (Option.some.inj hn).symm
  | f32 hm hs => rw [hs] at hn; exact (Option.some.inj hn).symm
  | f64 hm hs => rw [hs] at hn; exact (Option.some.inj hn).symm
  | time hm hs => rw [hs] at hn; exact (Option.some.inj hn).symm
  | str hm hs hu =>
    rw [hs] at hn
    simp only [sanitize_utf8 hu] at hn
    exact (Option.some.inj hn).symm
  | sliceNil hm hs => simp [shapeNull, hs] at hnull
  | ifaceNil hm hs => simp [shapeNull, hs] at hnull
  | sliceBytes hm hs hne =>
    rename_i e b
    rw [hs] at hn
    simp only at hn
    rw [if_neg (by cases b <;> simp_all)] at hn
    exact (Option.some.inj hn).symm
  | arrayBytes hm hs => rw [hs] at hn; exact (Option.some.inj hn).symm
  | slice hm hs hne hvs =>
    rw [hs] at hn
    simp only at hn
    obtain ⟨ws, hws, rfl⟩ := Option.map_eq_some_iff.mp hn
    rw [exact_elems h hvs hws]
    rename_i e vs
    rw [if_neg (by cases vs <;> simp_all)]
  | array hm hs hvs =>
    rw [hs] at hn
    simp only at hn
    obtain ⟨ws, hws, rfl⟩ := Option.map_eq_some_iff.mp hn
    rw [exact_elems h hvs hws]
  | map hm hs hk hu hvs =>
    rw [hs] at hn
    simp only at hn
    obtain ⟨ws, hws, rfl⟩ := Option.map_eq_some_iff.mp hn
    rw [exact_entries h hu hvs hws, assigns_eq, assocOf_nodup (acc := []) hk]
    rfl
  | iface hm hs hw hc htid ht hv =>
    rename_i t v w' ci
    rw [hs] at hn
    simp only [hw, pointee_refs, hc] at hn
    obtain ⟨w2, hw2, rfl⟩ := Option.map_eq_some_iff.mp hn
    rw [h _ _ _ hv hw2]
    rw [hw]
    cases hp : ci.ptrPref <;> rw [hp] at ht <;> rw [ht] <;> rfl
  | struct hm hs hl hb hvs =>
    rw [hs] at hn
    simp only at hn
    obtain ⟨ws, hws, rfl⟩ := Option.map_eq_some_iff.mp hn
    rw [exact_fields h hb hvs hws]

theorem exact_base_null {id : TId} {v : Val} (hmn : Γ.marsh id = none) (h : Exact Γ c (.base id) v)
    (hn : shapeNull Γ id v = true) :
    v = .nil ∧ Γ.zero id = .nil ∧ (Γ.shape id = .iface ∨ ∃ e, Γ.shape id = .slice e) := by
  cases h with
  | marsh hm => rw [hmn] at hm; cases hm
  | ptr hp => cases hp
  | sliceNil hm hs hz => exact ⟨rfl, hz, .inr ⟨_, hs⟩⟩
  | ifaceNil hm hs hz => exact ⟨rfl, hz, .inl hs⟩
  | _ => simp [shapeNull] at hn

/-- Exact values come back unchanged. -/
theorem jnorm_exact {f : Nat} {t : Ty} {v w : Val} (h : Exact Γ c t v) (hn : jnorm Γ c f t v = some w) : w = v := by
  induction f generalizing t v w with
  | zero => cases hn
  | succ f ih =>
    -- a value behind the pointers
    have key : ∀ {t : Ty} {d w : Val}, Exact Γ c (.base t.deref) d →
        (t.isPtr = true → (Γ.shape t.deref = .iface ∨ ∃ e, Γ.shape t.deref = .slice e) → d ≠ .nil) →
        jnorm Γ c (f + 1) t (refs t d) = some w → w = refs t d := by
      intro t d w hd hnn hn
      cases hm : Γ.marsh t.deref with
      | some p =>
        obtain ⟨rid, m⟩ := p
        have : ∃ um r, Γ.unmarsh t.deref = some (rid, um) ∧ m d = .ok r ∧ um (Γ.zero t.deref) r = .ok d ∧
            (∀ f, isNull Γ f (.base rid) r = false) ∧ Exact Γ c (.base rid) r := by
          cases hd with
          | ptr hp => cases hp
          | marsh hm' h1 h2 h3 h4 h5 =>
            rw [hm] at hm'
            cases hm'
            exact ⟨_, _, h1, h2, h3, h4, h5⟩
          | _ => rename_i hm' _; simp_all
        obtain ⟨um, r, h1, h2, h3, h4, h5⟩ := this
        have hnl : isNull Γ (f + 1) t (refs t d) = false := by
          rw [isNull, pointee_refs, hm]
          simp only [h2, h4]
        rw [jnorm, hnl, pointee_refs, if_neg (by simp)] at hn
        simp only [Option.bind_some] at hn
        obtain ⟨w', hw', rfl⟩ := Option.map_eq_some_iff.mp hn
        rw [jnormBase, hm] at hw'
        simp only [h1, h2] at hw'
        obtain ⟨r', hr', hw'⟩ := Option.bind_eq_some_iff.mp hw'
        rw [ih h5 hr', h3] at hw'
        cases hw'
        rfl
      | none =>
        have hnl : isNull Γ (f + 1) t (refs t d) = shapeNull Γ t.deref d := by
          rw [isNull, pointee_refs, hm]; rfl
        rw [jnorm, hnl, pointee_refs] at hn
        cases hsn : shapeNull Γ t.deref d with
        | true =>
          obtain ⟨h1, h2, h3⟩ := exact_base_null hm hd hsn
          rw [hsn, if_pos rfl] at hn
          cases ht : t with
          | ptr t' => exact absurd h1 (hnn (by rw [ht]; rfl) h3)
          | base id =>
            rw [ht] at hn h2
            cases hn
            exact h2.trans h1.symm
        | false =>
          rw [hsn, if_neg (by simp)] at hn
          simp only [Option.bind_some] at hn
          obtain ⟨w', hw', rfl⟩ := Option.map_eq_some_iff.mp hn
          rw [jnormBase, hm] at hw'
          rw [exact_shape (fun t v w => ih) hm hd hw' hsn]
    cases t with
    | base id => exact key (t := .base id) h (by simp [Ty.isPtr]) hn
    | ptr t =>
      cases h with
      | ptrNil =>
        have : isNull Γ (f + 1) (.ptr t) .nil = true := by rw [isNull]; rfl
        rw [jnorm, if_pos this] at hn
        exact (Option.some.inj hn).symm
      | ptr hp hw hd hnn =>
        subst hw
        exact key (t := .ptr t) hd (fun _ => hnn) hn

end

end Amino
