import Verif.JsonExact

/-!
# What comes back from JSON has an exact notation
-/

namespace Amino
open Spec

namespace Spec

/-- Not a pointer to a slice. -/
def SliceFree (Γ : Prog) (t : Ty) : Prop := t.isPtr = true → ∀ e, Γ.shape t.deref ≠ .slice e

/-- Types without pointers to slices, whose MarshalAmino methods recover what UnmarshalAmino was given, and whose
representations are not written as `null`. -/
structure Settled (Γ : Prog) (S : TId → Prop) : Prop where
  law : ∀ {id rid m um r v}, S id → Γ.marsh id = some (rid, m) → Γ.unmarsh id = some (rid, um) → HasTy Γ (.base rid) r →
    um (Γ.zero id) r = .ok v → m v = .ok r
  repr : ∀ {id rid m f r}, S id → Γ.marsh id = some (rid, m) → HasTy Γ (.base rid) r → isNull Γ f (.base rid) r = false
  /-- types with MarshalAmino are not strings, slices or arrays -/
  kind : ∀ {id rid m}, S id → Γ.marsh id = some (rid, m) → Γ.shape id ≠ .string ∧ (∀ e, Γ.shape id ≠ .slice e) ∧
    ∀ n e, Γ.shape id ≠ .array n e
  slice : ∀ {id e}, S id → Γ.shape id = .slice e → SliceFree Γ e
  array : ∀ {id n e}, S id → Γ.shape id = .array n e → SliceFree Γ e
  map : ∀ {id e}, S id → Γ.shape id = .map e → SliceFree Γ e
  field : ∀ {id fs f}, S id → Γ.shape id = .struct fs → f ∈ fs → f.visible = true → SliceFree Γ f.ty

end Spec

variable {Γ : Prog} {c : Codec} {J : JLib} {S : TId → Prop} {fl : Bool}

/-- The strings, slices and arrays without elements. -/
def emptyOf (Γ : Prog) (id : TId) (v : Val) : Bool :=
  match Γ.shape id, v with
  | .string, .str s => s.length == 0
  | .slice _, .nil => true
  | .slice _, .bytes b | .array _ _, .bytes b => b.length == 0
  | .slice _, .list vs | .array _ _, .list vs => vs.length == 0
  | _, _ => false

theorem leftOut_some {t : Ty} {v dv : Val} (h : pointee t v = some dv) :
    leftOut Γ t v = ((!t.isPtr && dv == Γ.zero t.deref) || emptyOf Γ t.deref dv) := by
  rw [leftOut, h]
  rfl

theorem leftOut_zero (t : Ty) : leftOut Γ t (zeroOf Γ t) = true := by
  cases t with
  | ptr t => rfl
  | base id =>
    rw [leftOut_some (dv := Γ.zero id) rfl]
    simp [Ty.isPtr, Ty.deref]

theorem assocSet_keys {α : Type} (k : Bytes) (a : α) (l : List (Bytes × α)) :
    (assocSet k a l).map (·.1) = if k ∈ l.map (·.1) then l.map (·.1) else l.map (·.1) ++ [k] := by
  induction l with
  | nil => rfl
  | cons p l ih =>
    obtain ⟨k', a'⟩ := p
    rw [assocSet]
    split
    · rename_i h; subst h; simp
    · rename_i h
      rw [List.map_cons, ih]
      have h' : k ≠ k' := fun e => h e.symm
      simp only [List.map_cons, List.mem_cons, h', false_or]
      split <;> rfl

theorem assocOf_keys {α : Type} (l acc : List (Bytes × α)) (h : (acc.map (·.1)).Nodup) :
    ((assocOf l acc).map (·.1)).Nodup := by
  induction l generalizing acc with
  | nil => exact h
  | cons p l ih =>
    obtain ⟨k, a⟩ := p
    rw [assocOf]
    refine ih _ ?_
    rw [assocSet_keys]
    split
    · exact h
    · rename_i hk
      rw [List.nodup_append]
      refine ⟨h, by simp, ?_⟩
      intro x hx y hy
      rw [List.mem_singleton] at hy
      subst hy
      rintro rfl
      exact hk hx

/-- Values of components come back with an exact notation, and are not left out unless they were. -/
def Backs (Γ : Prog) (c : Codec) (S : TId → Prop) (nm : Ty → Val → Option Val) : Prop :=
  ∀ t v w, JOk Γ S t → SliceFree Γ t → HasTy Γ t v → nm t v = some w →
    HasTy Γ t w ∧ Exact Γ c t w ∧ (leftOut Γ t v = false → leftOut Γ t w = true → w = zeroOf Γ t)

variable {nm : Ty → Val → Option Val}

theorem backs_elems (h : Backs Γ c S nm) {e : Ty} (he : JOk Γ S e) (hf : SliceFree Γ e) {vs ws : List Val}
    (hv : ∀ v ∈ vs, HasTy Γ e v) (hn : jnormElems nm e vs = some ws) :
    (∀ w ∈ ws, Exact Γ c e w) ∧ ws.length = vs.length ∧ ∀ w ∈ ws, HasTy Γ e w := by
  induction vs generalizing ws with
  | nil => cases hn; simp
  | cons v vs ih =>
    simp only [List.mem_cons, forall_eq_or_imp] at hv
    rw [jnormElems] at hn
    obtain ⟨w, hw, hn⟩ := Option.bind_eq_some_iff.mp hn
    obtain ⟨ws', hws, rfl⟩ := Option.map_eq_some_iff.mp hn
    obtain ⟨h1, h2, h3⟩ := ih hv.2 hws
    obtain ⟨h4, h5, _⟩ := h _ _ _ he hf hv.1 hw
    simp only [List.mem_cons, forall_eq_or_imp, List.length_cons, h2, true_and]
    exact ⟨⟨h5, h1⟩, h4, h3⟩

theorem backs_entries (h : Backs Γ c S nm) {e : Ty} (he : JOk Γ S e) (hf : SliceFree Γ e) {l l' : List (Bytes × Val)}
    (hv : ∀ p ∈ l, HasTy Γ e p.2) (hn : jnormEntries nm e l = some l') :
    ∀ p ∈ l', Utf8 p.1 ∧ Exact Γ c e p.2 ∧ HasTy Γ e p.2 := by
  induction l generalizing l' with
  | nil => cases hn; simp
  | cons p l ih =>
    obtain ⟨k, v⟩ := p
    simp only [List.mem_cons, forall_eq_or_imp] at hv
    rw [jnormEntries] at hn
    obtain ⟨w, hw, hn⟩ := Option.bind_eq_some_iff.mp hn
    obtain ⟨ws', hws, rfl⟩ := Option.map_eq_some_iff.mp hn
    simp only [List.mem_cons, forall_eq_or_imp]
    obtain ⟨h4, h5, _⟩ := h _ _ _ he hf hv.1 hw
    exact ⟨⟨utf8_sanitizeN _ _, h5, h4⟩, ih hv.2 hws⟩

theorem zeroOf_typed (hT : Γ.Typed) (t : Ty) : HasTy Γ t (zeroOf Γ t) := by
  cases t with
  | base id => exact hT.zero id
  | ptr t => exact .ptrNil

theorem backs_fields (hT : Γ.Typed) (h : Backs Γ c S nm) {fs : List Field} {vs ws : List Val}
    (hf : ∀ f ∈ fs, f.visible = true → JOk Γ S f.ty ∧ SliceFree Γ f.ty)
    (hv : ∀ p ∈ fs.zip vs, HasTy Γ p.1.ty p.2) (hn : jnormFields Γ nm fs vs = some ws) :
    fs.length = ws.length ∧ (∀ p ∈ fs.zip ws, FieldBack Γ p.1 p.2) ∧
      (∀ p ∈ fs.zip ws, p.1.visible = true → (p.1.opts.omitEmpty && leftOut Γ p.1.ty p.2) = false →
        Exact Γ c p.1.ty p.2) ∧ ∀ p ∈ fs.zip ws, HasTy Γ p.1.ty p.2 := by
  induction fs generalizing vs ws with
  | nil =>
    cases vs with
    | nil => cases hn; simp
    | cons => cases hn
  | cons f fs ih =>
    cases vs with
    | nil => cases hn
    | cons v vs =>
      simp only [List.zip_cons_cons, List.mem_cons, forall_eq_or_imp] at hf hv
      rw [jnormFields] at hn
      split at hn
      · rename_i hvis
        simp only [Bool.and_eq_true] at hvis
        obtain ⟨w, hw, hn⟩ := Option.bind_eq_some_iff.mp hn
        obtain ⟨ws', hws, rfl⟩ := Option.map_eq_some_iff.mp hn
        obtain ⟨h1, h2, h3, h4⟩ := ih hf.2 hv.2 hws
        obtain ⟨hty, hx, hl⟩ := h _ _ _ (hf.1 hvis.1).1 (hf.1 hvis.1).2 hv.1 hw
        simp only [List.zip_cons_cons, List.mem_cons, forall_eq_or_imp, List.length_cons, h1, true_and]
        refine ⟨⟨?_, h2⟩, ⟨fun _ _ => hx, h3⟩, hty, h4⟩
        rw [FieldBack, if_pos hvis.1]
        intro ho hlw
        refine hl ?_ hlw
        have := hvis.2
        rw [ho] at this
        simpa using this
      · rename_i hvis
        obtain ⟨ws', hws, rfl⟩ := Option.map_eq_some_iff.mp hn
        obtain ⟨h1, h2, h3, h4⟩ := ih hf.2 hv.2 hws
        simp only [List.zip_cons_cons, List.mem_cons, forall_eq_or_imp, List.length_cons, h1, true_and]
        refine ⟨⟨?_, h2⟩, ⟨fun hvv hno => ?_, h3⟩, zeroOf_typed hT _, h4⟩
        · rw [FieldBack]
          split
          · exact fun _ _ => rfl
          · rfl
        · -- a field that was left out is left out again
          have : f.opts.omitEmpty = true := by
            rw [hvv] at hvis
            cases ho : f.opts.omitEmpty with
            | true => rfl
            | false => rw [ho] at hvis; simp at hvis
          rw [this, leftOut_zero] at hno
          cases hno

theorem backs_shape (hU : JUniv Γ c J fl S) (hT : Γ.Typed) (hP : Settled Γ S) (hZ : ZeroOk Γ) (h : Backs Γ c S nm) {id : TId} (hS : S id)
    (hm : Γ.marsh id = none) {v w : Val} (ht' : HasTy Γ (.base id) v) (hn : jnormShape Γ c nm id v = some w) (hnull : shapeNull Γ id v = false) :
    HasTy Γ (.base id) w ∧ Exact Γ c (.base id) w ∧ (emptyOf Γ id v = false → emptyOf Γ id w = false) := by
  have ht := ht'
  cases ht with
  | bool hs => simp only [jnormShape, hs] at hn; cases hn; exact ⟨ht', .bool hm hs, fun h => h⟩
  | int hs => simp only [jnormShape, hs] at hn; cases hn; exact ⟨ht', .int hm hs, fun h => h⟩
  | f32 hs => simp only [jnormShape, hs] at hn; cases hn; exact ⟨ht', .f32 hm hs, fun h => h⟩
  | f64 hs => simp only [jnormShape, hs] at hn; cases hn; exact ⟨ht', .f64 hm hs, fun h => h⟩
  | time hs => simp only [jnormShape, hs] at hn; cases hn; exact ⟨ht', .time hm hs, fun h => h⟩
  | str hs =>
    rename_i s
    simp only [jnormShape, hs] at hn
    cases hn
    refine ⟨.str hs, .str hm hs (utf8_sanitizeN _ _), ?_⟩
    simp only [emptyOf, hs]
    cases s with
    | nil => simp
    | cons a s =>
      intro _
      simp only [sanitize, List.length_cons, sanitizeN]
      split
      · simp
      · split
        · simp
        · rename_i h1 h2
          have : (List.take (utf8Len (a :: s)) (a :: s)).length ≠ 0 := by
            simp only [List.length_take, List.length_cons]; omega
          simp only [List.length_append, beq_eq_false_iff_ne]
          omega
  | sliceNil hs => simp [shapeNull, hs] at hnull
  | ifaceNil hs => simp [shapeNull, hs] at hnull
  | sliceBytes hs hk =>
    rename_i e b
    simp only [jnormShape, hs] at hn
    cases hn
    split
    · rename_i h0
      rw [hZ.slice hs]
      refine ⟨.sliceNil hs, .sliceNil hm hs (hZ.slice hs), ?_⟩
      simp only [emptyOf, hs]
      rw [h0]; exact fun h => h
    · rename_i h0
      exact ⟨ht', .sliceBytes hm hs (by rintro rfl; simp at h0), fun h => h⟩
  | arrayBytes hs => simp only [jnormShape, hs] at hn; cases hn; exact ⟨ht', .arrayBytes hm hs, fun h => h⟩
  | slice hs hk hv =>
    rename_i e vs
    simp only [jnormShape, hs] at hn
    obtain ⟨ws, hws, rfl⟩ := Option.map_eq_some_iff.mp hn
    obtain ⟨h1, h2, h3⟩ := backs_elems h (hU.slice hS hs hk) (hP.slice hS hs) hv hws
    split
    · rename_i h0
      rw [hZ.slice hs]
      refine ⟨.sliceNil hs, .sliceNil hm hs (hZ.slice hs), ?_⟩
      simp only [emptyOf, hs]
      rw [← h2, h0]; exact fun h => h
    · rename_i h0
      refine ⟨.slice hs hk h3, .slice hm hs (by rintro rfl; simp at h0) h1, ?_⟩
      simp only [emptyOf, hs, h2]
      exact fun h => h
  | array hs hk hl hv =>
    rename_i n e vs
    simp only [jnormShape, hs] at hn
    obtain ⟨ws, hws, rfl⟩ := Option.map_eq_some_iff.mp hn
    have := hU.array hS hs
    rw [hk] at this
    obtain ⟨h1, h2, h3⟩ := backs_elems h this (hP.array hS hs) hv hws
    refine ⟨.array hs hk (h2.trans hl) h3, .array hm hs h1, ?_⟩
    simp only [emptyOf, hs, h2]
    exact fun h => h
  | mapNil hs =>
    simp only [jnormShape, hs] at hn
    cases hn
    exact ⟨.map hs (by simp), .map hm hs (by simp) (by simp) (by simp), by simp [emptyOf, hs]⟩
  | map hs hv =>
    simp only [jnormShape, hs] at hn
    obtain ⟨l, hl, rfl⟩ := Option.map_eq_some_iff.mp hn
    have h1 := backs_entries h (hU.map hS hs) (hP.map hS hs) hv hl
    rw [assigns_eq]
    refine ⟨.map hs fun p hp => ?_, .map hm hs ?_ (fun p hp => ?_) (fun p hp => ?_), by simp [emptyOf, hs]⟩
    · rcases mem_assocOf hp with hp | hp
      · exact (h1 p hp).2.2
      · cases hp
    · exact assocOf_keys _ _ (by simp)
    · rcases mem_assocOf hp with hp | hp
      · exact (h1 p hp).1
      · cases hp
    · rcases mem_assocOf hp with hp | hp
      · exact (h1 p hp).2.1
      · cases hp
  | iface hs hi hv =>
    rename_i t v
    simp only [jnormShape, hs] at hn
    split at hn
    · rename_i dv ci hd hc
      obtain ⟨u, hu, rfl⟩ := Option.map_eq_some_iff.mp hn
      obtain ⟨h1, h2, _, _, hi'⟩ := hU.iface hS hs hi hc
      have htid := conc?_tid hc
      have hdv : HasTy Γ (.base t.deref) dv := hasTy_derefVal hv (by rw [← pointee_eq]; exact hd)
      have hb' := (h (.base t.deref) _ _ ⟨by rw [← htid]; exact h1, by simp [Ty.isPtr]⟩ (by simp [SliceFree, Ty.isPtr]) hdv hu)
      rw [← htid] at hb'
      obtain ⟨hty, hb, _⟩ := hb'
      have key : ∀ {t' : Ty}, t' = (if ci.ptrPref then .ptr (.base ci.tid) else .base ci.tid) →
          Exact Γ c (.base id) (.iface t' (refs t' u)) := by
        intro t' ht'
        have hd' : t'.deref = ci.tid := by rw [ht']; split <;> rfl
        exact .iface hm hs rfl (by rw [hd', htid]; exact hc) hd'.symm ht' (by rw [hd']; exact hb)
      refine ⟨?_, ?_, ?_⟩
      · cases hp : ci.ptrPref <;> rw [hp] at hi'
        · exact .iface hs hi' hty
        · exact .iface hs hi' (.ptr hty)
      · have := key rfl
        cases hp : ci.ptrPref <;> rw [hp] at this <;> exact this
      · cases hp : ci.ptrPref <;> simp [emptyOf, hs]
    · cases hn
  | struct hs hl hv =>
    simp only [jnormShape, hs] at hn
    obtain ⟨ws, hws, rfl⟩ := Option.map_eq_some_iff.mp hn
    obtain ⟨h1, h2, h3, h4⟩ := backs_fields hT h (fun f hf hvis => ⟨(hU.field hS hs hf hvis).1, hP.field hS hs hf hvis⟩) hv hws
    exact ⟨.struct hs h1 h4, .struct hm hs h1 h2 h3, by simp [emptyOf, hs]⟩

theorem refs_typed {t : Ty} {v : Val} (h : HasTy Γ (.base t.deref) v) : HasTy Γ t (refs t v) := by
  induction t with
  | base id => exact h
  | ptr t ih => exact .ptr (ih h)

theorem jnorm_backs (hU : JUniv Γ c J fl S) (hT : Γ.Typed) (hP : Settled Γ S) (hZ : ZeroOk Γ) (f : Nat) :
    Backs Γ c S (jnorm Γ c f) := by
  induction f with
  | zero => intro t v w _ _ _ h; cases h
  | succ f ih =>
    intro t v w hj hf ht hn
    rw [jnorm] at hn
    split at hn
    · rename_i hnl
      cases hn
      refine ⟨zeroOf_typed hT t, ?_, fun _ _ => rfl⟩
      cases t with
      | ptr t => exact .ptrNil
      | base id =>
        cases hm : Γ.marsh id with
        | none =>
          rw [isNull] at hnl
          simp only [pointee, Ty.deref, hm] at hnl
          split at hnl
          · rename_i hs; rw [zeroOf, hZ.slice hs]; exact .sliceNil hm hs (hZ.slice hs)
          · rename_i hs; rw [zeroOf, hZ.iface hs]; exact .ifaceNil hm hs (hZ.iface hs)
          · cases hnl
        | some p =>
          obtain ⟨rid, m⟩ := p
          rw [isNull] at hnl
          simp only [pointee, Ty.deref, hm] at hnl
          split at hnl
          · rename_i r hr
            rw [hP.repr hj.1 hm (hT.marsh hm ht hr)] at hnl
            cases hnl
          · cases hnl
    · rename_i hnl
      obtain ⟨dv, hd, hn⟩ := Option.bind_eq_some_iff.mp hn
      obtain ⟨u, hu, rfl⟩ := Option.map_eq_some_iff.mp hn
      have hdv : HasTy Γ (.base t.deref) dv := hasTy_derefVal ht (by rw [← pointee_eq]; exact hd)
      have key : HasTy Γ (.base t.deref) u ∧ Exact Γ c (.base t.deref) u ∧
          (emptyOf Γ t.deref dv = false → emptyOf Γ t.deref u = false) := by
        rw [jnormBase] at hu
        cases hm : Γ.marsh t.deref with
        | none =>
          rw [hm] at hu
          have hsn : shapeNull Γ t.deref dv = false := by
            rw [isNull, hd, hm] at hnl
            exact Bool.not_eq_true _ ▸ hnl
          exact backs_shape hU hT hP hZ ih hj.1 hm hdv hu hsn
        | some p =>
          obtain ⟨rid, m⟩ := p
          rw [hm] at hu
          obtain ⟨⟨um, hum⟩, hSr⟩ := hU.marsh hj.1 hm
          simp only [hum] at hu
          cases hr : m dv with
          | ok r =>
            rw [hr] at hu
            simp only at hu
            obtain ⟨r', hr', hu⟩ := Option.bind_eq_some_iff.mp hu
            split at hu
            · rename_i w hw
              cases hu
              obtain ⟨h1, h2, _⟩ := ih (.base rid) _ _ ⟨hSr, by simp [Ty.isPtr]⟩ (by simp [SliceFree, Ty.isPtr])
                (hT.marsh hm hdv hr) hr'
              have hk := hP.kind hj.1 hm
              refine ⟨hT.unmarsh hum (hT.zero _) h1 hw,
                .marsh hm hum (hP.law hj.1 hm hum h1 hw) hw (fun f => hP.repr hj.1 hm h1) h2, fun _ => ?_⟩
              unfold emptyOf
              split
              · exact absurd ‹_› hk.1
              · exact absurd ‹_› (hk.2.1 _)
              · exact absurd ‹_› (hk.2.1 _)
              · exact absurd ‹_› (hk.2.2 _ _)
              · exact absurd ‹_› (hk.2.1 _)
              · exact absurd ‹_› (hk.2.2 _ _)
              · rfl
            · cases hu
          | _ => rw [hr] at hu; cases hu
      obtain ⟨h0, h1, h2⟩ := key
      refine ⟨refs_typed h0, ?_, fun hl hl' => ?_⟩
      · cases t with
        | base id => exact h1
        | ptr t =>
          refine .ptr rfl rfl h1 ?_
          rintro (hs | ⟨e, hs⟩)
          · have := hj.2 rfl
            simp only [Prog.isIface, hs] at this
            cases this
          · exact absurd hs (hf rfl e)
      · rw [leftOut_some hd] at hl
        rw [leftOut_some (pointee_refs t u)] at hl'
        simp only [Bool.or_eq_false_iff] at hl
        rw [h2 hl.2, Bool.or_false, Bool.and_eq_true] at hl'
        cases t with
        | base id => exact beq_iff_eq.1 hl'.2
        | ptr t => simp [Ty.isPtr] at hl'

end Amino
