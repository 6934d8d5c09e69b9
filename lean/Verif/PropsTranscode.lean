import Verif.SpecTranscode
import Verif.PropsJson
import Verif.JsonFix
import Verif.Reenc
import Verif.AminoApi

/-!
# C86: through JSON to the same bytes
-/

namespace Amino
open Spec

variable {Γ : Prog} {c : Codec} {J : JLib} {S : TId → Prop} {fl : Bool}

theorem void_iff {s : Shape} {v : Val} : isDefaultBase s v = true ↔ Vacant s v := by
  cases s <;> cases v <;> simp [isDefaultBase, Vacant]

/-! ## The value behind the pointers -/

/-- The normal form of a component, seen through its pointers. -/
theorem comp {t : Ty} (hA : PtrOk Γ t) (hJ : JOk Γ S t) {jf : Nat} {v w : Val} (hn : jnorm Γ c jf t v = some w) :
    (derefVal t v = none ∧ derefVal t w = none) ∨
    (∃ dv dw, derefVal t v = some dv ∧ derefVal t w = some dw ∧ jnorm Γ c jf (.base t.deref) dv = some dw) ∨
    (∃ dv e, derefVal t v = some dv ∧ derefVal t w = none ∧ t.isPtr = true ∧ Γ.marsh t.deref = none ∧
      Γ.shape t.deref = .slice e ∧ dv = .nil) := by
  cases jf with
  | zero => cases hn
  | succ jf =>
    have hb : ∀ {dv}, derefVal t v = some dv → isNull Γ (jf + 1) t v = isNull Γ (jf + 1) (.base t.deref) dv := by
      intro dv hd
      rw [isNull, isNull, pointee_eq, hd]
      rfl
    rw [jnorm, pointee_eq] at hn
    cases hd : derefVal t v with
    | none =>
      have : isNull Γ (jf + 1) t v = true := by rw [isNull, pointee_eq, hd]
      rw [this, if_pos rfl] at hn
      cases hn
      left
      cases t with
      | base id => cases hd
      | ptr t => exact ⟨rfl, rfl⟩
    | some dv =>
      right
      rw [hd] at hn
      cases hnl : isNull Γ (jf + 1) t v with
      | false =>
        left
        rw [hnl, if_neg (by simp)] at hn
        simp only [Option.bind_some] at hn
        obtain ⟨dw, hw, rfl⟩ := Option.map_eq_some_iff.1 hn
        refine ⟨dv, dw, rfl, derefVal_refs t dw, ?_⟩
        rw [jnorm, ← hb hd, hnl, if_neg (by simp)]
        simp only [pointee, Option.bind_some, Ty.deref, hw]
        rfl
      | true =>
        rw [hnl, if_pos rfl] at hn
        cases hn
        cases t with
        | base id =>
          left
          cases hd
          refine ⟨v, _, rfl, rfl, ?_⟩
          rw [Ty.deref, jnorm, hnl, if_pos rfl]
        | ptr t =>
          right
          have hnb := hb hd
          rw [hnl, isNull] at hnb
          simp only [pointee, Ty.deref] at hnb
          cases hm : Γ.marsh t.deref with
          | some p =>
            exfalso
            obtain ⟨rid, m⟩ := p
            obtain ⟨h1, h2, h3⟩ := hA rfl rid m hm
            rw [hm] at hnb
            simp only at hnb
            split at hnb
            · cases jf with
              | zero => cases hnb
              | succ jf =>
                rw [isNull] at hnb
                simp only [pointee, Ty.deref, h1] at hnb
                split at hnb
                · exact h2 _ ‹_›
                · exact h3 ‹_›
                · cases hnb
            · cases hnb
          | none =>
            rw [hm] at hnb
            simp only at hnb
            split at hnb
            · rename_i e hs
              exact ⟨_, e, rfl, rfl, rfl, hm, hs, rfl⟩
            · rename_i hs
              have := hJ.2 rfl
              simp only [Ty.deref, Prog.isIface, hs] at this
              cases this
            · cases hnb

/-! ## Zero values stay zero values -/

theorem jnormElems_len {norm : Ty → Val → Option Val} {e : Ty} {vs ws : List Val} (h : jnormElems norm e vs = some ws) :
    ws.length = vs.length := by
  induction vs generalizing ws with
  | nil => cases h; rfl
  | cons v vs ih =>
    rw [jnormElems] at h
    obtain ⟨w, _, h⟩ := Option.bind_eq_some_iff.1 h
    obtain ⟨ws', h', rfl⟩ := Option.map_eq_some_iff.1 h
    simp [ih h']

theorem jnorm_shape {jf : Nat} {id : TId} {v w : Val} (hZ : ZeroOk Γ) (hm : Γ.marsh id = none)
    (hn : jnorm Γ c (jf + 1) (.base id) v = some w) :
    (v = .nil ∧ w = .nil ∧ ((∃ e, Γ.shape id = .slice e) ∨ Γ.shape id = .iface)) ∨
    (shapeNull Γ id v = false ∧ jnormShape Γ c (jnorm Γ c jf) id v = some w) := by
  rw [jnorm, isNull] at hn
  simp only [pointee, Ty.deref, hm, zeroOf, jnormBase, Option.bind_some, refs, Option.map_id'] at hn
  split at hn
  · rename_i hs
    cases hn
    exact .inl ⟨rfl, hZ.slice hs, .inl ⟨_, hs⟩⟩
  · rename_i hs
    cases hn
    exact .inl ⟨rfl, hZ.iface hs, .inr hs⟩
  · rename_i h1 h2
    refine .inr ⟨?_, hn⟩
    unfold shapeNull
    split
    · exact absurd rfl (h1 _ ‹_›)
    · exact absurd rfl (h2 ‹_›)
    · rfl

theorem jnorm_marsh {jf : Nat} {id rid : TId} {m : Val → Res Val} {v w : Val} (hm : Γ.marsh id = some (rid, m))
    (hn : jnorm Γ c (jf + 1) (.base id) v = some w) :
    ∃ r, m v = .ok r ∧ ((w = Γ.zero id ∧ jnorm Γ c jf (.base rid) r = some (Γ.zero rid)) ∨
      ∃ rid' um r', Γ.unmarsh id = some (rid', um) ∧ jnorm Γ c jf (.base rid) r = some r' ∧ um (Γ.zero id) r' = .ok w) := by
  rw [jnorm, isNull] at hn
  simp only [pointee, Ty.deref, hm, zeroOf, jnormBase, Option.bind_some, refs, Option.map_id'] at hn
  cases hr : m v with
  | ok r =>
    rw [hr] at hn
    refine ⟨r, rfl, ?_⟩
    simp only at hn
    split at hn
    · rename_i h0
      cases hn
      left
      refine ⟨rfl, ?_⟩
      cases jf with
      | zero => cases h0
      | succ jf => rw [jnorm, if_pos h0]; rfl
    · right
      cases hu : Γ.unmarsh id with
      | none => rw [hu] at hn; cases hn
      | some p =>
        obtain ⟨rid', um⟩ := p
        rw [hu] at hn
        simp only at hn
        obtain ⟨r', hr', hn⟩ := Option.bind_eq_some_iff.mp hn
        split at hn
        · rename_i hw; cases hn; exact ⟨rid', um, r', rfl, hr', hw⟩
        · cases hn
  | _ => rw [hr] at hn; cases hn

/-- Components come back with their types. -/
def Types (Γ : Prog) (S : TId → Prop) (nm : Ty → Val → Option Val) : Prop :=
  ∀ t v w, JOk Γ S t → HasTy Γ t v → nm t v = some w → HasTy Γ t w

theorem types_elems {nm : Ty → Val → Option Val} (h : Types Γ S nm) {e : Ty} (he : JOk Γ S e) {vs ws : List Val}
    (hv : ∀ v ∈ vs, HasTy Γ e v) (hn : jnormElems nm e vs = some ws) : ∀ w ∈ ws, HasTy Γ e w := by
  induction vs generalizing ws with
  | nil => cases hn; simp
  | cons v vs ih =>
    simp only [List.mem_cons, forall_eq_or_imp] at hv
    rw [jnormElems] at hn
    obtain ⟨w, hw, hn⟩ := Option.bind_eq_some_iff.mp hn
    obtain ⟨ws', hws, rfl⟩ := Option.map_eq_some_iff.mp hn
    simp only [List.mem_cons, forall_eq_or_imp]
    exact ⟨h _ _ _ he hv.1 hw, ih hv.2 hws⟩

theorem types_entries {nm : Ty → Val → Option Val} (h : Types Γ S nm) {e : Ty} (he : JOk Γ S e)
    {l l' : List (Bytes × Val)} (hv : ∀ p ∈ l, HasTy Γ e p.2) (hn : jnormEntries nm e l = some l') :
    (∀ p ∈ l', HasTy Γ e p.2) ∧ l'.length = l.length := by
  induction l generalizing l' with
  | nil => cases hn; simp
  | cons p l ih =>
    obtain ⟨k, v⟩ := p
    simp only [List.mem_cons, forall_eq_or_imp] at hv
    rw [jnormEntries] at hn
    obtain ⟨w, hw, hn⟩ := Option.bind_eq_some_iff.mp hn
    obtain ⟨ws', hws, rfl⟩ := Option.map_eq_some_iff.mp hn
    simp only [List.mem_cons, forall_eq_or_imp, List.length_cons, (ih hv.2 hws).2, and_true]
    exact ⟨h _ _ _ he hv.1 hw, (ih hv.2 hws).1⟩

theorem types_fields {nm : Ty → Val → Option Val} (hT : Γ.Typed) (h : Types Γ S nm) {fs : List Field} {vs ws : List Val}
    (hf : ∀ f ∈ fs, f.visible = true → JOk Γ S f.ty) (hv : ∀ p ∈ fs.zip vs, HasTy Γ p.1.ty p.2)
    (hn : jnormFields Γ nm fs vs = some ws) : fs.length = ws.length ∧ ∀ p ∈ fs.zip ws, HasTy Γ p.1.ty p.2 := by
  induction fs generalizing vs ws with
  | nil =>
    cases vs with
    | nil => cases hn; simp
    | cons => cases hn
  | cons f fs ih =>
    cases vs with
    | nil => cases hn
    | cons v vs =>
      simp only [List.zip_cons_cons, List.mem_cons, forall_eq_or_imp] at hf hv
      rw [jnormFields] at hn
      split at hn
      · rename_i hvis
        simp only [Bool.and_eq_true] at hvis
        obtain ⟨w, hw, hn⟩ := Option.bind_eq_some_iff.mp hn
        obtain ⟨ws', hws, rfl⟩ := Option.map_eq_some_iff.mp hn
        obtain ⟨h1, h2⟩ := ih hf.2 hv.2 hws
        simp only [List.zip_cons_cons, List.mem_cons, forall_eq_or_imp, List.length_cons, h1, true_and]
        exact ⟨h _ _ _ (hf.1 hvis.1) hv.1 hw, h2⟩
      · obtain ⟨ws', hws, rfl⟩ := Option.map_eq_some_iff.mp hn
        obtain ⟨h1, h2⟩ := ih hf.2 hv.2 hws
        simp only [List.zip_cons_cons, List.mem_cons, forall_eq_or_imp, List.length_cons, h1, true_and]
        exact ⟨zeroOf_typed hT _, h2⟩

theorem assigns_ne (l m : List (Bytes × Val)) (h : l ≠ [] ∨ m ≠ []) : assigns l m ≠ [] := by
  induction l generalizing m with
  | nil => rcases h with h | h; exact absurd rfl h; exact h
  | cons p l ih =>
    obtain ⟨k, v⟩ := p
    rw [assigns]
    refine ih _ (.inr ?_)
    cases m with
    | nil => simp [assign]
    | cons q m => obtain ⟨k', v'⟩ := q; rw [assign]; split <;> simp

theorem sanitize_ne {a : UInt8} {s : Bytes} : sanitize (a :: s) ≠ [] := by
  simp only [sanitize, List.length_cons, sanitizeN]
  split
  · simp
  · split
    · simp
    · rename_i h1 h2
      intro h0
      have := congrArg List.length h0
      simp only [List.length_append, List.length_take, List.length_cons, List.length_nil] at this
      omega

/-- What comes back is of the type, and empty if it was. -/
theorem types_shape {nm : Ty → Val → Option Val} (hU : JUniv Γ c J fl S) (hT : Γ.Typed) (hZ : ZeroOk Γ) (h : Types Γ S nm)
    {id : TId} (hS : S id) {v w : Val} (ht' : HasTy Γ (.base id) v) (hn : jnormShape Γ c nm id v = some w)
    (hnull : shapeNull Γ id v = false) :
    HasTy Γ (.base id) w ∧ isDefaultBase (Γ.shape id) w = isDefaultBase (Γ.shape id) v := by
  have ht := ht'
  cases ht with
  | bool hs => simp only [jnormShape, hs] at hn; cases hn; exact ⟨ht', rfl⟩
  | int hs => simp only [jnormShape, hs] at hn; cases hn; exact ⟨ht', rfl⟩
  | f32 hs => simp only [jnormShape, hs] at hn; cases hn; exact ⟨ht', rfl⟩
  | f64 hs => simp only [jnormShape, hs] at hn; cases hn; exact ⟨ht', rfl⟩
  | time hs => simp only [jnormShape, hs] at hn; cases hn; exact ⟨ht', rfl⟩
  | str hs =>
    rename_i s
    simp only [jnormShape, hs] at hn
    cases hn
    refine ⟨.str hs, ?_⟩
    rw [hs]
    cases s with
    | nil => rfl
    | cons a s =>
      simp only [isDefaultBase]
      cases h : sanitize (a :: s) with
      | nil => exact absurd h sanitize_ne
      | cons => rfl
  | sliceNil hs => simp [shapeNull, hs] at hnull
  | ifaceNil hs => simp [shapeNull, hs] at hnull
  | sliceBytes hs hk =>
    rename_i e b
    simp only [jnormShape, hs] at hn
    cases hn
    cases b with
    | nil => simp only [List.length_nil, beq_self_eq_true, if_true, hZ.slice hs]; exact ⟨.sliceNil hs, by rw [hs]; rfl⟩
    | cons a b => exact ⟨ht', rfl⟩
  | arrayBytes hs => simp only [jnormShape, hs] at hn; cases hn; exact ⟨ht', rfl⟩
  | slice hs hk hv =>
    rename_i e vs
    simp only [jnormShape, hs] at hn
    obtain ⟨ws, hws, rfl⟩ := Option.map_eq_some_iff.mp hn
    have h3 := types_elems h (hU.slice hS hs hk) hv hws
    have h2 := jnormElems_len hws
    cases ws with
    | nil =>
      cases vs with
      | nil => simp only [List.length_nil, beq_self_eq_true, if_true, hZ.slice hs]; exact ⟨.sliceNil hs, by rw [hs]; rfl⟩
      | cons => cases h2
    | cons u ws =>
      cases vs with
      | nil => cases h2
      | cons => exact ⟨.slice hs hk h3, by rw [hs]; rfl⟩
  | array hs hk hl hv =>
    rename_i n e vs
    simp only [jnormShape, hs] at hn
    obtain ⟨ws, hws, rfl⟩ := Option.map_eq_some_iff.mp hn
    have := hU.array hS hs
    rw [hk] at this
    exact ⟨.array hs hk ((jnormElems_len hws).trans hl) (types_elems h this hv hws), by rw [hs]; rfl⟩
  | mapNil hs =>
    simp only [jnormShape, hs] at hn
    cases hn
    exact ⟨.map hs (by simp), by rw [hs]; rfl⟩
  | map hs hv =>
    rename_i e kvs
    simp only [jnormShape, hs] at hn
    obtain ⟨l, hl, rfl⟩ := Option.map_eq_some_iff.mp hn
    obtain ⟨h1, h2⟩ := types_entries h (hU.map hS hs) hv hl
    refine ⟨.map hs fun p hp => ?_, ?_⟩
    · rw [assigns_eq] at hp
      rcases mem_assocOf hp with hp | hp
      · exact h1 p hp
      · cases hp
    · rw [hs]
      simp only [isDefaultBase]
      cases kvs with
      | nil => cases l with
        | nil => rfl
        | cons => cases h2
      | cons q kvs =>
        have : assigns l [] ≠ [] := assigns_ne _ _ (.inl (by rintro rfl; cases h2))
        cases h : assigns l [] with
        | nil => exact absurd h this
        | cons => rfl
  | iface hs hi hv =>
    rename_i t v
    simp only [jnormShape, hs] at hn
    split at hn
    · rename_i dv ci hd hc
      obtain ⟨u, hu, rfl⟩ := Option.map_eq_some_iff.mp hn
      obtain ⟨h1, h2, _, _, hi'⟩ := hU.iface hS hs hi hc
      have htid := conc?_tid hc
      have hdv : HasTy Γ (.base t.deref) dv := hasTy_derefVal hv (by rw [← pointee_eq]; exact hd)
      have hty := (h (.base t.deref) _ _ ⟨by rw [← htid]; exact h1, by simp [Ty.isPtr]⟩ hdv hu)
      rw [← htid] at hty
      cases hp : ci.ptrPref <;> rw [hp] at hi'
      · exact ⟨.iface hs hi' hty, by rw [hs]; rfl⟩
      · exact ⟨.iface hs hi' (.ptr hty), by rw [hs]; rfl⟩
    · cases hn
  | struct hs hl hv =>
    simp only [jnormShape, hs] at hn
    obtain ⟨ws, hws, rfl⟩ := Option.map_eq_some_iff.mp hn
    obtain ⟨h1, h4⟩ := types_fields hT h (fun f hf hvis => (hU.field hS hs hf hvis).1) hv hws
    exact ⟨.struct hs h1 h4, by rw [hs]; rfl⟩

theorem jnorm_typed (hU : JUniv Γ c J fl S) (hT : Γ.Typed) (hZ : ZeroOk Γ) (jf : Nat) : Types Γ S (jnorm Γ c jf) := by
  induction jf with
  | zero => intro t v w _ _ h; cases h
  | succ jf ih =>
    have base : ∀ id v w, S id → HasTy Γ (.base id) v → jnorm Γ c (jf + 1) (.base id) v = some w → HasTy Γ (.base id) w := by
      intro id v w hS ht hn
      cases hm : Γ.marsh id with
      | none =>
        rcases jnorm_shape hZ hm hn with ⟨rfl, rfl, _⟩ | ⟨h1, h2⟩
        · exact ht
        · exact (types_shape hU hT hZ ih hS ht h2 h1).1
      | some p =>
        obtain ⟨rid, m⟩ := p
        obtain ⟨r, hr, ⟨rfl, _⟩ | ⟨rid', um, r', hu, hr', hw⟩⟩ := jnorm_marsh hm hn
        · exact hT.zero id
        · obtain ⟨⟨um', hu'⟩, hSr⟩ := hU.marsh hS hm
          rw [hu] at hu'
          cases hu'
          exact hT.unmarsh hu (hT.zero id) (ih _ _ _ ⟨hSr, by simp [Ty.isPtr]⟩ (hT.marsh hm ht hr) hr') hw
    intro t v w hj ht hn
    have hn' := hn
    rw [jnorm] at hn
    split at hn
    · cases hn; exact zeroOf_typed hT t
    · rename_i hnl
      obtain ⟨dv, hd, hn⟩ := Option.bind_eq_some_iff.mp hn
      obtain ⟨u, hu, rfl⟩ := Option.map_eq_some_iff.mp hn
      refine refs_typed (base _ _ _ hj.1 (hasTy_derefVal ht (by rw [← pointee_eq]; exact hd)) ?_)
      have : isNull Γ (jf + 1) (.base t.deref) dv = isNull Γ (jf + 1) t v := by
        rw [isNull, isNull, hd]; rfl
      rw [jnorm, this, if_neg hnl]
      simp only [pointee, Option.bind_some, Ty.deref, hu]
      rfl

theorem struct_notVoid {id : TId} (h : Γ.isStruct id = true) (v : Val) : isDefaultBase (Γ.shape id) v = false := by
  unfold Prog.isStruct at h
  split at h
  · rename_i hs; rw [hs]; cases v <;> rfl
  · rename_i hs; rw [hs]; cases v <;> rfl
  · cases h

theorem void_norm (hU : JUniv Γ c J fl S) (hA : Alike Γ S) (hT : Γ.Typed) (hZ : ZeroOk Γ) {jf : Nat} {id : TId} {v w : Val}
    (hS : S id) (ht : HasTy Γ (.base id) v) (hn : jnorm Γ c jf (.base id) v = some w) :
    isDefaultBase (Γ.shape id) w = isDefaultBase (Γ.shape id) v := by
  induction jf generalizing id v w with
  | zero => cases hn
  | succ jf ih =>
    cases hm : Γ.marsh id with
    | none =>
      rcases jnorm_shape hZ hm hn with ⟨rfl, rfl, _⟩ | ⟨h1, h2⟩
      · rfl
      · exact (types_shape hU hT hZ (jnorm_typed hU hT hZ jf) hS ht h2 h1).2
    | some p =>
      obtain ⟨rid, m⟩ := p
      rcases hA.void hS hm with h | h
      · rw [struct_notVoid h, struct_notVoid h]
      · obtain ⟨⟨um', hu'⟩, hSr⟩ := hU.marsh hS hm
        rw [Bool.eq_iff_iff, void_iff, void_iff]
        have hw := jnorm_typed hU hT hZ _ (.base id) _ _ ⟨hS, by simp [Ty.isPtr]⟩ ht hn
        obtain ⟨r, hr, ⟨rfl, h0⟩ | ⟨rid', um, r', hu, hr', hw'⟩⟩ := jnorm_marsh hm hn
        · rw [h _ _ ht hr, h _ _ hw (hA.zero hS hm), ← void_iff, ← void_iff, ih hSr (hT.marsh hm ht hr) h0]
        · rw [hu] at hu'
          cases hu'
          have hrt := hT.marsh hm ht hr
          have hb := hA.back hS hm hu (jnorm_typed hU hT hZ _ (.base rid) _ _ ⟨hSr, by simp [Ty.isPtr]⟩ hrt hr') hw'
          rw [h _ _ ht hr, h _ _ hw hb, ← void_iff, ← void_iff, ih hSr hrt hr']

/-! ## The encoder -/

/-- Writing what came back is writing what there was. -/
def Alikes (Γ : Prog) (c : Codec) (S : TId → Prop) (rec : TId → Val → FOpts → Bool → Res Bytes) : Prop :=
  ∀ jf id v w fo bare b, S id → HasTy Γ (.base id) v → Utf8Val v → jnorm Γ c jf (.base id) v = some w →
    rec id v fo bare = .ok b → rec id w fo bare = .ok b

variable {rec : TId → Val → FOpts → Bool → Res Bytes}

theorem utf8_deref {t : Ty} {v dv : Val} (h : Utf8Val v) (hd : derefVal t v = some dv) : Utf8Val dv := by
  induction t generalizing v with
  | base id => cases hd; exact h
  | ptr t ih =>
    cases v <;> simp only [derefVal] at hd <;> try cases hd
    cases h with
    | ptr h => exact ih h hd

theorem alike_packed (h : Alikes Γ c S rec) {jf : Nat} {e : Ty} {fo : FOpts} (hA : PtrOk Γ e) (hJ : JOk Γ S e)
    (h3 : Γ.typ3 e.deref fo ≠ typ3ByteLength) {vs ws : List Val} {b : Bytes} (hv : ∀ v ∈ vs, HasTy Γ e v)
    (hu : ∀ v ∈ vs, Utf8Val v) (hn : jnormElems (jnorm Γ c jf) e vs = some ws) (he : encPacked Γ rec e fo vs = .ok b) :
    encPacked Γ rec e fo ws = .ok b := by
  induction vs generalizing ws b with
  | nil => cases hn; exact he
  | cons v vs ih =>
    simp only [List.mem_cons, forall_eq_or_imp] at hv hu
    rw [jnormElems] at hn
    obtain ⟨w, hw, hn⟩ := Option.bind_eq_some_iff.mp hn
    obtain ⟨ws', hws, rfl⟩ := Option.map_eq_some_iff.mp hn
    rw [encPacked] at he
    obtain ⟨b1, h1, he⟩ := Res.bind_eq_ok he
    obtain ⟨b2, h2, he⟩ := Res.bind_eq_ok he
    cases he
    have : rec e.deref (Γ.derefZero e w) fo false = .ok b1 := by
      unfold Prog.derefZero at h1 ⊢
      rcases comp hA hJ hw with ⟨e1, e2⟩ | ⟨dv, dw, e1, e2, hd⟩ | ⟨dv, e', e1, e2, _, _, hs, _⟩
      · rw [e1] at h1; rw [e2]; exact h1
      · rw [e1] at h1
        rw [e2]
        exact h _ _ _ _ _ _ _ hJ.1 (hasTy_derefVal hv.1 e1) (utf8_deref hu.1 e1) hd h1
      · exact absurd (by simp [Prog.typ3, hs]) h3
    rw [encPacked, this, Res.bind, ih hv.2 hu.2 hws h2]
    rfl

theorem alike_elem (hU : JUniv Γ c J fl S) (hL : Alike Γ S) (hT : Γ.Typed) (hZ : ZeroOk Γ) (h : Alikes Γ c S rec)
    {jf : Nat} {e : Ty} {fo : FOpts} (hA : PtrOk Γ e) (hJ : JOk Γ S e) {v w : Val} {b : Bytes} (hv : HasTy Γ e v)
    (hu : Utf8Val v) (hn : jnorm Γ c jf e v = some w) (he : encElem Γ rec e fo v = .ok b) :
    encElem Γ rec e fo w = .ok b := by
  unfold encElem at he ⊢
  rcases comp hA hJ hn with ⟨e1, e2⟩ | ⟨dv, dw, e1, e2, hd⟩ | ⟨dv, e', e1, e2, _, _, hs, rfl⟩
  · rw [e1] at he; rw [e2]; exact he
  · rw [e1] at he
    rw [e2]
    have htd := hasTy_derefVal hv e1
    simp only [void_norm hU hL hT hZ hJ.1 htd hd] at he ⊢
    split at he
    · rename_i h0; rw [if_pos h0]; exact he
    · rename_i h0
      rw [if_neg h0]
      exact h _ _ _ _ _ _ _ hJ.1 htd (utf8_deref hu e1) hd he
  · rw [e1] at he
    rw [e2]
    simp only [hs, isDefaultBase, if_true] at he
    exact he

theorem alike_unpacked (hU : JUniv Γ c J fl S) (hL : Alike Γ S) (hT : Γ.Typed) (hZ : ZeroOk Γ) (h : Alikes Γ c S rec)
    {jf : Nat} {e : Ty} {fo : FOpts} (hA : PtrOk Γ e) (hJ : JOk Γ S e) {vs ws : List Val} {b : Bytes}
    (hv : ∀ v ∈ vs, HasTy Γ e v) (hu : ∀ v ∈ vs, Utf8Val v) (hn : jnormElems (jnorm Γ c jf) e vs = some ws)
    (he : encUnpacked Γ rec e fo vs = .ok b) : encUnpacked Γ rec e fo ws = .ok b := by
  induction vs generalizing ws b with
  | nil => cases hn; exact he
  | cons v vs ih =>
    simp only [List.mem_cons, forall_eq_or_imp] at hv hu
    rw [jnormElems] at hn
    obtain ⟨w, hw, hn⟩ := Option.bind_eq_some_iff.mp hn
    obtain ⟨ws', hws, rfl⟩ := Option.map_eq_some_iff.mp hn
    rw [encUnpacked] at he
    obtain ⟨k, hk, he⟩ := Res.bind_eq_ok he
    obtain ⟨b1, h1, he⟩ := Res.bind_eq_ok he
    obtain ⟨b2, h2, he⟩ := Res.bind_eq_ok he
    cases he
    rw [encUnpacked, hk, Res.bind, alike_elem hU hL hT hZ h hA hJ hv.1 hu.1 hw h1, Res.bind, ih hv.2 hu.2 hws h2]
    rfl

/-- Lists. -/
theorem alike_list (hU : JUniv Γ c J fl S) (hL : Alike Γ S) (hT : Γ.Typed) (hZ : ZeroOk Γ) (h : Alikes Γ c S rec)
    {jf : Nat} {id : TId} {e : Ty} {fo : FOpts} {bare : Bool} (hS : S id) (hm : Γ.marsh id = none)
    (hs : Γ.shape id = .slice e ∨ ∃ n, Γ.shape id = .array n e) (hk : Γ.isByteKind e = false) {v w : Val} {b : Bytes}
    (hv : HasTy Γ (.base id) v) (hu : Utf8Val v) (hn : jnorm Γ c jf (.base id) v = some w)
    (he : encList Γ c rec e v fo bare = .ok b) : encList Γ c rec e w fo bare = .ok b := by
  cases jf with
  | zero => cases hn
  | succ jf =>
    rcases jnorm_shape hZ hm hn with ⟨rfl, rfl, _⟩ | ⟨_, hn⟩
    · exact he
    · have hJ : JOk Γ S e := by
        rcases hs with hs | ⟨n, hs⟩
        · exact hU.slice hS hs hk
        · have := hU.array hS hs; rwa [hk] at this
      have hP : PtrOk Γ e := by
        rcases hs with hs | ⟨n, hs⟩
        · exact hL.slice hS hs
        · exact hL.array hS hs
      unfold encList at he ⊢
      obtain ⟨_, hi, he⟩ := Res.bind_eq_ok he
      rw [hi, Res.bind]
      cases v with
      | list vs =>
        have hvs : ∀ v ∈ vs, HasTy Γ e v := by
          cases hv with
          | slice hs' _ h => rcases hs with hs | ⟨n, hs⟩ <;> rw [hs] at hs' <;> cases hs'; exact h
          | array hs' _ _ h => rcases hs with hs | ⟨n, hs⟩ <;> rw [hs] at hs' <;> cases hs'; exact h
        have hus : ∀ v ∈ vs, Utf8Val v := by cases hu with | list h => exact h
        have key : ∀ ws, jnormElems (jnorm Γ c jf) e vs = some ws →
            ((if Γ.typ3 e.deref fo ≠ typ3ByteLength then encPacked Γ rec e fo ws
              else encUnpacked Γ rec e fo ws).bind fun buf => framed bare buf) = .ok b := by
          intro ws hws
          obtain ⟨b', hb, he⟩ := Res.bind_eq_ok he
          split at hb
          · rename_i h3
            rw [if_pos h3, alike_packed h hP hJ h3 hvs hus hws hb]; exact he
          · rename_i h3
            rw [if_neg h3, alike_unpacked hU hL hT hZ h hP hJ hvs hus hws hb]; exact he
        rcases hs with hs | ⟨n, hs⟩
        · simp only [jnormShape, hs] at hn
          obtain ⟨ws, hws, rfl⟩ := Option.map_eq_some_iff.mp hn
          cases ws with
          | nil =>
            simp only [List.length_nil, beq_self_eq_true, if_true, hZ.slice hs]
            have := key _ hws
            simp only [encPacked, encUnpacked, ite_self] at this
            exact this
          | cons u ws => exact key _ hws
        · simp only [jnormShape, hs] at hn
          obtain ⟨ws, hws, rfl⟩ := Option.map_eq_some_iff.mp hn
          exact key _ hws
      | nil =>
        exfalso
        rcases hs with hs | ⟨n, hs⟩ <;> simp [jnormShape, hs] at hn
      | _ => cases he

theorem alike_field (hU : JUniv Γ c J fl S) (hL : Alike Γ S) (hT : Γ.Typed) (hZ : ZeroOk Γ) (h : Alikes Γ c S rec)
    {jf : Nat} {id : TId} {fs : List Field} {f : Field} (hS : S id) (hs : Γ.shape id = .struct fs) (hf : f ∈ fs)
    (hvis : f.visible = true) {num : Nat} {v w : Val} {b : Bytes} (hv : HasTy Γ f.ty v) (hu : Utf8Val v)
    (hn : jnorm Γ c jf f.ty v = some w) (he : encField Γ c rec f num v = .ok b) : encField Γ c rec f num w = .ok b := by
  obtain ⟨hP, hwe, _, hlm⟩ := hL.field hS hs hf hvis
  have hJ := (hU.field hS hs hf hvis).1
  unfold encField at he ⊢
  obtain ⟨_, hi, he⟩ := Res.bind_eq_ok he
  rw [hi, Res.bind]
  rcases comp hP hJ hn with ⟨e1, e2⟩ | ⟨dv, dw, e1, e2, hd⟩ | ⟨dv, e', e1, e2, hp, _, hs, rfl⟩
  · rw [e1] at he; rw [e2]; exact he
  · rw [e1] at he
    rw [e2]
    have htd := hasTy_derefVal hv e1
    have hud := utf8_deref hu e1
    simp only [void_norm hU hL hT hZ hJ.1 htd hd] at he ⊢
    split at he
    · rename_i h0; rw [if_pos h0]; exact he
    · rename_i h0
      rw [if_neg h0]
      split at he
      · rename_i hul
        rw [if_pos hul]
        unfold Prog.unpackedList at hul
        split at hul
        · cases hul
        · rename_i fid hfid
          split at hul
          · rename_i e hse
            have hse : Γ.shape f.ty.deref = .slice e := by rw [hfid]; exact hse
            simp only [hse, Shape.elem?] at he ⊢
            simp only [Bool.and_eq_true, Bool.not_eq_true'] at hul
            exact alike_list hU hL hT hZ h hJ.1 (hlm e (.inl hse) hul.1) (.inl hse) hul.1 htd hud hd he
          · rename_i n e hse
            have hse : Γ.shape f.ty.deref = .array n e := by rw [hfid]; exact hse
            simp only [hse, Shape.elem?] at he ⊢
            simp only [Bool.and_eq_true, Bool.not_eq_true'] at hul
            exact alike_list hU hL hT hZ h hJ.1 (hlm e (.inr ⟨n, hse⟩) hul.1) (.inr ⟨n, hse⟩) hul.1 htd hud hd he
          · cases hul
      · rename_i hul
        rw [if_neg hul]
        unfold writeField at he ⊢
        obtain ⟨k, hk, he⟩ := Res.bind_eq_ok he
        obtain ⟨b1, h1, he⟩ := Res.bind_eq_ok he
        rw [hk, Res.bind, h _ _ _ _ _ _ _ hJ.1 htd hud hd h1]
        exact he
  · rw [e1] at he
    rw [e2]
    have : f.opts.writeEmpty = false := by
      cases hw : f.opts.writeEmpty with
      | false => rfl
      | true => have := (hwe hw).2; rw [hp] at this; cases this
    simp only [hs, isDefaultBase, this, Bool.not_false, Bool.and_self, if_true] at he
    simp only [this]
    exact he

/-- A field left out of JSON is not written in binary either, or is zero already. -/
theorem alike_leftOut (hL : Alike Γ S) (hT : Γ.Typed) (hZ : ZeroOk Γ) {id : TId} {fs : List Field} {f : Field} (hS : S id)
    (hs : Γ.shape id = .struct fs) (hf : f ∈ fs) (hvis : f.visible = true) (ho : f.opts.omitEmpty = true) {num : Nat}
    {v : Val} {b : Bytes} (hv : HasTy Γ f.ty v) (hl : leftOut Γ f.ty v = true) (he : encField Γ c rec f num v = .ok b) :
    encField Γ c rec f num (zeroOf Γ f.ty) = .ok b := by
  obtain ⟨_, hwe, hpa, _⟩ := hL.field hS hs hf hvis
  have hw : f.opts.writeEmpty = false := by
    cases hw : f.opts.writeEmpty with
    | false => rfl
    | true => have := (hwe hw).1; rw [ho] at this; cases this
  unfold encField at he ⊢
  obtain ⟨_, hi, he⟩ := Res.bind_eq_ok he
  rw [hi, Res.bind]
  rw [leftOut, pointee_eq] at hl
  have zeroPtr : f.ty.isPtr = true → derefVal f.ty (zeroOf Γ f.ty) = none := by
    intro hp
    cases ht : f.ty with
    | base => rw [ht] at hp; cases hp
    | ptr t => rfl
  have zeroBase : f.ty.isPtr = false → ∃ fid, f.ty = .base fid := by
    intro hp
    cases ht : f.ty with
    | base fid => exact ⟨fid, rfl⟩
    | ptr t => rw [ht] at hp; cases hp
  cases hd : derefVal f.ty v with
  | none =>
    rw [hd] at he
    cases ht : f.ty with
    | base fid => rw [ht] at hd; cases hd
    | ptr t => exact he
  | some dv =>
    rw [hd] at he hl
    simp only [Bool.or_eq_true, Bool.and_eq_true, Bool.not_eq_true', beq_iff_eq] at hl
    -- a default value is not written, and the zero value of its type is a default value
    have dflt : isDefaultBase (Γ.shape f.ty.deref) dv = true →
        (∀ fid, f.ty = .base fid → isDefaultBase (Γ.shape fid) (Γ.zero fid) = true) →
        (match derefVal f.ty (zeroOf Γ f.ty) with
          | none => if f.opts.writeEmpty then Res.panic .invalidValue else .ok []
          | some dv =>
            if isDefaultBase (Γ.shape f.ty.deref) dv && !f.opts.writeEmpty then .ok []
            else if Γ.unpackedList f then
              match (Γ.shape f.ty.deref).elem? with
              | some e => encList Γ c rec e dv { f.opts with fnum := num } true
              | none => .panic .illTyped
            else
              writeField Γ rec num f.ty.deref { f.opts with fnum := num } dv
                (f.opts.writeEmpty || f.ty.isPtr) false) = .ok b := by
      intro h1 h2
      simp only [h1, hw, Bool.not_false, Bool.and_self, if_true] at he
      cases hp : f.ty.isPtr with
      | true => rw [zeroPtr hp]; simpa [hw] using he
      | false =>
        obtain ⟨fid, hfid⟩ := zeroBase hp
        have := h2 fid hfid
        simp only [hfid, zeroOf, derefVal, Ty.deref, this, hw, Bool.not_false, Bool.and_self, if_true]
        exact he
    rcases hl with ⟨hp, rfl⟩ | hl
    · obtain ⟨fid, hfid⟩ := zeroBase hp
      rw [hfid] at he ⊢
      exact he
    · have slc : ∀ e, Γ.shape f.ty.deref = .slice e → ∀ fid, f.ty = .base fid →
          isDefaultBase (Γ.shape fid) (Γ.zero fid) = true := by
        intro e hse fid hfid
        rw [hfid] at hse
        have hse : Γ.shape fid = .slice e := hse
        rw [hZ.slice hse, hse]; rfl
      have arr : ∀ n e, Γ.shape f.ty.deref = .array n e → dv = Γ.zero f.ty.deref → derefVal f.ty (zeroOf Γ f.ty) = some dv := by
        intro n e hse hz
        cases hp : f.ty.isPtr with
        | true => exact absurd hse (hpa ho hp n e)
        | false =>
          obtain ⟨fid, hfid⟩ := zeroBase hp
          rw [hz, hfid]; rfl
      have htd := hasTy_derefVal hv hd
      have htz := hT.zero f.ty.deref
      split at hl
      · rename_i s hse
        refine dflt ?_ ?_
        · rw [hse]; simpa [isDefaultBase] using hl
        · intro fid hfid
          rw [hfid] at hse
          have hse : Γ.shape fid = .string := hse
          rw [hZ.string hse, hse]; rfl
      · rename_i e hse
        exact dflt (by rw [hse]; rfl) (slc _ hse)
      · rename_i e b' hse
        exact dflt (by rw [hse]; simpa [isDefaultBase] using hl) (slc _ hse)
      · rename_i n e b' hse
        rw [arr n e hse ?_]
        · exact he
        · simp only [beq_iff_eq, List.length_eq_zero_iff] at hl
          subst hl
          cases htd with
          | sliceBytes h => rw [hse] at h; cases h
          | arrayBytes h hk hn =>
            rw [hse] at h
            cases h
            generalize hzv : Γ.zero f.ty.deref = z at htz
            cases htz with
            | arrayBytes h' hk' hn' =>
              rw [hse] at h'
              cases h'
              rw [List.length_nil] at hn
              rw [← hn, List.length_eq_zero_iff] at hn'
              rw [hn']
            | array h' hk' => rw [hse] at h'; cases h'; rw [hk] at hk'; cases hk'
            | bool h' => rw [hse] at h'; cases h'
            | int h' => rw [hse] at h'; cases h'
            | f32 h' => rw [hse] at h'; cases h'
            | f64 h' => rw [hse] at h'; cases h'
            | str h' => rw [hse] at h'; cases h'
            | time h' => rw [hse] at h'; cases h'
            | sliceNil h' => rw [hse] at h'; cases h'
            | sliceBytes h' => rw [hse] at h'; cases h'
            | slice h' => rw [hse] at h'; cases h'
            | mapNil h' => rw [hse] at h'; cases h'
            | map h' => rw [hse] at h'; cases h'
            | ifaceNil h' => rw [hse] at h'; cases h'
            | iface h' => rw [hse] at h'; cases h'
            | struct h' => rw [hse] at h'; cases h'
      · rename_i e vs hse
        exact dflt (by rw [hse]; simpa [isDefaultBase] using hl) (slc _ hse)
      · rename_i n e vs hse
        rw [arr n e hse ?_]
        · exact he
        · simp only [beq_iff_eq, List.length_eq_zero_iff] at hl
          subst hl
          cases htd with
          | slice h => rw [hse] at h; cases h
          | array h hk hn =>
            rw [hse] at h
            cases h
            rw [hZ.array hse hk, ← hn]
            rfl
      · cases hl

theorem alike_fields (hU : JUniv Γ c J fl S) (hL : Alike Γ S) (hT : Γ.Typed) (hZ : ZeroOk Γ) (h : Alikes Γ c S rec)
    {jf : Nat} {id : TId} {all : List Field} (hS : S id) (hs : Γ.shape id = .struct all) {fs : List Field} {num : Nat}
    {vs ws : List Val} {b : Bytes} (hf : ∀ f ∈ fs, f ∈ all) (hv : ∀ p ∈ fs.zip vs, HasTy Γ p.1.ty p.2)
    (hu : ∀ v ∈ vs, Utf8Val v) (hn : jnormFields Γ (jnorm Γ c jf) fs vs = some ws)
    (he : encFields Γ c rec num fs vs = .ok b) : encFields Γ c rec num fs ws = .ok b := by
  induction fs generalizing vs ws num b with
  | nil =>
    cases vs with
    | nil => cases hn; exact he
    | cons => cases hn
  | cons f fs ih =>
    cases vs with
    | nil => cases hn
    | cons v vs =>
      simp only [List.zip_cons_cons, List.mem_cons, forall_eq_or_imp] at hf hv hu
      rw [encFields] at he
      rw [jnormFields] at hn
      cases hvis : f.visible with
      | false =>
        rw [hvis] at he hn
        simp only [Bool.false_and, Bool.false_eq_true, if_false, Bool.not_false, if_true] at he hn
        obtain ⟨ws', hws, rfl⟩ := Option.map_eq_some_iff.mp hn
        rw [encFields, hvis]
        exact ih hf.2 hv.2 hu.2 hws he
      | true =>
        rw [hvis] at he hn
        simp only [Bool.true_and, Bool.not_true, Bool.false_eq_true, if_false] at he hn
        obtain ⟨b1, h1, he⟩ := Res.bind_eq_ok he
        obtain ⟨b2, h2, he⟩ := Res.bind_eq_ok he
        cases he
        have key : ∀ w ws', encField Γ c rec f (num + 1) w = .ok b1 → jnormFields Γ (jnorm Γ c jf) fs vs = some ws' →
            encFields Γ c rec num (f :: fs) (w :: ws') = .ok (b1 ++ b2) := by
          intro w ws' hw hws
          rw [encFields, hvis]
          simp only [Bool.not_true, Bool.false_eq_true, if_false, hw, Res.bind, ih hf.2 hv.2 hu.2 hws h2]
        split at hn
        · obtain ⟨w, hw, hn⟩ := Option.bind_eq_some_iff.mp hn
          obtain ⟨ws', hws, rfl⟩ := Option.map_eq_some_iff.mp hn
          exact key _ _ (alike_field hU hL hT hZ h hS hs hf.1 hvis hv.1 hu.1 hw h1) hws
        · rename_i hlo
          obtain ⟨ws', hws, rfl⟩ := Option.map_eq_some_iff.mp hn
          simp only [Bool.not_eq_true', Bool.not_eq_false, Bool.and_eq_true] at hlo
          exact key _ _ (alike_leftOut hL hT hZ hS hs hf.1 hvis hlo.1 hv.1 hlo.2 h1) hws

theorem enc_alikes (hU : JUniv Γ c J fl S) (hL : Alike Γ S) (hT : Γ.Typed) (hZ : ZeroOk Γ) (f : Nat) :
    Alikes Γ c S (enc Γ c f) := by
  induction f with
  | zero => intro _ _ _ _ _ _ _ _ _ _ _ h; cases h
  | succ f ih =>
    intro jf id v w fo bare b hS ht hu hn he
    cases jf with
    | zero => cases hn
    | succ jf =>
    rw [enc, encBody] at he ⊢
    cases hm : Γ.marsh id with
    | some p =>
      obtain ⟨rid, m⟩ := p
      rw [hm] at he
      simp only at he ⊢
      obtain ⟨r, hr, he⟩ := Res.bind_eq_ok he
      obtain ⟨_, hi, he⟩ := Res.bind_eq_ok he
      have hrt := hT.marsh hm ht hr
      have hru := hL.text hS hm ht hr
      obtain ⟨⟨um', hu'⟩, hSr⟩ := hU.marsh hS hm
      obtain ⟨r1, hr1, ⟨rfl, h0⟩ | ⟨rid', um, r', hum, hr', hw⟩⟩ := jnorm_marsh hm hn
      · rw [hr] at hr1
        cases hr1
        rw [hL.zero hS hm, Res.bind, hi, Res.bind]
        exact ih _ _ _ _ _ _ _ hSr hrt hru h0 he
      · rw [hr] at hr1
        cases hr1
        rw [hum] at hu'
        cases hu'
        rw [hL.back hS hm hum (jnorm_typed hU hT hZ _ (.base rid) _ _ ⟨hSr, by simp [Ty.isPtr]⟩ hrt hr') hw, Res.bind, hi,
          Res.bind]
        exact ih _ _ _ _ _ _ _ hSr hrt hru hr' he
    | none =>
      rw [hm] at he
      simp only at he ⊢
      have hn0 := hn
      rcases jnorm_shape hZ hm hn with ⟨rfl, rfl, _⟩ | ⟨h0, hn⟩
      · exact he
      · have ht' := ht
        unfold encShape at he ⊢
        cases ht with
        | bool hs => simp only [jnormShape, hs] at hn; cases hn; exact he
        | int hs => simp only [jnormShape, hs] at hn; cases hn; exact he
        | f32 hs => simp only [jnormShape, hs] at hn; cases hn; exact he
        | f64 hs => simp only [jnormShape, hs] at hn; cases hn; exact he
        | time hs => simp only [jnormShape, hs] at hn; cases hn; exact he
        | arrayBytes hs => simp only [jnormShape, hs] at hn; cases hn; exact he
        | str hs =>
          simp only [jnormShape, hs] at hn
          cases hu with
          | str h8 => rw [sanitize_utf8 h8] at hn; cases hn; exact he
        | sliceNil hs => simp [shapeNull, hs] at h0
        | ifaceNil hs => simp [shapeNull, hs] at h0
        | mapNil hs => rw [hs] at he; cases he
        | map hs => rw [hs] at he; cases he
        | @sliceBytes _ e bs hs hk =>
          simp only [jnormShape, hs, Option.some.injEq] at hn
          subst hn
          cases bs with
          | nil =>
            simp only [hs, hk, if_true] at he ⊢
            simp only [List.length_nil, beq_self_eq_true, if_true, hZ.slice hs]
            exact he
          | cons a bs => exact he
        | slice hs hk hv =>
          simp only [hs, hk, Bool.false_eq_true, if_false] at he ⊢
          split at he
          · rename_i hlk; rw [if_pos hlk]; exact he
          · rename_i hlk
            rw [if_neg hlk]
            exact alike_list hU hL hT hZ ih hS hm (.inl hs) hk ht' hu hn0 he
        | array hs hk hl hv =>
          simp only [hs, hk, Bool.false_eq_true, if_false] at he ⊢
          split at he
          · rename_i hlk; rw [if_pos hlk]; exact he
          · rename_i hlk
            rw [if_neg hlk]
            exact alike_list hU hL hT hZ ih hS hm (.inr ⟨_, hs⟩) hk ht' hu hn0 he
        | struct hs hl hv =>
          simp only [jnormShape, hs] at hn he ⊢
          obtain ⟨ws, hws, rfl⟩ := Option.map_eq_some_iff.mp hn
          obtain ⟨b1, h1, he⟩ := Res.bind_eq_ok he
          have hus := by cases hu with | struct h => exact h
          simp only [alike_fields hU hL hT hZ ih hS hs (fun _ h => h) hv hus hws h1, Res.bind]
          exact he
        | @iface _ t cv hs hi hv =>
          simp only [jnormShape, hs] at hn
          split at hn
          · rename_i dv ci hd hc
            obtain ⟨u, hu', rfl⟩ := Option.map_eq_some_iff.mp hn
            obtain ⟨h1, h2, _, _, hi'⟩ := hU.iface hS hs hi hc
            have htid := conc?_tid hc
            rw [pointee_eq] at hd
            have hdv : HasTy Γ (.base t.deref) dv := hasTy_derefVal hv hd
            have hud : Utf8Val dv := by cases hu with | iface h => exact utf8_deref h hd
            simp only [hs, encIface, hd, hc] at he ⊢
            split at he
            · cases he
            · obtain ⟨_, hgi, he⟩ := Res.bind_eq_ok he
              split at he
              · cases he
              · rename_i ii hii
                obtain ⟨b1, hb1, he⟩ := Res.bind_eq_ok he
                have := ih _ _ _ _ _ _ _ (htid ▸ h1) hdv hud hu' hb1
                rw [← htid] at this hgi hc
                cases hp : ci.ptrPref
                · simpa [derefVal, Ty.deref, Ty.isPtr, hgi, Res.bind, hc, this] using he
                · simpa [derefVal, Ty.deref, Ty.isPtr, hgi, Res.bind, hc, this, h2] using he
          · cases hn

theorem marshalBare_base {f : Nat} {id : TId} {v : Val} : marshalBare Γ c f (.base id) v =
    (getInfo Γ c id).bind fun _ =>
    (if !Γ.structOrRep id then
      writeField Γ (enc Γ c f) 1 id {} v false (Γ.typ3 id {} != typ3ByteLength)
     else enc Γ c f id v { fnum := 1 } true).bind fun bz =>
    match c.conc? id with
    | some ci => .ok (ci.prefx ++ bz)
    | none => .ok bz := rfl

theorem marshalBare_alike (hU : JUniv Γ c J fl S) (hL : Alike Γ S) (hT : Γ.Typed) (hZ : ZeroOk Γ) {f jf : Nat} {id : TId}
    {v w : Val} {b : Bytes} (hS : S id) (ht : HasTy Γ (.base id) v) (hu : Utf8Val v)
    (hn : jnorm Γ c jf (.base id) v = some w) (he : marshalBare Γ c f (.base id) v = .ok b) :
    marshalBare Γ c f (.base id) w = .ok b := by
  rw [marshalBare_base] at he ⊢
  obtain ⟨_, hi, he⟩ := Res.bind_eq_ok he
  obtain ⟨b1, h1, he⟩ := Res.bind_eq_ok he
  have hE := enc_alikes hU hL hT hZ f
  rw [hi, Res.bind]
  have : (if !Γ.structOrRep id then
      writeField Γ (enc Γ c f) 1 id {} w false (Γ.typ3 id {} != typ3ByteLength)
     else enc Γ c f id w { fnum := 1 } true) = .ok b1 := by
    split at h1
    · rename_i hr
      rw [if_pos hr]
      unfold writeField at h1 ⊢
      obtain ⟨k, hk, h1⟩ := Res.bind_eq_ok h1
      obtain ⟨b2, h2, h1⟩ := Res.bind_eq_ok h1
      rw [hk, Res.bind, hE _ _ _ _ _ _ _ hS ht hu hn h2]
      exact h1
    · rename_i hr
      rw [if_neg hr]
      exact hE _ _ _ _ _ _ _ hS ht hu hn h1
  rw [this]
  exact he

/-- C86: what comes back from a value's JSON text is written in binary as the value is.  For values without invalid
UTF-8, of types with well behaved methods and tags (`Alike`). -/
theorem C86_transcode_partial (hU : JUniv Γ c J false S) (hA : Alike Γ S) (hL : LibOk J) (hT : Γ.Typed) (hZ : ZeroOk Γ)
    (hum : UserTotal Γ) {fuel f : Nat} {id : TId} {v : Val} {tx b : Bytes} (hS : S id) (ht : HasTy Γ (.base id) v)
    (hu : Utf8Val v) (hN : ∀ ci, c.conc? id = some ci → PlainName ci.name)
    (hj : marshalJSON Γ c J fuel (some (.base id, v)) = .ok tx) (hb : marshalBare Γ c f (.base id) v = .ok b) :
    ∃ w, (∀ g, fuel ≤ g → unmarshalJSON Γ c J g (.base id) (Γ.zero id) tx = .ok w) ∧
      marshalBare Γ c f (.base id) w = .ok b := by
  obtain ⟨w, hw, _, hr⟩ := C46_json_roundtrip_partial hU hL hT hZ hum (t := .base id) ⟨hS, by simp [Ty.isPtr]⟩ ht hN hj
  exact ⟨w, hr, marshalBare_alike hU hA hT hZ hS ht hu hw hb⟩

/-- C86: values with the same JSON text have the same binary encoding. -/
theorem C86_same_text_partial (hU : JUniv Γ c J false S) (hA : Alike Γ S) (hL : LibOk J) (hT : Γ.Typed) (hZ : ZeroOk Γ)
    (hum : UserTotal Γ) {fuel f : Nat} {id : TId} {v v' : Val} {tx b b' : Bytes} (hS : S id) (ht : HasTy Γ (.base id) v)
    (ht' : HasTy Γ (.base id) v') (hu : Utf8Val v) (hu' : Utf8Val v') (hN : ∀ ci, c.conc? id = some ci → PlainName ci.name)
    (hj : marshalJSON Γ c J fuel (some (.base id, v)) = .ok tx) (hj' : marshalJSON Γ c J fuel (some (.base id, v')) = .ok tx)
    (hb : marshalBare Γ c f (.base id) v = .ok b) (hb' : marshalBare Γ c f (.base id) v' = .ok b') : b = b' := by
  obtain ⟨w, hw, h⟩ := C86_transcode_partial hU hA hL hT hZ hum hS ht hu hN hj hb
  obtain ⟨w', hw', h'⟩ := C86_transcode_partial hU hA hL hT hZ hum hS ht' hu' hN hj' hb'
  have := (hw _ (Nat.le_refl _)).symm.trans (hw' _ (Nat.le_refl _))
  cases this
  exact Res.ok.inj (h.symm.trans h')

namespace JDemo

theorem alike : Alike prog (JDemo.S false) where
  back := by
    intro id rid m um r w _ hm hu hr hw
    simp only [prog] at hm hu
    split at hm
    · rename_i hid
      rw [if_pos hid] at hu
      cases hm
      cases hu
      obtain ⟨i, rfl⟩ := hasTy_int64 hr
      cases hw
      rfl
    · cases hm
  zero := by
    intro id rid m _ hm
    simp only [prog] at hm
    split at hm
    · rename_i hid; cases hm; subst hid; rfl
    · cases hm
  text := by
    intro id rid m v r _ hm ht hr
    simp only [prog] at hm
    split at hm
    · rename_i hid
      cases hm
      subst hid
      obtain ⟨i, rfl, _⟩ := hasTy_cents ht
      cases hr
      exact .int
    · cases hm
  void := by
    intro id rid m _ hm
    simp only [prog] at hm
    split at hm
    · rename_i hid; subst hid; exact .inl rfl
    · cases hm
  slice := by
    intro id e _ hs hp
    match id with
    | 3 | 11 => simp only [prog, shape, Shape.slice.injEq] at hs; subst hs; cases hp
    | 0 | 1 | 2 | 4 | 5 | 6 | 7 | 8 | 9 | 10 | 12 | 13 | 14 | 15 => simp [prog, shape] at hs
    | n + 16 => simp [prog, shape] at hs
  array := by
    intro id n e _ hs hp
    obtain ⟨_, _, rfl⟩ := shape_array hs
    cases hp
  field := by
    intro id fs f _ hs hf _
    have key : ∀ f ∈ fs, f.opts.writeEmpty = false ∧ (f.ty.isPtr = true → f.ty.deref = int64T) ∧
        (f.ty.deref = centsT ∨ (prog.marsh f.ty.deref).isNone = true) := by
      match id with
      | 0 | 1 | 2 | 3 | 5 | 6 | 8 | 9 | 11 | 14 | 15 => simp [prog, shape] at hs
      | 4 | 7 | 10 | 12 | 13 =>
        simp only [prog, shape, Shape.struct.injEq] at hs
        subst hs
        decide +kernel
      | n + 16 => simp [prog, shape] at hs
    obtain ⟨h1, h2, h3⟩ := key f hf
    refine ⟨?_, ?_, ?_, ?_⟩
    · intro hp rid m hm
      rw [h2 hp] at hm
      simp [prog, int64T, centsT] at hm
    · intro h; rw [h1] at h; cases h
    · intro _ hp n e he
      rw [h2 hp] at he
      simp [prog, shape, int64T] at he
    · intro e he _
      rcases h3 with h3 | h3
      · rw [h3] at he
        rcases he with he | ⟨n, he⟩ <;> simp [prog, shape, centsT] at he
      · exact Option.isNone_iff_eq_none.1 h3

/-- `rec1` with a nil map. -/
def rec2 : Val :=
  .struct [.int (-5), .str [], .bytes [1, 2], .nil,
    .iface (.ptr (.base fooT)) (.ptr (.struct [.int 9])), .time 0 0, .ptr (.int 3), .list [],
    .list [.int 1, .int 2], .struct [.int 250], .bool true, .int (-1)]

theorem rec2_typed : HasTy prog (.base recT) rec2 := by
  have h1 : ∀ {id : TId} {f : Field} {v}, shape id = .struct [f] → HasTy prog f.ty v →
      HasTy prog (.base id) (.struct [v]) := by
    intro id f v hs hv
    refine .struct (fs := [f]) hs rfl ?_
    simpa using hv
  refine .struct (fs := recFields) rfl rfl ?_
  simp [recFields]
  refine ⟨.int rfl (by decide), .str rfl, .sliceBytes rfl rfl, .mapNil (e := .base int64T) rfl, .iface rfl rfl (.ptr ?_),
    .time rfl (by decide) (by decide) (by decide) (by decide), .ptr (.int rfl (by decide)), .slice (e := .base int64T) rfl rfl (by simp),
    .array (n := 2) (e := .base int64T) rfl rfl rfl ?_, h1 rfl (.int rfl (by decide)), .bool rfl, .int rfl (by decide)⟩
  · exact h1 rfl (.int rfl (by decide))
  · simp; exact ⟨.int rfl (by decide), .int rfl (by decide)⟩

theorem rec2_utf8 : Utf8Val rec2 := by
  refine .struct ?_
  simp
  exact ⟨.int, .str .nil, .bytes, .nil, .iface (.ptr (.struct (by simp; exact .int))), .time, .ptr .int, .list (by simp),
    .list (by simp; exact ⟨.int, .int⟩), .struct (by simp; exact .int), .bool, .int⟩

def rec2Text : Bytes :=
  match marshalJSON prog codec lib 5 (some (.base recT, rec2)) with
  | .ok b => b
  | _ => []

def rec2Bytes : Bytes :=
  match marshalBare prog codec 5 (.base recT) rec2 with
  | .ok b => b
  | _ => []

/-- The hypotheses are met by a struct with every construct. -/
example : ∃ w, (∀ g, 5 ≤ g → unmarshalJSON prog codec lib g (.base recT) (prog.zero recT) rec2Text = .ok w) ∧
    marshalBare prog codec 5 (.base recT) w = .ok rec2Bytes :=
  C86_transcode_partial (univ false) alike libOk typed zeroOk user_total (.inr ⟨by decide, by decide⟩) rec2_typed rec2_utf8
    (by intro ci h; rw [(conc_foo h).1]; exact plain_f) (by decide +kernel) (by decide +kernel)

/-- What comes back is another value. -/
example : ∃ w, unmarshalJSON prog codec lib 5 (.base recT) (prog.zero recT) rec2Text = .ok w ∧ w ≠ rec2 :=
  ⟨.struct [.int (-5), .str [], .bytes [1, 2], .map [],
    .iface (.ptr (.base fooT)) (.ptr (.struct [.int 9])), .time 0 0, .ptr (.int 3), .nil,
    .list [.int 1, .int 2], .struct [.int 250], .bool true, .int (-1)], by decide +kernel⟩

end JDemo

/-- C86 is violated by strings that are not valid UTF-8. -/
theorem C86_text_refuted : ∃ (v w : Val) (tx : Bytes),
    HasTy JDemo.prog (.base JDemo.barT) v ∧ Alike JDemo.prog (JDemo.S false) ∧
    marshalJSON JDemo.prog JDemo.codec JDemo.lib 3 (some (.base JDemo.barT, v)) = .ok tx ∧
    unmarshalJSON JDemo.prog JDemo.codec JDemo.lib 3 (.base JDemo.barT) (JDemo.prog.zero JDemo.barT) tx = .ok w ∧
    marshalBare JDemo.prog JDemo.codec 3 (.base JDemo.barT) v = .ok [0x0a, 1, 0xff] ∧
    marshalBare JDemo.prog JDemo.codec 3 (.base JDemo.barT) w = .ok [0x0a, 3, 0xef, 0xbf, 0xbd] := by
  refine ⟨.struct [.str [0xff]], .struct [.str [0xef, 0xbf, 0xbd]],
    [0x7b, 0x22, 0x42, 0x22, 0x3a, 0x22, 0x5c, 0x75, 0x66, 0x66, 0x66, 0x64, 0x22, 0x7d], ?_, JDemo.alike, by decide +kernel⟩
  refine .struct (fs := [{ ty := .base JDemo.stringT, opts := { jsonName := [0x42] } }]) rfl rfl ?_
  simp
  exact .str rfl

/-- The other way round it does not hold: the JSON text of what comes back from the binary encoding differs. -/
theorem C86_converse_refuted : ∃ (v w : Val) (b tx tx' : Bytes), HasTy JDemo.prog (.base JDemo.recT) v ∧ Utf8Val v ∧
    marshalBare JDemo.prog JDemo.codec 5 (.base JDemo.recT) v = .ok b ∧
    unmarshalBare JDemo.prog JDemo.codec 5 (.base JDemo.recT) (JDemo.prog.zero JDemo.recT) b = .ok w ∧
    marshalJSON JDemo.prog JDemo.codec JDemo.lib 5 (some (.base JDemo.recT, v)) = .ok tx ∧
    marshalJSON JDemo.prog JDemo.codec JDemo.lib 5 (some (.base JDemo.recT, w)) = .ok tx' ∧ tx ≠ tx' :=
  ⟨JDemo.rec2, .struct [.int (-5), .str [], .bytes [1, 2], .nil,
      .iface (.ptr (.base JDemo.fooT)) (.ptr (.struct [.int 9])), .time 0 0, .ptr (.int 3), .nil,
      .list [.int 1, .int 2], .struct [.int 250], .bool true, .int (-1)], _, _, _,
    JDemo.rec2_typed, JDemo.rec2_utf8, rfl, by decide +kernel, rfl, rfl, by decide +kernel⟩

/-! ## A pointer to an array of length zero -/

namespace PtrDemo

/-- `type T struct { A *[0]int64 `json:",omitempty"` }` -/
def shape : TId → Shape
  | 0 => .struct [{ ty := .ptr (.base 1), opts := { jsonName := [0x41], omitEmpty := true } }]
  | 1 => .array 0 (.base 2)
  | _ => .int .int64

def prog : Prog where
  shape := shape
  zero
    | 0 => .struct [.nil]
    | 1 => .list []
    | _ => .int 0
  marsh _ := none
  unmarsh _ := none
  implements _ _ := false
  byteId := 3

end PtrDemo

/-- C86 is violated by a pointer to an empty array tagged `omitempty`: JSON leaves it out, binary does not. -/
theorem C86_pointer_refuted : ∃ (v w : Val) (tx : Bytes), HasTy PtrDemo.prog (.base 0) v ∧ Utf8Val v ∧
    marshalJSON PtrDemo.prog {} JDemo.lib 3 (some (.base 0, v)) = .ok tx ∧
    unmarshalJSON PtrDemo.prog {} JDemo.lib 3 (.base 0) (PtrDemo.prog.zero 0) tx = .ok w ∧
    marshalBare PtrDemo.prog {} 3 (.base 0) v = .ok [0x0a, 0] ∧ marshalBare PtrDemo.prog {} 3 (.base 0) w = .ok [] := by
  refine ⟨.struct [.ptr (.list [])], .struct [.nil], [0x7b, 0x7d], ?_, ?_, by decide +kernel⟩
  · refine .struct (fs := [{ ty := .ptr (.base 1), opts := { jsonName := [0x41], omitEmpty := true } }]) rfl rfl ?_
    simp
    exact .ptr (.array (n := 0) (e := .base 2) rfl rfl rfl (by simp))
  · exact .struct (by simp; exact .ptr (.list (by simp)))

end Amino
