import Verif.WriteLemmas
import Verif.ExactDec
import Verif.DecSafe

/-!
# What has been read can be written
-/

namespace Amino
open Spec

variable {Γ : Prog} {c : Codec} {S : TId → FOpts → Prop}

/-- What `Writable.struct` asks of a field. -/
structure FieldW (Γ : Prog) (c : Codec) (f : Field) (v : Val) : Prop where
  nonNil : f.opts.writeEmpty = true → pointee f.ty v ≠ none
  single : ∀ dv, pointee f.ty v = some dv → (dflt (Γ.shape f.ty.deref) dv = true → f.opts.writeEmpty = true) →
    repeated Γ f = false → Writable Γ c (.val f.ty.deref) f.opts dv
  rep : ∀ e, (Γ.shape f.ty.deref).elem? = some e → ∀ dv, pointee f.ty v = some dv →
    (dflt (Γ.shape f.ty.deref) dv = true → f.opts.writeEmpty = true) → repeated Γ f = true → Writable Γ c (.elems e) f.opts dv

theorem derefVal_wrapTy (t : Ty) (v : Val) : derefVal t (wrapTy t v) = some v := by
  induction t with
  | base => rfl
  | ptr t ih => exact ih

theorem unmarsh_none_marsh (hU : Universe Γ c S) {id : TId} {fo : FOpts} (hS : S id fo) (h : Γ.unmarsh id = none) :
    Γ.marsh id = none := by
  cases hm : Γ.marsh id with
  | none => rfl
  | some rm =>
    obtain ⟨rid, m⟩ := rm
    obtain ⟨⟨um, hu⟩, _⟩ := hU.marsh hS hm
    rw [h] at hu
    cases hu

theorem goodTime_zero : goodTime 0 0 := ⟨.inl rfl, .inl rfl⟩

/-- Default values of elements and fields. -/
theorem default_pointee (hR : Rewritable Γ c S) {t : Ty} {dv : Val} {fo : FOpts} (hS : S t.deref fo)
    (h : pointee t (Γ.defaultValue t) = some dv) : Writable Γ c (.val t.deref) fo dv := by
  unfold Prog.defaultValue at h
  split at h
  · rename_i hs
    rw [pointee_eq, derefVal_wrapTy] at h
    cases h
    exact .time (hR.time hs) hs goodTime_zero
  · cases t with
    | base id =>
      cases h
      exact hR.zero hS
    | ptr t => cases h

theorem fieldW_default (hZ : ZeroOk Γ) (hR : Rewritable Γ c S) {id : TId} {fo : FOpts} {fs : List Field}
    (hS : S id fo) (hs : Γ.shape id = .struct fs) (hm : Γ.marsh id = none) {f : Field} (hf : f ∈ fs) (hv : f.visible = true)
    {num : Nat} (hok : FieldOk Γ S f num) : FieldW Γ c f (Γ.defaultValue f.ty) := by
  refine ⟨?_, ?_, ?_⟩
  · intro hw
    have := hR.noPtr hS hs f hf hv hw
    cases ht : f.ty with
    | base i => simp [pointee]
    | ptr t => rw [ht] at this; cases this
  · intro dv hp _ hrep
    exact (default_pointee hR (hok.single hrep).1 hp).opts rfl rfl
  · intro e he dv hp hd hrep
    have hz := hR.zero hS
    rw [hZ.struct hs] at hz
    have hrep' := hrep
    rw [repeated_eq] at hrep'
    obtain ⟨i, e', hi, he', _, _⟩ := unpackedList_inv hrep'
    have hdef : Γ.defaultValue f.ty = Γ.zeroTy f.ty := by
      unfold Prog.defaultValue
      rw [hi]
      simp only [Ty.deref]
      cases hsi : Γ.shape i <;> rw [hsi] at he' <;> simp [Shape.elem?] at he' <;> rfl
    rw [hdef] at hp
    have hmem : (f, Γ.zeroTy f.ty) ∈ fs.zip (fs.map fun f => Γ.zeroTy f.ty) := by
      obtain ⟨k, hk, rfl⟩ := List.getElem_of_mem hf
      exact List.mem_iff_getElem.2 ⟨k, by simpa using hk, by simp⟩
    generalize hw : (Val.struct (fs.map fun f => Γ.zeroTy f.ty)) = w at hz
    generalize hwt : What.val id = wt at hz
    cases hz with
    | struct h1 h2 h3 h4 h5 h6 h7 =>
      cases hwt
      cases hw
      rw [hs] at h2
      cases h2
      exact h7 _ hmem hv e he dv hp hd hrep
    | marsh h1 => cases hwt; rw [hm] at h1; cases h1
    | nested _ h1 => cases hwt; rw [hs] at h1; cases h1
    | list _ h1 => cases hwt; rw [hs] at h1; cases h1
    | _ => first | cases hw; done | cases hwt; done

section
variable {rec : Ty → Val → FOpts → Bool → Bytes → DRes Val}

/-- What is known about the recursive calls. -/
structure RecRW (Γ : Prog) (c : Codec) (S : TId → FOpts → Prop) (rec : Ty → Val → FOpts → Bool → Bytes → DRes Val) : Prop where
  val : ∀ {t p fo bare bz n v}, S t.deref fo → rec t p fo bare bz = .ok n v →
    ∃ dv, pointee t v = some dv ∧ Writable Γ c (.val t.deref) fo dv
  list : ∀ {id e p fo bare bz n v}, (Γ.shape id).elem? = some e → Γ.unmarsh id = none → Γ.isByteKind e = false →
    ElemOk Γ S e fo → rec (.base id) p fo bare bz = .ok n v → Writable Γ c (.elems e) fo v

theorem preferNil_w (hR : Rewritable Γ c S) {e : Ty} {fo : FOpts} (hS : S e.deref fo) {v dv : Val} (hp : pointee e v = some dv)
    (hw : Writable Γ c (.val e.deref) fo dv) :
    Writable Γ c (.val e.deref) fo ((pointee e (preferNil Γ e v)).getD (Γ.zero e.deref)) := by
  unfold preferNil
  split
  · rename_i h
    cases e with
    | base => simp [Ty.isPtr] at h
    | ptr t => exact hR.zero hS
  · rw [hp]
    exact hw

theorem decPackedSlice_rw (hr : RecRW Γ c S rec) (hR : Rewritable Γ c S) {e : Ty} {fo : FOpts} (hS : S e.deref fo)
    {k n m : Nat} {bz : Bytes} {vs : List Val} (h : decPackedSlice Γ rec e fo k bz n = .ok m vs) :
    ∀ v ∈ vs, Writable Γ c (.val e.deref) fo ((pointee e v).getD (Γ.zero e.deref)) := by
  induction k generalizing bz n vs with
  | zero =>
    cases bz with
    | nil => simp only [decPackedSlice, DRes.ok.injEq] at h; simp [← h.2]
    | cons => simp [decPackedSlice] at h
  | succ k ih =>
    cases bz with
    | nil => simp only [decPackedSlice, DRes.ok.injEq] at h; simp [← h.2]
    | cons b bz =>
      unfold decPackedSlice at h
      obtain ⟨j, v, h1, _, h⟩ := andSlide_inv h
      obtain ⟨ws, h', rfl⟩ := map_inv h
      have h := h'
      obtain ⟨dv, hp, hw⟩ := hr.val hS h1
      intro x hx
      rcases List.mem_cons.1 hx with rfl | hx
      · exact preferNil_w hR hS hp hw
      · exact ih h x hx

theorem decPackedArr_rw (hr : RecRW Γ c S rec) (hR : Rewritable Γ c S) {e : Ty} {fo : FOpts} (hS : S e.deref fo)
    {n m : Nat} {bz : Bytes} {ps vs : List Val} (h : decPackedArr Γ rec e fo ps bz n = .ok m vs) :
    ∀ v ∈ vs, Writable Γ c (.val e.deref) fo ((pointee e v).getD (Γ.zero e.deref)) := by
  induction ps generalizing bz n vs with
  | nil =>
    unfold decPackedArr at h
    split at h
    · cases h
    · cases h; simp
  | cons p ps ih =>
    unfold decPackedArr at h
    obtain ⟨j, v, h1, _, h⟩ := andSlide_inv h
    obtain ⟨ws, h', rfl⟩ := map_inv h
    have h := h'
    obtain ⟨dv, hp, hw⟩ := hr.val hS h1
    intro x hx
    rcases List.mem_cons.1 hx with rfl | hx
    · exact preferNil_w hR hS hp hw
    · exact ih h x hx

/-- What `Writable.unpacked` asks of an element. -/
structure ElemW (Γ : Prog) (c : Codec) (e : Ty) (fo : FOpts) (v : Val) : Prop where
  nonNil : keepEmpty Γ e fo = true → pointee e v ≠ none
  val : ∀ dv, pointee e v = some dv → dflt (Γ.shape e.deref) dv = false → Writable Γ c (.val e.deref) fo dv

theorem elemW_default (hR : Rewritable Γ c S) {e : Ty} {fo : FOpts} (hS : S e.deref { fo with fnum := 1 })
    (hk : ¬ ((e.isPtr && Γ.isStruct e.deref) && fo.emptyElements) = true) : ElemW Γ c e fo (Γ.defaultValue e) := by
  refine ⟨fun hh => absurd ?_ hk, fun dv hp _ => (default_pointee hR hS hp).opts rfl rfl⟩
  unfold keepEmpty at hh
  simp at hh ⊢
  simp [hh]

theorem elemW_of {e : Ty} {fo : FOpts} {v dv : Val} (hp : pointee e v = some dv)
    (hw : Writable Γ c (.val e.deref) { fo with fnum := 1 } dv) : ElemW Γ c e fo v := by
  refine ⟨fun _ => by rw [hp]; simp, fun dv' hp' _ => ?_⟩
  rw [hp] at hp'
  cases hp'
  exact hw.opts rfl rfl

theorem decUnpackedSlice_rw (hr : RecRW Γ c S rec) (hR : Rewritable Γ c S) {e : Ty} {fo : FOpts}
    (hS : S e.deref { fo with fnum := 1 }) {k n m : Nat} {bz : Bytes} {vs : List Val}
    (h : decUnpackedSlice Γ rec e fo k bz n = .ok m vs) : ∀ v ∈ vs, ElemW Γ c e fo v := by
  induction k generalizing bz n vs with
  | zero =>
    cases bz with
    | nil => simp only [decUnpackedSlice, DRes.ok.injEq] at h; simp [← h.2]
    | cons => simp [decUnpackedSlice] at h
  | succ k ih =>
    cases bz with
    | nil => simp only [decUnpackedSlice, DRes.ok.injEq] at h; simp [← h.2]
    | cons b bz =>
      unfold decUnpackedSlice at h
      split at h
      · cases h
      · cases h
      · cases h
      split at h
      · cases h
      split at h
      · cases h; simp
      split at h
      · cases h
      obtain ⟨_, h⟩ := slideThen_inv h
      split at h
      · rename_i hk
        obtain ⟨_, h⟩ := slideThen_inv h
        obtain ⟨ws, h', rfl⟩ := map_inv h
        have h := h'
        intro x hx
        rcases List.mem_cons.1 hx with rfl | hx
        · exact elemW_default hR hS hk.2
        · exact ih h x hx
      · obtain ⟨j, v, h1, _, h⟩ := andSlide_inv h
        obtain ⟨ws, h', rfl⟩ := map_inv h
        have h := h'
        obtain ⟨dv, hp, hw⟩ := hr.val hS h1
        intro x hx
        rcases List.mem_cons.1 hx with rfl | hx
        · exact elemW_of hp hw
        · exact ih h x hx

theorem decUnpackedArr_rw (hr : RecRW Γ c S rec) (hR : Rewritable Γ c S) {e : Ty} {fo : FOpts}
    (hS : S e.deref { fo with fnum := 1 }) {n m : Nat} {bz : Bytes} {ps vs : List Val}
    (h : decUnpackedArr Γ rec e fo ps bz n = .ok m vs) : ∀ v ∈ vs, ElemW Γ c e fo v := by
  induction ps generalizing bz n vs with
  | nil =>
    unfold decUnpackedArr at h
    split at h
    · split at h
      · cases h
      · cases h
      · cases h
      split at h
      · cases h
      · cases h; simp
    · cases h; simp
  | cons p ps ih =>
    unfold decUnpackedArr at h
    split at h
    · cases h
    · cases h
    · cases h
    split at h
    · cases h
    split at h
    · cases h
    obtain ⟨_, h⟩ := slideThen_inv h
    split at h
    · rename_i hk
      obtain ⟨_, h⟩ := slideThen_inv h
      obtain ⟨ws, h', rfl⟩ := map_inv h
      have h := h'
      intro x hx
      rcases List.mem_cons.1 hx with rfl | hx
      · exact elemW_default hR hS hk.2
      · exact ih h x hx
    · obtain ⟨j, v, h1, _, h⟩ := andSlide_inv h
      obtain ⟨ws, h', rfl⟩ := map_inv h
      have h := h'
      obtain ⟨dv, hp, hw⟩ := hr.val hS h1
      intro x hx
      rcases List.mem_cons.1 hx with rfl | hx
      · exact elemW_of hp hw
      · exact ih h x hx

theorem unframe_inv_rw {α : Type} {bare : Bool} {bz : Bytes} {k : Bytes → Nat → DRes α} {m : Nat} {v : α}
    (h : unframe bare bz k = .ok m v) : ∃ bz' n, k bz' n = .ok m v := by
  unfold unframe at h
  split at h
  · exact ⟨_, _, h⟩
  · split at h
    · split at h
      · exact ⟨_, _, h⟩
      · cases h
    · split at h <;> cases h
    · cases h
    · cases h

theorem elemOk_notLen {e : Ty} {fo : FOpts} (hS : ElemOk Γ S e fo) (ht : Γ.typ3 e.deref fo ≠ typ3ByteLength) :
    lenKind Γ e.deref = false ∧ S e.deref fo := by
  have : lenKind Γ e.deref = false := by
    rw [lenKind_eq, Bool.eq_false_iff]
    exact fun hh => ht (isLen_iff.mp hh)
  refine ⟨this, ?_⟩
  have h := hS.2
  rw [this] at h
  exact h

theorem elemOk_len {e : Ty} {fo : FOpts} (hS : ElemOk Γ S e fo) (ht : ¬ Γ.typ3 e.deref fo ≠ typ3ByteLength) :
    lenKind Γ e.deref = true ∧ S e.deref { fo with fnum := 1 } := by
  have : lenKind Γ e.deref = true := by
    rw [lenKind_eq]
    exact isLen_iff.mpr (Classical.not_not.mp ht)
  refine ⟨this, ?_⟩
  have h := hS.2
  rw [this] at h
  exact h

theorem decSlice_rw (hr : RecRW Γ c S rec) (hR : Rewritable Γ c S) {e : Ty} {fo : FOpts} (hS : ElemOk Γ S e fo) {bare : Bool}
    {bz : Bytes} {n : Nat} {v : Val} (h : decSlice Γ c rec e fo bare bz = .ok n v) : Writable Γ c (.elems e) fo v := by
  unfold decSlice at h
  obtain ⟨hi, h⟩ := infoThen_inv h
  have hi := known_iff.2 hi
  obtain ⟨bz, n', h⟩ := unframe_inv_rw h
  obtain ⟨vs, h', rfl⟩ := map_inv h
  have h := h'
  cases vs with
  | nil => exact .noElems hi
  | cons x xs =>
    simp only [List.isEmpty_cons, Bool.false_eq_true, if_false]
    split at h
    · rename_i ht
      obtain ⟨h1, h2⟩ := elemOk_notLen hS ht
      exact .packed hi h1 (decPackedSlice_rw hr hR h2 h)
    · rename_i ht
      obtain ⟨h1, h2⟩ := elemOk_len hS ht
      have := decUnpackedSlice_rw hr hR h2 h
      exact .unpacked hi h1 (fun hk v hv => (this v hv).nonNil hk) fun v hv => (this v hv).val

theorem decArray_rw (hr : RecRW Γ c S rec) (hR : Rewritable Γ c S) {e : Ty} {fo : FOpts} (hS : ElemOk Γ S e fo) {bare : Bool}
    {bz : Bytes} {n : Nat} {p v : Val} (h : decArray Γ c rec e p fo bare bz = .ok n v) : Writable Γ c (.elems e) fo v := by
  unfold decArray at h
  obtain ⟨hi, h⟩ := infoThen_inv h
  have hi := known_iff.2 hi
  obtain ⟨bz, n', h⟩ := unframe_inv_rw h
  cases p with
  | list ps =>
    obtain ⟨vs, h', rfl⟩ := map_inv h
    have h := h'
    split at h
    · rename_i ht
      obtain ⟨h1, h2⟩ := elemOk_notLen hS ht
      exact .packed hi h1 (decPackedArr_rw hr hR h2 h)
    · rename_i ht
      obtain ⟨h1, h2⟩ := elemOk_len hS ht
      have := decUnpackedArr_rw hr hR h2 h
      exact .unpacked hi h1 (fun hk v hv => (this v hv).nonNil hk) fun v hv => (this v hv).val
  | _ => cases h

theorem decFields_rw (hr : RecRW Γ c S rec) {fs : List Field} {num : Nat} (hok : FieldsOk Γ S num fs)
    (hdef : ∀ f ∈ fs, ∀ n, f.visible = true → FieldOk Γ S f n → FieldW Γ c f (Γ.defaultValue f.ty))
    {ps vs : List Val} {last n m : Nat} {bz : Bytes} (h : decFields Γ c rec fs ps num last bz n = .ok m vs) :
    fs.length = vs.length ∧ ∀ p ∈ fs.zip vs, p.1.visible = true → Known Γ c p.1.ty.deref ∧ FieldW Γ c p.1 p.2 := by
  induction fs generalizing ps vs num last n m bz with
  | nil =>
    cases ps with
    | nil =>
      unfold decFields at h
      obtain ⟨a, h', rfl⟩ := map_inv h
      have h := h'
      simp
    | cons => simp [decFields] at h
  | cons f fs ih =>
    have hdef' := fun g hg => hdef g (List.mem_cons_of_mem _ hg)
    cases ps with
    | nil => simp [decFields] at h
    | cons p ps =>
      unfold FieldsOk at hok
      cases hv : f.visible with
      | false =>
        rw [hv] at hok
        simp only [Bool.false_eq_true, if_false] at hok
        simp only [decFields, hv, Bool.not_false, if_true] at h
        obtain ⟨ws, h', rfl⟩ := map_inv h
        have h := h'
        obtain ⟨i1, i2⟩ := ih hok hdef' h
        refine ⟨by simp [i1], ?_⟩
        intro q hq hvis
        simp only [List.zip_cons_cons, List.mem_cons] at hq
        rcases hq with rfl | hq
        · rw [hv] at hvis; cases hvis
        · exact i2 q hq hvis
      | true =>
        rw [hv] at hok
        simp only [if_true] at hok
        simp only [decFields, hv, Bool.not_true, Bool.false_eq_true, if_false] at h
        obtain ⟨hi, h⟩ := infoThen_inv h
        have hi := known_iff.2 hi
        have fin : ∀ {v : Val} {ws : List Val} {last n m : Nat} {bz : Bytes}, FieldW Γ c f v →
            decFields Γ c rec fs ps (num + 1) last bz n = .ok m ws → (f :: fs).length = (v :: ws).length ∧
            ∀ p ∈ (f :: fs).zip (v :: ws), p.1.visible = true → Known Γ c p.1.ty.deref ∧ FieldW Γ c p.1 p.2 := by
          intro v ws last n m bz hw h
          obtain ⟨i1, i2⟩ := ih hok.2 hdef' h
          refine ⟨by simp [i1], ?_⟩
          intro q hq hvis
          simp only [List.zip_cons_cons, List.mem_cons] at hq
          rcases hq with rfl | hq
          · exact ⟨hi, hw⟩
          · exact i2 q hq hvis
        have hd := hdef f (by simp) _ hv hok.1
        split at h
        · obtain ⟨ws, h', rfl⟩ := map_inv h
          have h := h'
          exact fin hd h
        split at h
        · rename_i hrep
          obtain ⟨j, v, h1, _, h⟩ := andSlide_inv h
          obtain ⟨ws, h', rfl⟩ := map_inv h
          have h := h'
          refine fin ?_ h
          obtain ⟨i, e, hid, he, hb, _⟩ := unpackedList_inv hrep
          have hrep' : repeated Γ f = true := by rw [repeated_eq]; exact hrep
          obtain ⟨_, hu, hel⟩ := hok.1.rep hrep'
          rw [hid] at h1 hu hel
          have hw := hr.list he hu hb (hel e he) h1
          refine ⟨fun _ => by rw [hid]; simp [pointee], fun dv _ _ hh => (by rw [hrep'] at hh; cases hh), ?_⟩
          intro e' he' dv hp _ _
          rw [hid] at he' hp
          simp only [Ty.deref] at he'
          rw [he] at he'
          cases he'
          cases hp
          exact hw.opts rfl rfl
        rename_i hrep
        have hrep' : repeated Γ f = false := by rw [repeated_eq]; simpa using hrep
        split at h
        · cases h
        · cases h
        · cases h
        split at h
        · obtain ⟨ws, h', rfl⟩ := map_inv h
          have h := h'
          exact fin hd h
        split at h
        · cases h
        obtain ⟨_, h⟩ := slideThen_inv h
        split at h
        · cases h
        split at h
        · cases h
        obtain ⟨j, v, h1, _, h⟩ := andSlide_inv h
        obtain ⟨ws, h', rfl⟩ := map_inv h
        have h := h'
        obtain ⟨dv, hp, hw⟩ := hr.val (hok.1.single hrep').1 h1
        refine fin ⟨fun _ => by rw [hp]; simp, ?_, fun e _ dv' _ _ hh => (by rw [hrep'] at hh; cases hh)⟩ h
        intro dv' hp' _ _
        rw [hp] at hp'
        cases hp'
        exact hw.opts rfl rfl

theorem decIface_rw (hr : RecRW Γ c S rec) (hU : Universe Γ c S) (hR : Rewritable Γ c S) {id : TId} {fo : FOpts} (hS : S id fo)
    (hs : Γ.shape id = .iface) (hm : Γ.marsh id = none) {p v : Val} {bare : Bool} {bz : Bytes} {n : Nat}
    (h : decIface Γ c rec id p fo bare bz = .ok n v) : Writable Γ c (.val id) fo v := by
  cases p with
  | nil =>
    unfold decIface at h
    simp only at h
    split at h
    · cases h
    · rename_i ii hii
      obtain ⟨bz, n', h⟩ := unframe_inv_rw h
      obtain ⟨j, dp, _, _, h⟩ := andSlide_inv h
      split at h
      · cases h
      · rename_i ci hci
        obtain ⟨_, _, h⟩ := concKey_inv h
        split at h
        · rename_i m w hw
          split at h
          · split at h
            · cases h
            · split at h
              · rename_i himp
                cases h
                have hconc : c.conc? ci.tid = some ci := by
                  unfold lookupConc at hci
                  split at hci
                  · split at hci
                    · rename_i hd
                      cases hci
                      exact hR.disfix hd
                    · cases hci
                  · split at hci
                    · cases hci
                    · rename_i hone
                      cases hci
                      have : ci ∈ ii.withPrefix dp.2 := by rw [hone]; simp
                      exact hR.impls hii ((List.mem_filter.1 this).1)
                    · cases hci
                have hdt : ci.dynTy.deref = ci.tid := by unfold ConcInfo.dynTy; split <;> rfl
                have hmem := (hU.iface hS hs hii).1 ci.dynTy ci himp (by rw [hdt]; exact hconc)
                have hio := (hU.iface hS hs hii).2 ci hmem
                obtain ⟨dv, hp, hwr⟩ := hr.val (t := .base ci.tid) hio.type hw
                cases hp
                refine .iface hm hs (by rw [pointee_eq]; exact derefVal_wrapTy _ _) (fun _ => by rw [hdt]; exact hio.notIface) ?_
                  (by rw [hdt]; exact hconc) hii (by rw [hdt]; exact hwr)
                rw [hdt]
                exact known_iff.2 (getInfo_ok hU hio.type)
              · cases h
          · cases h
        · split at h
          · split at h <;> cases h
          · cases h
        · cases h
        · cases h
  | _ => cases h

theorem decShape_rw (hr : RecRW Γ c S rec) (hU : Universe Γ c S) (hZ : ZeroOk Γ) (hR : Rewritable Γ c S) {id : TId} {fo : FOpts}
    (hS : S id fo) (hm : Γ.marsh id = none) {p v : Val} {bare : Bool} {bz : Bytes} {n : Nat}
    (h : decShape Γ c rec id p fo bare bz = .ok n v) : Writable Γ c (.val id) fo v := by
  unfold decShape at h
  cases hs : Γ.shape id with
  | iface => rw [hs] at h; exact decIface_rw hr hU hR hS hs hm h
  | array len e =>
    rw [hs] at h
    simp only at h
    have hl := hU.array hS hs hm
    unfold ListOk at hl
    split at h
    · rename_i hb
      unfold decByteArray at h
      split at h
      · cases h
      obtain ⟨j, b, _, _, h⟩ := andSlide_inv h
      split at h
      · cases h
      split at h
      · cases h; exact .bytes hm (by rw [hs]; rfl) hb
      · cases h
    · rename_i hb
      rw [if_neg hb] at hl
      exact .list hm (by rw [hs]; rfl) (by simpa using hb) hl.1 (decArray_rw hr hR hl.2 h)
  | slice e =>
    rw [hs] at h
    simp only at h
    have hl := hU.slice hS hs hm
    unfold ListOk at hl
    split at h
    · rename_i hb
      unfold decByteSlice at h
      split at h
      · cases h; exact .nilBytes hm hs hb
      obtain ⟨j, b, _, _, h⟩ := andSlide_inv h
      split at h
      · cases h; exact .nilBytes hm hs hb
      split at h
      · cases h; exact .bytes hm (by rw [hs]; rfl) hb
      · cases h
    · rename_i hb
      rw [if_neg hb] at hl
      exact .list hm (by rw [hs]; rfl) (by simpa using hb) hl.1 (decSlice_rw hr hR hl.2 h)
  | struct fs =>
    rw [hs] at h
    simp only at h
    obtain ⟨bz, n', h⟩ := unframe_inv_rw h
    cases p with
    | struct ps =>
      obtain ⟨vs, h', rfl⟩ := map_inv h
      have h := h'
      obtain ⟨hl, hf⟩ := decFields_rw hr (hU.struct hS hs hm) (fun f hf n hv hok => fieldW_default hZ hR hS hs hm hf hv hok) h
      exact .struct hm hs hl (fun p hp hv => (hf p hp hv).1) (fun p hp hv => (hf p hp hv).2.nonNil)
        (fun p hp hv => (hf p hp hv).2.single) (fun p hp hv => (hf p hp hv).2.rep)
    | _ => cases h
  | time =>
    rw [hs] at h
    simp only at h
    obtain ⟨bz, n', h⟩ := unframe_inv_rw h
    obtain ⟨j, t, ht, _, h⟩ := andSlide_inv h
    cases h
    have := (decodeTime_safe bz).2.2.2 j t.1 t.2 ht
    unfold minSeconds maxSeconds maxNanos at this
    exact .time hm hs ⟨.inr (by omega), .inr (by omega)⟩
  | int k =>
    rw [hs] at h
    simp only at h
    obtain ⟨i, _, rfl⟩ := map_inv h
    exact .int hm hs
  | bool =>
    rw [hs] at h
    simp only at h
    obtain ⟨j, b, _, _, h⟩ := andSlide_inv h
    cases h
    exact .bool hm hs
  | float64 =>
    rw [hs] at h
    simp only at h
    split at h
    · cases h
    · rename_i hf
      obtain ⟨j, b, _, _, h⟩ := andSlide_inv h
      cases h
      exact .f64 hm hs (by simpa using hf)
  | float32 =>
    rw [hs] at h
    simp only at h
    split at h
    · cases h
    · rename_i hf
      obtain ⟨j, b, _, _, h⟩ := andSlide_inv h
      cases h
      exact .f32 hm hs (by simpa using hf)
  | string =>
    rw [hs] at h
    simp only at h
    obtain ⟨j, b, _, _, h⟩ := andSlide_inv h
    cases h
    exact .str hm hs
  | map e => exact absurd hs (hU.noMap hS)

theorem decBody_rw (hr : RecRW Γ c S rec) (hU : Universe Γ c S) (hZ : ZeroOk Γ) (hR : Rewritable Γ c S) :
    RecRW Γ c S (decBody Γ c rec) := by
  constructor
  · intro t p fo bare bz n v hS h
    unfold decBody at h
    split at h
    · cases h
    obtain ⟨dv, h', rfl⟩ := map_inv h
    have h := h'
    refine ⟨dv, by rw [pointee_eq]; exact derefVal_wrapTy _ _, ?_⟩
    split at h
    · rename_i rid um hu
      obtain ⟨_, h⟩ := infoThen_inv h
      obtain ⟨j, r, h1, _, h⟩ := andSlide_inv h
      split at h
      · rename_i hum
        cases h
        have hSr : S rid fo := by
          cases hm : Γ.marsh t.deref with
          | none => rw [hU.noMarsh hS hm] at hu; cases hu
          | some rm =>
            obtain ⟨⟨um', hu'⟩, hS', _⟩ := hU.marsh hS hm
            rw [hu] at hu'
            cases hu'
            exact hS'
        obtain ⟨dv, hp, hw⟩ := hr.val (t := .base rid) hSr h1
        cases hp
        exact hR.user hS hu hw hum
      · cases h
      · cases h
      · cases h
    · rename_i hu
      exact decShape_rw hr hU hZ hR hS (unmarsh_none_marsh hU hS hu) h
  · intro id e p fo bare bz n v he hu hb hel h
    unfold decBody at h
    simp only [Ty.isPtr, Bool.false_and, Bool.false_eq_true, if_false, Ty.deref, hu] at h
    obtain ⟨dv, h', rfl⟩ := map_inv h
    have h := h'
    unfold decShape at h
    cases hs : Γ.shape id with
    | slice e' =>
      rw [hs] at he h
      cases he
      simp only [hb, Bool.false_eq_true, if_false] at h
      exact decSlice_rw hr hR hel h
    | array len e' =>
      rw [hs] at he h
      cases he
      simp only [hb, Bool.false_eq_true, if_false] at h
      exact decArray_rw hr hR hel h
    | _ => rw [hs] at he; cases he

end

theorem dec_rw (hU : Universe Γ c S) (hZ : ZeroOk Γ) (hR : Rewritable Γ c S) (f : Nat) : RecRW Γ c S (dec Γ c f) := by
  induction f with
  | zero => exact ⟨fun _ h => (by cases h), fun _ _ _ _ h => (by cases h)⟩
  | succ f ih => exact decBody_rw ih hU hZ hR

end Amino
