import Verif.DecSafe
import Verif.TypedLemmas

/-!
# Decoding gives well typed values and does not panic

Over a universe of supported types, decoding into a well typed variable gives a well typed value,
and the only panics left are a registered concrete type that does not implement the interface it is
decoded into, and panics of user methods.
-/

namespace Amino
open Spec

theorem decodeUint32_lt {bz : Bytes} {n : Nat} {u : UInt64} (h : decodeUint32 bz = .ok n u) :
    u.toNat < 2 ^ 32 := by
  unfold decodeUint32 at h
  split at h
  · simp at h
  · simp only [DRes.ok.injEq] at h
    rw [← h.2, getLE_toNat _ (by simp; omega)]
    have := unle_lt (bz.take 4)
    rw [List.length_take, Nat.min_eq_left (by omega)] at this
    exact this

theorem decodeInt32_range {bz : Bytes} {n : Nat} {i : Int} (h : decodeInt32 bz = .ok n i) :
    -(2 ^ 31) ≤ i ∧ i < 2 ^ 31 := by
  unfold decodeInt32 at h
  split at h
  · simp at h
  · simp only [DRes.ok.injEq] at h
    rw [← h.2]
    have h2 : (getLE (bz.take 4)).toNat < 2 ^ 32 := by
      rw [getLE_toNat _ (by simp; omega)]
      have := unle_lt (bz.take 4)
      rw [List.length_take, Nat.min_eq_left (by omega)] at this
      exact this
    unfold intOfU32
    split <;> omega

theorem decodeInt64_range {bz : Bytes} {n : Nat} {i : Int} (h : decodeInt64 bz = .ok n i) :
    -(2 ^ 63) ≤ i ∧ i < 2 ^ 63 := by
  unfold decodeInt64 at h
  split at h
  · simp at h
  · simp only [DRes.ok.injEq] at h
    rw [← h.2]; exact intOfU64_range _

theorem decodeInt8_range {bz : Bytes} {n : Nat} {i : Int} (h : decodeInt8 bz = .ok n i) :
    -(2 ^ 7) ≤ i ∧ i < 2 ^ 7 := by
  unfold decodeInt8 at h
  split at h
  · split at h <;> simp at h; omega
  · rename_i hn; exact absurd h (hn _ _)

theorem decodeInt16_range {bz : Bytes} {n : Nat} {i : Int} (h : decodeInt16 bz = .ok n i) :
    -(2 ^ 15) ≤ i ∧ i < 2 ^ 15 := by
  unfold decodeInt16 at h
  split at h
  · split at h <;> simp at h; omega
  · rename_i hn; exact absurd h (hn _ _)

theorem decodeUint8_range {bz : Bytes} {n : Nat} {u : UInt64} (h : decodeUint8 bz = .ok n u) :
    u.toNat < 2 ^ 8 := by
  unfold decodeUint8 at h
  split at h
  · split at h
    · simp at h
    · rename_i hh
      simp only [DRes.ok.injEq] at h
      rw [← h.2]
      have := UInt64.le_iff_toNat_le.mp (UInt64.not_lt.mp hh)
      simp at this; omega
  · rename_i hn; exact absurd h (hn _ _)

theorem decodeUint16_range {bz : Bytes} {n : Nat} {u : UInt64} (h : decodeUint16 bz = .ok n u) :
    u.toNat < 2 ^ 16 := by
  unfold decodeUint16 at h
  split at h
  · split at h
    · simp at h
    · rename_i hh
      simp only [DRes.ok.injEq] at h
      rw [← h.2]
      have := UInt64.le_iff_toNat_le.mp (UInt64.not_lt.mp hh)
      simp at this; omega
  · rename_i hn; exact absurd h (hn _ _)

/-- If some concrete type that can be looked up while decoding an interface does not implement it,
then panicking is allowed by `Q`. -/
def ResidOk (Γ : Prog) (c : Codec) (Q : Pan → Prop) : Prop :=
  ∀ id ii dp ci, c.iface? id = some ii → lookupConc c ii dp = .ok ci →
    Γ.implements ci.dynTy id = true ∨ Q .notAssignable

def RecTyped (Γ : Prog) (S : TId → Prop) (Q : Pan → Prop)
    (rec : Ty → Val → FOpts → Bool → Bytes → DRes Val) : Prop :=
  ∀ t p fo bare bz, OkTy Γ S t → HasTy Γ t p → Post Q (HasTy Γ t) 0 bz.length (rec t p fo bare bz)

section
variable {Γ : Prog} {c : Codec} {S : TId → Prop} {Q : Pan → Prop}
  {rec : Ty → Val → FOpts → Bool → Bytes → DRes Val}

theorem getInfo_noPanic (hS : DecUniv Γ c S) {id : TId} (h : S id) :
    ∀ p, getInfo Γ c id = .panic p → Q p := by
  intro p hp
  unfold getInfo at hp
  split at hp
  · split at hp <;> simp at hp
  · rename_i fs hfs
    split at hp
    · rename_i ha
      obtain ⟨f, hf, hb⟩ := List.any_eq_true.mp ha
      rw [(hS.struct h hfs f hf).1] at hb; simp at hb
    · simp at hp
  · simp at hp

theorem hasTy_preferNil {e : Ty} {v : Val} (h : HasTy Γ e v) : HasTy Γ e (preferNil Γ e v) := by
  unfold preferNil
  split
  · rename_i hp
    cases e with
    | base => simp [Ty.isPtr] at hp
    | ptr t => exact .ptrNil
  · exact h

variable (hT : Γ.Typed)
include hT

theorem decPackedSlice_typed (h : RecTyped Γ S Q rec) {e : Ty} (he : OkTy Γ S e) (fo : FOpts) (k : Nat)
    (bz : Bytes) (n M : Nat) (hM : n + bz.length ≤ M) :
    Post Q (fun vs => ∀ v ∈ vs, HasTy Γ e v) 0 M (decPackedSlice Γ rec e fo k bz n) := by
  induction k generalizing bz n with
  | zero =>
    cases bz with
    | nil => exact ⟨by omega, by simpa using hM, by simp⟩
    | cons b bs => trivial
  | succ k ih =>
    cases bz with
    | nil => exact ⟨by omega, by simpa using hM, by simp⟩
    | cons b bs =>
      unfold decPackedSlice
      refine Post.andSlide (h _ _ _ _ _ he (hasTy_zeroTy hT.zero e)) hM fun v m h1 h2 hv => ?_
      refine Post.map (ih _ _ (by simp only [List.length_drop]; omega)) ?_
      intro vs hvs; simp only [List.mem_cons, forall_eq_or_imp]
      exact ⟨hasTy_preferNil hv, hvs⟩

theorem decUnpackedSlice_typed (h : RecTyped Γ S Q rec) {e : Ty} (he : OkTy Γ S e) (fo : FOpts) (k : Nat)
    (bz : Bytes) (n M : Nat) (hM : n + bz.length ≤ M) :
    Post Q (fun vs => ∀ v ∈ vs, HasTy Γ e v) 0 M (decUnpackedSlice Γ rec e fo k bz n) := by
  induction k generalizing bz n with
  | zero =>
    cases bz with
    | nil => exact ⟨by omega, by simpa using hM, by simp⟩
    | cons b bs => trivial
  | succ k ih =>
    cases bz with
    | nil => exact ⟨by omega, by simpa using hM, by simp⟩
    | cons b bs =>
      unfold decUnpackedSlice
      have hs := decodeKey_safe (b :: bs)
      cases hd : decodeKey (b :: bs) with
      | panic p => exact absurd hd (hs.noPanic p)
      | oof => trivial
      | err m e => simp only [Post]; omega
      | ok m ft =>
        obtain ⟨fnum, typ⟩ := ft
        have hk := decodeKey_ok hd
        simp only
        split
        · simp only [Post]; omega
        split
        · exact ⟨by omega, by omega, by simp⟩
        split
        · simp only [Post]; omega
        refine Post.slideThen hk.2.2.2.2.2 ?_
        split
        · rename_i hz
          have hne : 1 ≤ ((b :: bs).drop m).length := by
            cases hx : (b :: bs).drop m with
            | nil => rw [hx] at hz; simp at hz
            | cons => simp
          refine Post.slideThen hne (Post.map (ih _ _ ?_) ?_)
          · simp only [List.length_drop] at hne ⊢; omega
          · intro vs hvs; simp only [List.mem_cons, forall_eq_or_imp]
            exact ⟨hasTy_default hT.zero e, hvs⟩
        · refine Post.andSlide (h _ _ _ _ _ he (hasTy_zeroTy hT.zero e))
            (by simp only [List.length_drop]; omega) fun v m' h1 h2 hv => Post.map (ih _ _ ?_) ?_
          · simp only [List.length_drop] at h2 ⊢; omega
          · intro vs hvs; simp only [List.mem_cons, forall_eq_or_imp]
            exact ⟨hv, hvs⟩

omit hT in
theorem decPackedArr_typed (h : RecTyped Γ S Q rec) {e : Ty} (he : OkTy Γ S e) (fo : FOpts)
    (ps : List Val) (hps : ∀ p ∈ ps, HasTy Γ e p)
    (bz : Bytes) (n M : Nat) (hM : n + bz.length ≤ M) :
    Post Q (fun vs => vs.length = ps.length ∧ ∀ v ∈ vs, HasTy Γ e v) 0 M
      (decPackedArr Γ rec e fo ps bz n) := by
  induction ps generalizing bz n with
  | nil =>
    unfold decPackedArr
    split
    · simp only [Post]; omega
    · exact ⟨by omega, by omega, by simp⟩
  | cons p ps ih =>
    unfold decPackedArr
    simp only [List.mem_cons, forall_eq_or_imp] at hps
    refine Post.andSlide (h _ _ _ _ _ he hps.1) hM fun v m h1 h2 hv => ?_
    refine Post.map (ih hps.2 _ _ (by simp only [List.length_drop]; omega)) ?_
    intro vs hvs; simp only [List.mem_cons, forall_eq_or_imp, List.length_cons]
    exact ⟨by omega, hasTy_preferNil hv, hvs.2⟩

theorem decUnpackedArr_typed (h : RecTyped Γ S Q rec) {e : Ty} (he : OkTy Γ S e) (fo : FOpts)
    (ps : List Val) (hps : ∀ p ∈ ps, HasTy Γ e p)
    (bz : Bytes) (n M : Nat) (hM : n + bz.length ≤ M) :
    Post Q (fun vs => vs.length = ps.length ∧ ∀ v ∈ vs, HasTy Γ e v) 0 M
      (decUnpackedArr Γ rec e fo ps bz n) := by
  induction ps generalizing bz n with
  | nil =>
    unfold decUnpackedArr
    split
    · have hs := decodeKey_safe bz
      cases hd : decodeKey bz with
      | panic p => exact absurd hd (hs.noPanic p)
      | oof => trivial
      | err m e => simp only [Post]; omega
      | ok m ft =>
        simp only
        split
        · simp only [Post]; omega
        · exact ⟨by omega, by omega, by simp⟩
    · exact ⟨by omega, by omega, by simp⟩
  | cons p ps ih =>
    unfold decUnpackedArr
    simp only [List.mem_cons, forall_eq_or_imp] at hps
    have hs := decodeKey_safe bz
    cases hd : decodeKey bz with
    | panic p => exact absurd hd (hs.noPanic p)
    | oof => trivial
    | err m e => simp only [Post]; omega
    | ok m ft =>
      obtain ⟨fnum, typ⟩ := ft
      have hk := decodeKey_ok hd
      simp only
      split
      · simp only [Post]; omega
      split
      · simp only [Post]; omega
      refine Post.slideThen hk.2.2.2.2.2 ?_
      split
      · rename_i hz
        have hne : 1 ≤ (bz.drop m).length := by
          cases hx : bz.drop m with
          | nil => rw [hx] at hz; simp at hz
          | cons => simp
        refine Post.slideThen hne (Post.map (ih hps.2 _ _ ?_) ?_)
        · simp only [List.length_drop] at hne ⊢; omega
        · intro vs hvs; simp only [List.mem_cons, forall_eq_or_imp, List.length_cons]
          exact ⟨by omega, hasTy_default hT.zero e, hvs.2⟩
      · refine Post.andSlide (h _ _ _ _ _ he hps.1) (by simp only [List.length_drop]; omega)
          fun v m' h1 h2 hv => Post.map (ih hps.2 _ _ ?_) ?_
        · simp only [List.length_drop] at h2 ⊢; omega
        · intro vs hvs; simp only [List.mem_cons, forall_eq_or_imp, List.length_cons]
          exact ⟨by omega, hv, hvs.2⟩

theorem decFields_typed (hS : DecUniv Γ c S) (h : RecTyped Γ S Q rec) (fs : List Field)
    (hfs : ∀ f ∈ fs, f.visible = true → OkTy Γ S f.ty) (ps : List Val) (hps : FieldsTy Γ fs ps)
    (num last : Nat) (bz : Bytes) (n M : Nat) (hM : n + bz.length ≤ M) :
    Post Q (FieldsTy Γ fs) 0 M (decFields Γ c rec fs ps num last bz n) := by
  induction fs generalizing ps num last bz n with
  | nil =>
    cases ps with
    | nil =>
      exact Post.map ((consumeRest_post _ _ _ _ _ hM).mono (fun _ h => h) (by omega) (by omega))
        fun _ _ => fieldsTy_nil
    | cons => simp [FieldsTy] at hps
  | cons f fs ih =>
    cases ps with
    | nil => simp [FieldsTy] at hps
    | cons p ps =>
      rw [fieldsTy_cons] at hps
      simp only [List.mem_cons, forall_eq_or_imp] at hfs
      have ih' := fun num last bz n hM => ih hfs.2 ps hps.2 num last bz n hM
      unfold decFields
      split
      · exact Post.map (ih' _ _ _ _ hM) fun _ hv => fieldsTy_cons.mpr ⟨hps.1, hv⟩
      rename_i hvis
      have hf := hfs.1 (by simpa using hvis)
      refine Post.infoThen (by omega) (getInfo_noPanic hS hf.1) ?_
      split
      · exact Post.map (ih' _ _ _ _ hM) fun _ hv => fieldsTy_cons.mpr ⟨hasTy_default hT.zero _, hv⟩
      split
      · refine Post.andSlide (h _ _ _ _ _ hf hps.1) hM fun v m h1 h2 hv => ?_
        exact Post.map (ih' _ _ _ _ (by simp only [List.length_drop]; omega))
          fun _ hvs => fieldsTy_cons.mpr ⟨hv, hvs⟩
      have hs := decodeKey_safe bz
      cases hd : decodeKey bz with
      | panic p => exact absurd hd (hs.noPanic p)
      | oof => trivial
      | err m e => simp only [Post]; omega
      | ok m ft =>
        obtain ⟨fnum, typ⟩ := ft
        have hk := decodeKey_ok hd
        simp only
        split
        · exact Post.map (ih' _ _ _ _ hM) fun _ hv => fieldsTy_cons.mpr ⟨hasTy_default hT.zero _, hv⟩
        split
        · simp only [Post]; omega
        refine Post.slideThen hk.2.2.2.2.2 ?_
        split
        · simp only [Post]; omega
        split
        · simp only [Post]; omega
        refine Post.andSlide (h _ _ _ _ _ hf hps.1) (by simp only [List.length_drop]; omega)
          fun v m' h1 h2 hv => Post.map (ih' _ _ _ _ ?_) fun _ hvs => fieldsTy_cons.mpr ⟨hv, hvs⟩
        simp only [List.length_drop] at h2 ⊢; omega

omit hT in
theorem lookupConc_ok (hS : DecUniv Γ c S) {id : TId} {ii : IfaceInfo} (hii : c.iface? id = some ii)
    {dp : Option Bytes × Bytes} {ci : ConcInfo} (h : lookupConc c ii dp = .ok ci) : S ci.tid := by
  unfold lookupConc at h
  split at h
  · split at h
    · rename_i h'; simp only [Except.ok.injEq] at h; subst h; exact hS.disfix h'
    · simp at h
  · split at h
    · simp at h
    · rename_i ci' h'
      simp only [Except.ok.injEq] at h; subst h
      refine hS.impls hii (ci := ci') ?_
      have : ci' ∈ ii.withPrefix dp.2 := by rw [h']; simp
      exact (List.mem_filter.mp this).1
    · simp at h

theorem decIface_typed (hS : DecUniv Γ c S) (hres : ResidOk Γ c Q) (h : RecTyped Γ S Q rec) {id : TId}
    (hsh : Γ.shape id = .iface) (prior : Val) (fo : FOpts) (bare : Bool) (bz : Bytes) :
    Post Q (HasTy Γ (.base id)) 0 bz.length (decIface Γ c rec id prior fo bare bz) := by
  unfold decIface
  split
  · cases hii : c.iface? id with
    | none => simp [Post]
    | some ii =>
      refine Post.unframe fun buf n h1 h2 _ => ?_
      refine Post.andSlide (decodeDisambPrefix_post _) h1 fun dp m h3 h4 _ => ?_
      cases hl : lookupConc c ii dp with
      | error e => simp only [Post]; omega
      | ok ci =>
        refine concKey_post (by simp only [List.length_drop]; omega) fun m' h5 => ?_
        have hr := h (.base ci.tid) (Γ.zero ci.tid) fo true (List.drop m' (List.drop m buf))
          ⟨lookupConc_ok hS hii hl, by simp [Ty.isPtr]⟩ (hT.zero _)
        simp only [List.length_drop] at h5
        cases hx : rec (.base ci.tid) (Γ.zero ci.tid) fo true (List.drop m' (List.drop m buf)) with
        | ok m2 v =>
          rw [hx] at hr
          simp only [Post] at hr
          simp only [if_pos hr.2.1]
          simp only [List.length_drop] at hr
          split
          · simp only [Post]; omega
          split
          · rename_i hi
            simp only [Post]; refine ⟨by omega, by omega, .iface hsh hi (hasTy_wrap ?_)⟩
            have : ci.dynTy.deref = ci.tid := by unfold ConcInfo.dynTy; split <;> rfl
            rw [this]; exact hr.2.2
          · rename_i hi; exact (hres _ _ _ _ hii hl).resolve_left hi
        | err m2 e =>
          rw [hx] at hr
          simp only [Post] at hr
          simp only [if_pos hr]
          simp only [List.length_drop] at hr
          split
          · simp only [Post]; omega
          · rename_i hi; exact (hres _ _ _ _ hii hl).resolve_left hi
        | panic p => rw [hx] at hr; exact hr
        | oof => trivial
  · simp [Post]

omit hT in
theorem decInt_typed (k : IntKind) (fo : FOpts) (bz : Bytes) :
    Post Q k.inRange 1 bz.length (decInt k fo bz) := by
  have hp := decInt_post (Q := Q) k fo bz
  cases hd : decInt k fo bz with
  | err n e => rw [hd] at hp; exact hp
  | panic p => rw [hd] at hp; exact hp
  | oof => trivial
  | ok n i =>
    rw [hd] at hp
    refine ⟨hp.1, hp.2.1, ?_⟩
    have step : ∀ {α : Type} {r : DRes α} {g : α → Nat → DRes Int} ,
        (r.andSlide bz 0 fun a _ n => g a n) = .ok n i → ∃ m a, r = .ok m a ∧ g a (0 + m) = .ok n i := by
      intro α r g h
      unfold DRes.andSlide at h
      cases r with
      | ok m a =>
        simp only at h
        split at h
        · exact ⟨m, a, rfl, h⟩
        · simp at h
      | err m e => simp only at h; split at h <;> simp at h
      | panic p => simp at h
      | oof => simp at h
    unfold decInt at hd
    cases k <;> simp only at hd <;> unfold IntKind.inRange <;>
      simp only [IntKind.signed, IntKind.bits, if_true, Bool.false_eq_true, if_false]
    · obtain ⟨m, a, h1, h2⟩ := step hd
      simp only [DRes.ok.injEq] at h2
      have := decodeInt8_range h1
      omega
    · obtain ⟨m, a, h1, h2⟩ := step hd
      simp only [DRes.ok.injEq] at h2
      have := decodeInt16_range h1
      omega
    · split at hd
      · obtain ⟨m, a, h1, h2⟩ := step hd
        simp only [DRes.ok.injEq] at h2
        have := decodeInt32_range h1
        omega
      · obtain ⟨m, a, h1, h2⟩ := step hd
        split at h2 <;> simp at h2
        omega
    · split at hd
      · obtain ⟨m, a, h1, h2⟩ := step hd
        simp only [DRes.ok.injEq] at h2
        have := decodeInt64_range h1
        omega
      · obtain ⟨m, a, h1, h2⟩ := step hd
        simp only [DRes.ok.injEq] at h2
        have := intOfU64_range a
        omega
    · obtain ⟨m, a, h1, h2⟩ := step hd
      split at h2 <;> simp at h2
      have := intOfU64_range a
      omega
    · obtain ⟨m, a, h1, h2⟩ := step hd
      simp only [DRes.ok.injEq] at h2
      have := decodeUint8_range h1
      omega
    · obtain ⟨m, a, h1, h2⟩ := step hd
      simp only [DRes.ok.injEq] at h2
      have := decodeUint16_range h1
      omega
    · split at hd
      · obtain ⟨m, a, h1, h2⟩ := step hd
        simp only [DRes.ok.injEq] at h2
        have := decodeUint32_lt h1
        omega
      · obtain ⟨m, a, h1, h2⟩ := step hd
        simp only [DRes.ok.injEq] at h2
        omega
    · have := fun (a : UInt64) => a.toNat_lt
      split at hd
      · obtain ⟨m, a, h1, h2⟩ := step hd
        simp only [DRes.ok.injEq] at h2
        have := a.toNat_lt
        omega
      · obtain ⟨m, a, h1, h2⟩ := step hd
        simp only [DRes.ok.injEq] at h2
        have := a.toNat_lt
        omega
    · obtain ⟨m, a, h1, h2⟩ := step hd
      simp only [DRes.ok.injEq] at h2
      have := a.toNat_lt
      omega

theorem decShape_typed (hS : DecUniv Γ c S) (hres : ResidOk Γ c Q) (h : RecTyped Γ S Q rec) {id : TId}
    (hid : S id) (prior : Val) (hp : HasTy Γ (.base id) prior) (fo : FOpts) (bare : Bool) (bz : Bytes) :
    Post Q (HasTy Γ (.base id)) 0 bz.length (decShape Γ c rec id prior fo bare bz) := by
  unfold decShape
  split
  · rename_i hsh
    exact decIface_typed hT hS hres h hsh _ _ _ _
  · rename_i len e hsh
    have hu := hS.array hid hsh
    split
    · rename_i hb
      rw [if_pos hb] at hu
      unfold decByteArray
      split
      · simp [Post]
      · refine Post.andSlide (Post.ofSafe (decodeByteSlice_safe bz)) (by omega) fun b m h1 h2 _ => ?_
        split
        · simp only [Post]; omega
        exact ⟨by omega, by omega, .arrayBytes hsh hb (by omega)⟩
    · rename_i hb
      rw [if_neg hb] at hu
      unfold decArray
      refine Post.infoThen (by omega) (getInfo_noPanic hS hu.1) (Post.unframe fun buf n h1 h2 _ => ?_)
      cases hp with
      | array hsh' hb' hl hvs =>
        rename_i n' e' vs
        rw [hsh] at hsh'; cases hsh'
        simp only
        have hw : ∀ ws : List Val, (ws.length = vs.length ∧ ∀ v ∈ ws, HasTy Γ e v) →
            HasTy Γ (.base id) (.list ws) := fun ws hw => .array hsh hb' (by omega) hw.2
        split
        · exact Post.map (decPackedArr_typed h hu _ _ hvs _ _ _ h1) hw
        · exact Post.map (decUnpackedArr_typed hT h hu _ _ hvs _ _ _ h1) hw
      | arrayBytes hsh' hb' => rw [hsh] at hsh'; cases hsh'; exact absurd hb' hb
      | _ => rename_i hsh' <;> simp_all
  · rename_i e hsh
    have hu := hS.slice hid hsh
    split
    · rename_i hb
      rw [if_pos hb] at hu
      unfold decByteSlice
      split
      · exact ⟨by omega, by omega, .sliceNil hsh⟩
      · refine Post.andSlide (Post.ofSafe (decodeByteSlice_safe bz)) (by omega) fun b m h1 h2 _ => ?_
        split
        · exact ⟨by omega, by omega, .sliceNil hsh⟩
        exact ⟨by omega, by omega, .sliceBytes hsh hb⟩
    · rename_i hb
      rw [if_neg hb] at hu
      unfold decSlice
      refine Post.infoThen (by omega) (getInfo_noPanic hS hu.1) (Post.unframe fun buf n h1 h2 _ => ?_)
      have hw : ∀ ws : List Val, (∀ v ∈ ws, HasTy Γ e v) →
          HasTy Γ (.base id) (if ws.isEmpty then .nil else .list ws) := by
        intro ws hws
        split
        · exact .sliceNil hsh
        · exact .slice hsh (by simpa using hb) hws
      split
      · exact Post.map (decPackedSlice_typed hT h hu _ _ _ _ _ h1) hw
      · exact Post.map (decUnpackedSlice_typed hT h hu _ _ _ _ _ h1) hw
  · rename_i fs hsh
    refine Post.unframe fun buf n h1 h2 _ => ?_
    cases hp with
    | struct hsh' hl hvs =>
      rw [hsh] at hsh'; cases hsh'
      simp only
      refine Post.map (decFields_typed hT hS h _ (fun f hf => (hS.struct hid hsh f hf).2) _ ⟨hl, hvs⟩
        _ _ _ _ _ h1) fun ws hw => .struct hsh hw.1 hw.2
    | _ => rename_i hsh' <;> simp_all
  · rename_i hsh
    refine Post.unframe fun buf n h1 h2 _ => ?_
    refine Post.andSlide (decodeTime_post buf) h1 fun t m h3 h4 ht => ?_
    obtain ⟨a, b, d, e⟩ := ht
    unfold minSeconds at a; unfold maxSeconds at b; unfold maxNanos at e
    exact ⟨by omega, by omega, .time hsh (by omega) (by omega) d (by omega)⟩
  · rename_i k hsh
    exact Post.map ((decInt_typed k _ _).mono (fun _ h => h) (by omega) (by omega))
      fun i hi => .int hsh hi
  · rename_i hsh
    refine Post.andSlide (Post.ofSafe (decodeBool_safe bz)) (by omega) fun b m h1 h2 _ =>
      ⟨by omega, by omega, .bool hsh⟩
  · rename_i hsh
    split
    · simp [Post]
    · exact Post.andSlide (Post.ofSafe (decodeUint64_safe bz)) (by omega) fun b m h1 h2 _ =>
        ⟨by omega, by omega, .f64 hsh⟩
  · rename_i hsh
    split
    · simp [Post]
    · have : Post Q (fun u : UInt64 => u.toNat < 2 ^ 32) 0 bz.length (decodeUint32 bz) := by
        have hs := Post.ofSafe (Q := Q) (decodeUint32_safe bz)
        cases hd : decodeUint32 bz with
        | ok n u => rw [hd] at hs; exact ⟨by omega, hs.2.1, decodeUint32_lt hd⟩
        | err n e => rw [hd] at hs; exact hs
        | panic p => rw [hd] at hs; exact hs
        | oof => trivial
      exact Post.andSlide this (by omega) fun b m h1 h2 hb => ⟨by omega, by omega, .f32 hsh hb⟩
  · rename_i hsh
    exact Post.andSlide (Post.ofSafe (decodeByteSlice_safe bz)) (by omega) fun b m h1 h2 _ =>
      ⟨by omega, by omega, .str hsh⟩
  · rename_i e hsh
    exact absurd hsh (hS.noMap hid)

theorem decBody_typed (hS : DecUniv Γ c S) (hu : Γ.UserOk) (hres : ResidOk Γ c Q) (hquser : Q .user)
    (h : RecTyped Γ S Q rec) : RecTyped Γ S Q (decBody Γ c rec) := by
  intro t p fo bare bz ht hp
  unfold decBody
  rw [if_neg (by rw [ht.2]; simp)]
  simp only
  have hpr := hasTy_derefPrior hT.zero hp
  refine Post.map (V := HasTy Γ (.base t.deref)) ?_ fun _ hv => hasTy_wrap hv
  split
  · rename_i rid um hum
    have hrid := hS.unmarsh ht.1 hum
    refine Post.infoThen (by omega) (getInfo_noPanic hS hrid) ?_
    refine Post.andSlide (h _ _ _ _ _ ⟨hrid, by simp [Ty.isPtr]⟩ (hT.zero _)) (by omega)
      fun r m h1 h2 hr => ?_
    cases hx : um (Γ.derefPrior t p) r with
    | ok v => exact ⟨by omega, by omega, hT.unmarsh hum hpr hr hx⟩
    | err e => simp only [Post]; omega
    | panic q => rw [(hu.2 _ _ _ _ _ hum).2 q hx]; exact hquser
    | oof => trivial
  · exact decShape_typed hT hS hres h ht.1 _ hpr _ _ _

end

/-- Decoding over a supported universe: well typed results, only residual panics. -/
theorem dec_typed {Γ : Prog} {c : Codec} {S : TId → Prop} {Q : Pan → Prop} (hT : Γ.Typed)
    (hu : Γ.UserOk) (hS : DecUniv Γ c S) (hres : ResidOk Γ c Q) (hquser : Q .user) (f : Nat) :
    RecTyped Γ S Q (dec Γ c f) := by
  induction f with
  | zero => intro t p fo bare bz _ _; simp [dec, Post]
  | succ f ih => exact decBody_typed hT hS hu hres hquser ih

end Amino
