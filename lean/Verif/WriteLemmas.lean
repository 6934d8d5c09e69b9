import Verif.SpecWrite
import Verif.RTFields
import Verif.FuelMono

/-!
# The encoder succeeds exactly on writable values
-/

namespace Amino
open Spec

variable {Γ : Prog} {c : Codec}

theorem known_iff {id : TId} : Known Γ c id ↔ getInfo Γ c id = .ok () := by
  have hf : ∀ f : Field, untaggedFloat Γ f ↔ Γ.badFloat f = true := by
    intro f
    unfold untaggedFloat Prog.badFloat
    cases f.visible <;> cases f.opts.floatOk <;> simp
    cases f.ty with
    | ptr t => simp
    | base id =>
      simp only [Ty.base.injEq, exists_eq_left']
      cases Γ.shape id <;> simp
  unfold Known getInfo
  cases hs : Γ.shape id with
  | iface =>
    cases hc : c.iface? id <;> simp
  | struct fs =>
    simp only [Shape.struct.injEq, forall_eq', reduceCtorEq, false_implies, true_and]
    cases ha : fs.any Γ.badFloat with
    | false =>
      simp only [Bool.false_eq_true, if_false, iff_true]
      intro f hm hu
      rw [hf] at hu
      rw [List.any_eq_false] at ha
      exact ha f hm hu
    | true =>
      simp only [if_true, reduceCtorEq, iff_false]
      intro h
      obtain ⟨f, hm, hb⟩ := List.any_eq_true.1 ha
      exact h f hm ((hf f).2 hb)
  | _ => simp

theorem Spec.Writable.opts {w : What} {fo : FOpts} {v : Val} (h : Writable Γ c w fo v) :
    ∀ {fo' : FOpts}, fo'.floatOk = fo.floatOk → fo'.emptyElements = fo.emptyElements → Writable Γ c w fo' v := by
  induction h with
  | marsh h1 h2 h3 _ ih => intro fo' e1 e2; exact .marsh h1 h2 h3 (ih e1 e2)
  | bool h1 h2 => intro fo' _ _; exact .bool h1 h2
  | int h1 h2 => intro fo' _ _; exact .int h1 h2
  | f32 h1 h2 h3 => intro fo' e1 _; exact .f32 h1 h2 (e1.trans h3)
  | f64 h1 h2 h3 => intro fo' e1 _; exact .f64 h1 h2 (e1.trans h3)
  | str h1 h2 => intro fo' _ _; exact .str h1 h2
  | time h1 h2 h3 => intro fo' _ _; exact .time h1 h2 h3
  | bytes h1 h2 h3 => intro fo' _ _; exact .bytes h1 h2 h3
  | nilBytes h1 h2 h3 => intro fo' _ _; exact .nilBytes h1 h2 h3
  | nested h1 h2 h3 h4 h5 => intro fo' _ _; exact .nested h1 h2 h3 h4 h5
  | list h1 h2 h3 h4 _ ih => intro fo' e1 e2; exact .list h1 h2 h3 h4 (ih e1 e2)
  | nilIface h1 h2 => intro fo' _ _; exact .nilIface h1 h2
  | iface h1 h2 h3 h4 h5 h6 h7 _ ih => intro fo' e1 e2; exact .iface h1 h2 h3 h4 h5 h6 h7 (ih e1 e2)
  | struct h1 h2 h3 h4 h5 h6 h7 => intro fo' _ _; exact .struct h1 h2 h3 h4 h5 h6 h7
  | noElems h1 => intro fo' _ _; exact .noElems h1
  | packed h1 h2 _ ih => intro fo' e1 e2; exact .packed h1 h2 fun v hv => ih v hv e1 e2
  | unpacked h1 h2 h3 _ ih =>
    intro fo' e1 e2
    refine .unpacked h1 h2 (fun hk => h3 ?_) fun v hv dv hd hn => ih v hv dv hd hn e1 e2
    unfold keepEmpty at hk ⊢
    rw [← e2]
    exact hk

theorem goodTime_of {s ns : Int} {b : Bytes} (h : encodeTime s ns = .ok b) : goodTime s ns := by
  unfold encodeTime at h
  obtain ⟨_, h1, h⟩ := Res.bind_eq_ok h
  obtain ⟨_, h2, h⟩ := Res.bind_eq_ok h
  unfold goodTime
  constructor
  · by_cases hs : s = 0
    · exact .inl hs
    · rw [if_pos hs] at h1
      split at h1
      · cases h1
      · rename_i hn
        unfold minSeconds maxSeconds at hn
        exact .inr (by omega)
  · by_cases hs : ns = 0
    · exact .inl hs
    · rw [if_pos hs] at h2
      split at h2
      · cases h2
      · rename_i hn
        unfold maxNanos at hn
        exact .inr (by omega)

theorem encodeTime_good {s ns : Int} (h : goodTime s ns) : ∃ b, encodeTime s ns = .ok b := by
  unfold goodTime at h
  unfold encodeTime
  have h1 : ¬ (s ≠ 0 ∧ (s < minSeconds ∨ s ≥ maxSeconds)) := by unfold minSeconds maxSeconds; omega
  have h2 : ¬ (ns ≠ 0 ∧ (ns < 0 ∨ ns > maxNanos)) := by unfold maxNanos; omega
  rw [encodeKey_eq _ _ (by decide) (by decide), encodeKey_eq _ _ (by decide) (by decide), encodeUvarint_eq, encodeUvarint_eq]
  simp only [Res.bind_ok]
  by_cases hs : s = 0 <;> by_cases hn : ns = 0 <;>
    simp_all only [ne_eq, not_true_eq_false, not_false_eq_true, if_true, if_false, true_and, Res.bind_ok, Res.ok.injEq,
      exists_eq']

theorem bytesInside_of {k : Nat} {e : Ty} (h : innerIsByte Γ k e = some true) : BytesInside Γ e := by
  induction k generalizing e with
  | zero => cases h
  | succ k ih =>
    cases e with
    | ptr _ => cases h
    | base id =>
      simp only [innerIsByte] at h
      split at h
      · rename_i hs; exact .list (by rw [hs]; rfl) (ih h)
      · rename_i hs; exact .list (by rw [hs]; rfl) (ih h)
      · rename_i hs; exact .byte hs
      · cases h

theorem innerIsByte_inside {e : Ty} (h : BytesInside Γ e) : ∃ k, ∀ j, k ≤ j → innerIsByte Γ j e = some true := by
  induction h with
  | byte hs =>
    refine ⟨1, fun j hj => ?_⟩
    obtain ⟨j, rfl⟩ : ∃ i, j = i + 1 := ⟨j - 1, by omega⟩
    simp [innerIsByte, hs]
  | @list id e he _ ih =>
    obtain ⟨k, ih⟩ := ih
    refine ⟨k + 1, fun j hj => ?_⟩
    obtain ⟨j, rfl⟩ : ∃ i, j = i + 1 := ⟨j - 1, by omega⟩
    cases hs : Γ.shape id <;> rw [hs] at he <;> simp [Shape.elem?] at he <;> subst he <;>
      simp [innerIsByte, hs, ih j (by omega)]

/-! ## Success implies writable -/

def RecW (Γ : Prog) (c : Codec) (rec : TId → Val → FOpts → Bool → Res Bytes) : Prop :=
  ∀ id v fo bare bz, rec id v fo bare = .ok bz → Writable Γ c (.val id) fo v

section
variable {rec : TId → Val → FOpts → Bool → Res Bytes}

theorem encPacked_w (hr : RecW Γ c rec) {e : Ty} {fo : FOpts} {vs : List Val} {bz : Bytes} (h : encPacked Γ rec e fo vs = .ok bz) :
    ∀ v ∈ vs, Writable Γ c (.val e.deref) fo ((pointee e v).getD (Γ.zero e.deref)) := by
  induction vs generalizing bz with
  | nil => simp
  | cons v vs ih =>
    unfold encPacked at h
    obtain ⟨_, h1, h⟩ := Res.bind_eq_ok h
    obtain ⟨_, h2, h⟩ := Res.bind_eq_ok h
    intro w hw
    rcases List.mem_cons.1 hw with rfl | hw
    · have := hr _ _ _ _ _ h1
      unfold Prog.derefZero at this
      rw [pointee_eq]
      cases hd : derefVal e w <;> rw [hd] at this <;> exact this
    · exact ih h2 w hw

theorem encUnpacked_w (hr : RecW Γ c rec) {e : Ty} {fo : FOpts} {vs : List Val} {bz : Bytes} (h : encUnpacked Γ rec e fo vs = .ok bz) :
    (keepEmpty Γ e fo = true → ∀ v ∈ vs, pointee e v ≠ none) ∧
    ∀ v ∈ vs, ∀ dv, pointee e v = some dv → dflt (Γ.shape e.deref) dv = false → Writable Γ c (.val e.deref) fo dv := by
  induction vs generalizing bz with
  | nil => simp
  | cons v vs ih =>
    unfold encUnpacked at h
    obtain ⟨_, h0, h⟩ := Res.bind_eq_ok h
    obtain ⟨_, h1, h⟩ := Res.bind_eq_ok h
    obtain ⟨_, h2, h⟩ := Res.bind_eq_ok h
    obtain ⟨i1, i2⟩ := ih h2
    unfold encElem at h1
    constructor
    · intro hk w hw
      rcases List.mem_cons.1 hw with rfl | hw
      · intro hn
        rw [pointee_eq] at hn
        rw [hn] at h1
        simp only at h1
        unfold keepEmpty at hk
        rw [if_pos (by simp at hk ⊢; simp [hk])] at h1
        cases h1
      · exact i1 hk w hw
    · intro w hw dv hd hn
      rcases List.mem_cons.1 hw with rfl | hw
      · rw [pointee_eq] at hd
        rw [hd] at h1
        simp only at h1
        rw [← dflt_eq, hn] at h1
        exact (hr _ _ _ _ _ h1).opts rfl rfl
      · exact i2 w hw dv hd hn

theorem encList_w (hr : RecW Γ c rec) {e : Ty} {fo : FOpts} {v : Val} {bare : Bool} {bz : Bytes}
    (h : encList Γ c rec e v fo bare = .ok bz) : Writable Γ c (.elems e) fo v := by
  unfold encList at h
  obtain ⟨_, hi, h⟩ := Res.bind_eq_ok h
  have hi := known_iff.2 hi
  cases v with
  | nil => exact .noElems hi
  | list vs =>
    simp only at h
    obtain ⟨b, h, _⟩ := Res.bind_eq_ok h
    split at h
    · rename_i ht
      refine .packed hi ?_ (encPacked_w hr h)
      rw [lenKind_eq, Bool.eq_false_iff]
      exact fun hh => ht (isLen_iff.mp hh)
    · rename_i ht
      obtain ⟨h1, h2⟩ := encUnpacked_w hr h
      refine .unpacked hi ?_ h1 h2
      rw [lenKind_eq]
      exact isLen_iff.mpr (Classical.not_not.mp ht)
  | _ => cases h

theorem encField_w (hr : RecW Γ c rec) {f : Field} {num : Nat} {v : Val} {bz : Bytes} (h : encField Γ c rec f num v = .ok bz) :
    Known Γ c f.ty.deref ∧ (f.opts.writeEmpty = true → pointee f.ty v ≠ none) ∧
    (∀ dv, pointee f.ty v = some dv → (dflt (Γ.shape f.ty.deref) dv = true → f.opts.writeEmpty = true) →
      repeated Γ f = false → Writable Γ c (.val f.ty.deref) f.opts dv) ∧
    ∀ e, (Γ.shape f.ty.deref).elem? = some e → ∀ dv, pointee f.ty v = some dv →
      (dflt (Γ.shape f.ty.deref) dv = true → f.opts.writeEmpty = true) → repeated Γ f = true →
      Writable Γ c (.elems e) f.opts dv := by
  unfold encField at h
  obtain ⟨_, hi, h⟩ := Res.bind_eq_ok h
  refine ⟨known_iff.2 hi, ?_, ?_, ?_⟩
  · intro hw hn
    rw [pointee_eq] at hn
    rw [hn] at h
    simp only at h
    rw [if_pos hw] at h
    cases h
  · intro dv hd hn hrep
    rw [pointee_eq] at hd
    rw [hd] at h
    simp only at h
    rw [← dflt_eq, if_neg (by cases hh : dflt (Γ.shape f.ty.deref) dv <;> simp_all), ← repeated_eq, hrep, if_neg (by simp)] at h
    unfold writeField at h
    obtain ⟨_, _, h⟩ := Res.bind_eq_ok h
    obtain ⟨_, h, _⟩ := Res.bind_eq_ok h
    exact (hr _ _ _ _ _ h).opts rfl rfl
  · intro e he dv hd hn hrep
    rw [pointee_eq] at hd
    rw [hd] at h
    simp only at h
    rw [← dflt_eq, if_neg (by cases hh : dflt (Γ.shape f.ty.deref) dv <;> simp_all), ← repeated_eq, hrep, if_pos rfl, he] at h
    exact (encList_w hr h).opts rfl rfl

theorem encFields_w {fs : List Field} {vs : List Val} {num : Nat} {bz : Bytes}
    (h : encFields Γ c rec num fs vs = .ok bz) : fs.length = vs.length ∧ ∀ p ∈ fs.zip vs, p.1.visible = true →
      ∃ n b, encField Γ c rec p.1 n p.2 = .ok b := by
  induction fs generalizing vs num bz with
  | nil =>
    cases vs with
    | nil => simp
    | cons => cases h
  | cons f fs ih =>
    cases vs with
    | nil => cases h
    | cons v vs =>
      unfold encFields at h
      cases hv : f.visible with
      | false =>
        rw [hv] at h
        obtain ⟨i1, i2⟩ := ih h
        refine ⟨by simp [i1], ?_⟩
        intro p hp hvis
        simp only [List.zip_cons_cons, List.mem_cons] at hp
        rcases hp with rfl | hp
        · rw [hv] at hvis; cases hvis
        · exact i2 p hp hvis
      | true =>
        rw [hv] at h
        simp only [Bool.not_true, Bool.false_eq_true, if_false] at h
        obtain ⟨b, hb, h⟩ := Res.bind_eq_ok h
        obtain ⟨_, h, _⟩ := Res.bind_eq_ok h
        obtain ⟨i1, i2⟩ := ih h
        refine ⟨by simp [i1], ?_⟩
        intro p hp hvis
        simp only [List.zip_cons_cons, List.mem_cons] at hp
        rcases hp with rfl | hp
        · exact ⟨_, _, hb⟩
        · exact i2 p hp hvis

theorem encIface_w (hr : RecW Γ c rec) {id : TId} (hm : Γ.marsh id = none) (hs : Γ.shape id = .iface) {v : Val} {fo : FOpts}
    {bare : Bool} {bz : Bytes} (h : encIface Γ c rec id v fo bare = .ok bz) : Writable Γ c (.val id) fo v := by
  cases v with
  | nil => exact .nilIface hm hs
  | iface t w =>
    unfold encIface at h
    simp only at h
    cases hd : derefVal t w with
    | none => rw [hd] at h; cases h
    | some dv =>
      rw [hd] at h
      simp only at h
      split at h
      · cases h
      · rename_i hni
        obtain ⟨_, hi, h⟩ := Res.bind_eq_ok h
        split at h
        · cases h
        · rename_i ci hci
          split at h
          · cases h
          · rename_i ii hii
            obtain ⟨_, h, _⟩ := Res.bind_eq_ok h
            exact .iface hm hs (by rw [pointee_eq]; exact hd) (fun hp => by simpa [hp] using hni) (known_iff.2 hi) hci hii
              (hr _ _ _ _ _ h)
  | _ => cases h

theorem encShape_w (hr : RecW Γ c rec) {id : TId} (hm : Γ.marsh id = none) {k : Nat} {v : Val} {fo : FOpts}
    {bare : Bool} {bz : Bytes} (h : encShape Γ c rec k id v fo bare = .ok bz) : Writable Γ c (.val id) fo v := by
  unfold encShape at h
  cases hs : Γ.shape id with
  | iface => rw [hs] at h; exact encIface_w hr hm hs h
  | slice e =>
    rw [hs] at h
    simp only at h
    split at h
    · rename_i hb
      cases v with
      | nil => exact .nilBytes hm hs hb
      | bytes b => exact .bytes hm (by rw [hs]; rfl) hb
      | _ => cases h
    · rename_i hb
      split at h
      · rename_i hl
        split at h
        · cases h
        · rename_i hi
          exact .nested hm (by rw [hs]; rfl) (by simpa using hb) hl (bytesInside_of hi)
        · cases h
      · rename_i hl
        exact .list hm (by rw [hs]; rfl) (by simpa using hb) (by simpa using hl) (encList_w hr h)
  | array n e =>
    rw [hs] at h
    simp only at h
    split at h
    · rename_i hb
      cases v with
      | bytes b => exact .bytes hm (by rw [hs]; rfl) hb
      | _ => cases h
    · rename_i hb
      split at h
      · rename_i hl
        split at h
        · cases h
        · rename_i hi
          exact .nested hm (by rw [hs]; rfl) (by simpa using hb) hl (bytesInside_of hi)
        · cases h
      · rename_i hl
        exact .list hm (by rw [hs]; rfl) (by simpa using hb) (by simpa using hl) (encList_w hr h)
  | struct fs =>
    rw [hs] at h
    cases v with
    | struct vs =>
      simp only at h
      obtain ⟨_, h, _⟩ := Res.bind_eq_ok h
      obtain ⟨hl, hf⟩ := encFields_w h
      refine .struct hm hs hl ?_ ?_ ?_ ?_ <;> intro p hp hvis <;> obtain ⟨n, b, hb⟩ := hf p hp hvis <;>
        obtain ⟨h1, h2, h3, h4⟩ := encField_w hr hb
      · exact h1
      · exact h2
      · exact h3
      · exact h4
    | _ => cases h
  | time =>
    rw [hs] at h
    cases v with
    | time s ns =>
      simp only at h
      obtain ⟨_, h, _⟩ := Res.bind_eq_ok h
      exact .time hm hs (goodTime_of h)
    | _ => cases h
  | int k =>
    rw [hs] at h
    cases v with
    | int i => exact .int hm hs
    | _ => cases h
  | bool =>
    rw [hs] at h
    cases v with
    | bool b => exact .bool hm hs
    | _ => cases h
  | string =>
    rw [hs] at h
    cases v with
    | str b => exact .str hm hs
    | _ => cases h
  | float32 =>
    rw [hs] at h
    simp only at h
    split at h
    · cases h
    · rename_i hf
      cases v with
      | f32 b => exact .f32 hm hs (by simpa using hf)
      | _ => cases h
  | float64 =>
    rw [hs] at h
    simp only at h
    split at h
    · cases h
    · rename_i hf
      cases v with
      | f64 b => exact .f64 hm hs (by simpa using hf)
      | _ => cases h
  | map e => rw [hs] at h; cases h

end

theorem enc_w (Γ : Prog) (c : Codec) (f : Nat) : RecW Γ c (enc Γ c f) := by
  induction f with
  | zero => intro id v fo bare bz h; cases h
  | succ f ih =>
    intro id v fo bare bz h
    rw [enc] at h
    unfold encBody at h
    cases hm : Γ.marsh id with
    | some rm =>
      obtain ⟨rid, m⟩ := rm
      rw [hm] at h
      simp only at h
      obtain ⟨r, h1, h⟩ := Res.bind_eq_ok h
      obtain ⟨_, h2, h⟩ := Res.bind_eq_ok h
      exact .marsh hm h1 (known_iff.2 h2) (ih _ _ _ _ _ h)
    | none =>
      rw [hm] at h
      exact encShape_w ih hm h

/-! ## Writable implies success -/

/-- Enough fuel for all elements. -/
theorem exists_fuel {α : Type} {Q : Nat → α → Prop} {as : List α} (h : ∀ a ∈ as, ∃ f, ∀ g, f ≤ g → Q g a) :
    ∃ f, ∀ g, f ≤ g → ∀ a ∈ as, Q g a := by
  induction as with
  | nil => exact ⟨0, by simp⟩
  | cons a as ih =>
    obtain ⟨f, hf⟩ := h a (by simp)
    obtain ⟨k, hk⟩ := ih fun x hx => h x (by simp [hx])
    refine ⟨max f k, fun g hg x hx => ?_⟩
    rcases List.mem_cons.1 hx with rfl | hx
    · exact hf g (by omega)
    · exact hk g (by omega) x hx

theorem framed_total (bare : Bool) (b : Bytes) : ∃ bz, framed bare b = .ok bz := by
  cases bare <;> simp [framed, encodeByteSlice, encodeUvarint_eq]

theorem encInt_total (k : IntKind) (fo : FOpts) (i : Int) : ∃ bz, encInt k fo i = .ok bz := by
  cases k <;> simp only [encInt, encodeInt16, encodeInt8, encodeVarint, encodeUint16, encodeUint8, encodeUvarint_eq] <;>
    (try split) <;> exact ⟨_, rfl⟩

/-- What the encoder does with it. -/
def Succeeds (Γ : Prog) (c : Codec) : What → FOpts → Val → Prop
  | .val id, fo, v => ∃ f, ∀ g, f ≤ g → ∀ bare n, n < 2 ^ 29 → ∃ bz, enc Γ c g id v { fo with fnum := n } bare = .ok bz
  | .elems e, fo, v => ∃ f, ∀ g, f ≤ g → ∀ bare n, n < 2 ^ 29 →
      ∃ bz, encList Γ c (enc Γ c g) e v { fo with fnum := n } bare = .ok bz

theorem succeeds_shape {id : TId} {fo : FOpts} {v : Val} (hm : Γ.marsh id = none) (f : Nat)
    (h : ∀ g, f ≤ g → ∀ bare n, n < 2 ^ 29 → ∃ bz, encShape Γ c (enc Γ c g) g id v { fo with fnum := n } bare = .ok bz) :
    Succeeds Γ c (.val id) fo v := by
  refine ⟨f + 1, fun g hg bare n hn => ?_⟩
  obtain ⟨g, rfl⟩ : ∃ k, g = k + 1 := ⟨g - 1, by omega⟩
  obtain ⟨bz, hb⟩ := h g (by omega) bare n hn
  refine ⟨bz, ?_⟩
  rw [enc]
  unfold encBody
  rw [hm]
  exact hb

section
variable {rec : TId → Val → FOpts → Bool → Res Bytes}

theorem encPacked_ok {e : Ty} {fo : FOpts} {vs : List Val}
    (h : ∀ v ∈ vs, ∃ bz, rec e.deref (Γ.derefZero e v) fo false = .ok bz) : ∃ bz, encPacked Γ rec e fo vs = .ok bz := by
  induction vs with
  | nil => exact ⟨_, rfl⟩
  | cons v vs ih =>
    obtain ⟨b, hb⟩ := h v (by simp)
    obtain ⟨bs, hbs⟩ := ih fun x hx => h x (by simp [hx])
    exact ⟨_, by rw [encPacked, hb, Res.bind_ok, hbs, Res.bind_ok]⟩

theorem encUnpacked_ok {e : Ty} {fo : FOpts} {vs : List Val} (hn : fo.fnum < 2 ^ 29)
    (hk : keepEmpty Γ e fo = true → ∀ v ∈ vs, pointee e v ≠ none)
    (h : ∀ v ∈ vs, ∀ dv, pointee e v = some dv → dflt (Γ.shape e.deref) dv = false →
      ∃ bz, rec e.deref dv { fo with fnum := 1 } false = .ok bz) : ∃ bz, encUnpacked Γ rec e fo vs = .ok bz := by
  induction vs with
  | nil => exact ⟨_, rfl⟩
  | cons v vs ih =>
    obtain ⟨bs, hbs⟩ := ih (fun hh x hx => hk hh x (by simp [hx])) fun x hx => h x (by simp [hx])
    have : ∃ b, encElem Γ rec e fo v = .ok b := by
      unfold encElem
      cases hd : derefVal e v with
      | none =>
        simp only
        rw [if_neg ?_]
        · exact ⟨_, encodeUvarint_eq _⟩
        · intro hh
          refine hk ?_ v (by simp) (by rw [pointee_eq]; exact hd)
          unfold keepEmpty
          simp at hh ⊢
          simp [hh]
      | some dv =>
        simp only
        split
        · rename_i hdf
          rw [if_neg ?_]
          · exact ⟨_, encodeUvarint_eq _⟩
          · intro hh
            simp at hh
            have hs := hh.1.2
            unfold Prog.isStruct at hs
            split at hs
            · rename_i fs hsh
              rw [hsh] at hdf
              simp [isDefaultBase] at hdf
            · rename_i hsh
              first | (rw [hsh] at hdf; simp [isDefaultBase] at hdf) | cases hs
            all_goals first | cases hs | skip
        · rename_i hdf
          exact h v (by simp) dv (by rw [pointee_eq]; exact hd) (by rw [dflt_eq]; simpa using hdf)
    obtain ⟨b, hb⟩ := this
    exact ⟨_, by rw [encUnpacked, encodeKey_eq _ _ hn (by decide), Res.bind_ok, hb, Res.bind_ok, hbs, Res.bind_ok]⟩

theorem encFields_ok {fs : List Field} {vs : List Val} {num : Nat} (hl : fs.length = vs.length) (hn : num + fs.length < 2 ^ 29)
    (h : ∀ p ∈ fs.zip vs, p.1.visible = true → ∀ n, n < 2 ^ 29 → ∃ b, encField Γ c rec p.1 n p.2 = .ok b) :
    ∃ bz, encFields Γ c rec num fs vs = .ok bz := by
  induction fs generalizing vs num with
  | nil =>
    cases vs with
    | nil => exact ⟨_, rfl⟩
    | cons => cases hl
  | cons f fs ih =>
    cases vs with
    | nil => cases hl
    | cons v vs =>
      simp only [List.length_cons] at hl hn
      unfold encFields
      cases hv : f.visible with
      | false =>
        have := ih (vs := vs) (num := num) (by omega) (by omega) fun p hp => h p (List.mem_cons_of_mem _ hp)
        simpa using this
      | true =>
        obtain ⟨b, hb⟩ := h (f, v) (by simp) hv (num + 1) (by omega)
        obtain ⟨bs, hbs⟩ := ih (vs := vs) (num := num + 1) (by omega) (by omega) fun p hp =>
          h p (List.mem_cons_of_mem _ hp)
        exact ⟨_, by simp only [Bool.not_true, Bool.false_eq_true, if_false]; rw [hb, Res.bind_ok, hbs, Res.bind_ok]⟩

end

theorem encField_ok {g : Nat} {f : Field} {num : Nat} {v : Val} (hn : num < 2 ^ 29) (hi : Known Γ c f.ty.deref)
    (hw : f.opts.writeEmpty = true → pointee f.ty v ≠ none)
    (h1 : ∀ dv, pointee f.ty v = some dv → (dflt (Γ.shape f.ty.deref) dv = true → f.opts.writeEmpty = true) →
      repeated Γ f = false → ∀ bare n, n < 2 ^ 29 → ∃ bz, enc Γ c g f.ty.deref dv { f.opts with fnum := n } bare = .ok bz)
    (h2 : ∀ e, (Γ.shape f.ty.deref).elem? = some e → ∀ dv, pointee f.ty v = some dv →
      (dflt (Γ.shape f.ty.deref) dv = true → f.opts.writeEmpty = true) → repeated Γ f = true →
      ∀ bare n, n < 2 ^ 29 → ∃ bz, encList Γ c (enc Γ c g) e dv { f.opts with fnum := n } bare = .ok bz) :
    ∃ b, encField Γ c (enc Γ c g) f num v = .ok b := by
  unfold encField
  rw [known_iff.1 hi, Res.bind_ok]
  cases hd : derefVal f.ty v with
  | none =>
    simp only
    rw [if_neg (fun hh => hw hh (by rw [pointee_eq]; exact hd))]
    exact ⟨_, rfl⟩
  | some dv =>
    simp only
    split
    · exact ⟨_, rfl⟩
    · rename_i hdf
      rw [← dflt_eq] at hdf
      have hdf : dflt (Γ.shape f.ty.deref) dv = true → f.opts.writeEmpty = true := by
        intro hh
        simpa [hh] using hdf
      have hp : pointee f.ty v = some dv := by rw [pointee_eq]; exact hd
      split
      · rename_i hrep
        obtain ⟨id, e, hid, he, _, _⟩ := unpackedList_inv hrep
        have he' : (Γ.shape f.ty.deref).elem? = some e := by rw [hid]; exact he
        rw [he']
        exact h2 e he' dv hp hdf (by rw [repeated_eq]; exact hrep) _ _ hn
      · rename_i hrep
        obtain ⟨b, hb⟩ := h1 dv hp hdf (by rw [repeated_eq]; simpa using hrep) false num hn
        unfold writeField
        rw [encodeKey_eq _ _ hn (typ3_lt _ _ _), Res.bind_ok, hb, Res.bind_ok]
        split <;> exact ⟨_, rfl⟩

theorem writable_succeeds (hN : ∀ id fs, Γ.shape id = .struct fs → fs.length < 2 ^ 29) {w : What} {fo : FOpts} {v : Val}
    (h : Writable Γ c w fo v) : Succeeds Γ c w fo v := by
  induction h with
  | @marsh id rid m fo v r h1 h2 h3 _ ih =>
    obtain ⟨f, hf⟩ := ih
    refine ⟨f + 1, fun g hg bare n hn => ?_⟩
    obtain ⟨g, rfl⟩ : ∃ k, g = k + 1 := ⟨g - 1, by omega⟩
    obtain ⟨bz, hb⟩ := hf g (by omega) bare n hn
    refine ⟨bz, ?_⟩
    rw [enc]
    unfold encBody
    rw [h1]
    simp only
    rw [h2, Res.bind_ok, known_iff.1 h3, Res.bind_ok]
    exact hb
  | @bool id fo b h1 h2 =>
    refine succeeds_shape h1 0 fun g _ bare n _ => ?_
    unfold encShape
    rw [h2]
    cases b <;> simp [encodeBool, encodeUint8, encodeUvarint_eq]
  | int h1 h2 =>
    refine succeeds_shape h1 0 fun g _ bare n _ => ?_
    unfold encShape
    rw [h2]
    exact encInt_total _ _ _
  | f32 h1 h2 h3 =>
    refine succeeds_shape h1 0 fun g _ bare n _ => ?_
    unfold encShape
    rw [h2]
    simp only
    rw [if_neg (by simp [h3])]
    exact ⟨_, rfl⟩
  | f64 h1 h2 h3 =>
    refine succeeds_shape h1 0 fun g _ bare n _ => ?_
    unfold encShape
    rw [h2]
    simp only
    rw [if_neg (by simp [h3])]
    exact ⟨_, rfl⟩
  | str h1 h2 =>
    refine succeeds_shape h1 0 fun g _ bare n _ => ?_
    unfold encShape
    rw [h2]
    simp [encodeString, encodeByteSlice, encodeUvarint_eq]
  | time h1 h2 h3 =>
    refine succeeds_shape h1 0 fun g _ bare n _ => ?_
    obtain ⟨b, hb⟩ := encodeTime_good h3
    unfold encShape
    rw [h2]
    simp only
    rw [hb, Res.bind_ok]
    exact framed_total _ _
  | @bytes id e fo b h1 h2 h3 =>
    refine succeeds_shape h1 0 fun g _ bare n _ => ?_
    unfold encShape
    cases hs : Γ.shape id <;> rw [hs] at h2 <;> simp [Shape.elem?] at h2 <;> subst h2 <;> simp only <;> rw [if_pos h3] <;>
      simp [encodeByteSlice, encodeUvarint_eq]
  | nilBytes h1 h2 h3 =>
    refine succeeds_shape h1 0 fun g _ bare n _ => ?_
    unfold encShape
    rw [h2]
    simp only
    rw [if_pos h3]
    simp [encodeByteSlice, encodeUvarint_eq]
  | @nested id e fo v h1 h2 h3 h4 h5 =>
    obtain ⟨k, hk⟩ := innerIsByte_inside h5
    refine succeeds_shape h1 k fun g hg bare n _ => ?_
    unfold encShape
    cases hs : Γ.shape id <;> rw [hs] at h2 <;> simp [Shape.elem?] at h2 <;> subst h2 <;> simp only <;>
      rw [if_neg (by simp [h3]), if_pos h4, hk g hg] <;> exact ⟨_, rfl⟩
  | @list id e fo v h1 h2 h3 h4 _ ih =>
    obtain ⟨k, hk⟩ := ih
    refine succeeds_shape h1 k fun g hg bare n hn => ?_
    unfold encShape
    cases hs : Γ.shape id <;> rw [hs] at h2 <;> simp [Shape.elem?] at h2 <;> subst h2 <;> simp only <;>
      rw [if_neg (by simp [h3]), if_neg (by simp [h4])] <;> exact hk g hg bare n hn
  | nilIface h1 h2 =>
    refine succeeds_shape h1 0 fun g _ bare n _ => ?_
    unfold encShape
    rw [h2]
    exact ⟨_, rfl⟩
  | iface h1 h2 h3 h4 h5 h6 h7 _ ih =>
    obtain ⟨k, hk⟩ := ih
    refine succeeds_shape h1 k fun g hg bare n hn => ?_
    obtain ⟨b, hb⟩ := hk g hg true n hn
    unfold encShape
    rw [h2]
    simp only
    unfold encIface
    rw [pointee_eq] at h3
    simp only
    rw [h3]
    simp only
    rw [if_neg (by intro hh; simp at hh; rw [h4 hh.1] at hh; cases hh.2), known_iff.1 h5, Res.bind_ok, h6]
    simp only
    rw [h7]
    simp only
    rw [hb, Res.bind_ok]
    exact framed_total _ _
  | @struct id fs fo vs h1 h2 h3 h4 h5 _ _ ih1 ih2 =>
    have hall : ∀ p ∈ fs.zip vs, ∃ f, ∀ g, f ≤ g → (p.1.visible = true →
        ∀ num, num < 2 ^ 29 → ∃ b, encField Γ c (enc Γ c g) p.1 num p.2 = .ok b) := by
      intro p hp
      by_cases hv : p.1.visible = true
      · cases hd : pointee p.1.ty p.2 with
        | none =>
          refine ⟨0, fun g _ _ num hn => encField_ok hn (h4 p hp hv) (h5 p hp hv) ?_ ?_⟩
          · intro dv hh; rw [hd] at hh; cases hh
          · intro e _ dv hh; rw [hd] at hh; cases hh
        | some dv =>
          by_cases hdf : dflt (Γ.shape p.1.ty.deref) dv = true → p.1.opts.writeEmpty = true
          · cases hrep : repeated Γ p.1 with
            | false =>
              obtain ⟨f, hf⟩ := ih1 p hp hv dv hd hdf hrep
              refine ⟨f, fun g hg _ num hn => encField_ok hn (h4 p hp hv) (h5 p hp hv) ?_ ?_⟩
              · intro dv' hh _ _
                rw [hd] at hh
                cases hh
                exact hf g hg
              · intro e _ dv' _ _ hh
                rw [hrep] at hh
                cases hh
            | true =>
              have hr := hrep
              rw [repeated_eq] at hr
              obtain ⟨id', e, hid, he, _, _⟩ := unpackedList_inv hr
              have he' : (Γ.shape p.1.ty.deref).elem? = some e := by rw [hid]; exact he
              obtain ⟨f, hf⟩ := ih2 p hp hv e he' dv hd hdf hrep
              refine ⟨f, fun g hg _ num hn => encField_ok hn (h4 p hp hv) (h5 p hp hv) ?_ ?_⟩
              · intro dv' _ _ hh
                rw [hrep] at hh
                cases hh
              · intro e' he2 dv' hh _ _
                rw [hd] at hh
                cases hh
                rw [he'] at he2
                cases he2
                exact hf g hg
          · refine ⟨0, fun g _ _ num hn => encField_ok hn (h4 p hp hv) (h5 p hp hv) ?_ ?_⟩
            · intro dv' hh hh2
              rw [hd] at hh
              cases hh
              exact absurd hh2 hdf
            · intro e _ dv' hh hh2
              rw [hd] at hh
              cases hh
              exact absurd hh2 hdf
      · exact ⟨0, fun g _ hh => absurd hh hv⟩
    obtain ⟨f, hf⟩ := exists_fuel hall
    refine succeeds_shape h1 f fun g hg bare n hn => ?_
    obtain ⟨b, hb⟩ := encFields_ok (num := 0) h3 (by have := hN _ _ h2; omega) fun p hp hv => hf g hg p hp hv
    unfold encShape
    rw [h2]
    simp only
    rw [hb, Res.bind_ok]
    exact framed_total _ _
  | noElems h1 =>
    refine ⟨0, fun g _ bare n _ => ?_⟩
    unfold encList
    rw [known_iff.1 h1, Res.bind_ok]
    exact framed_total _ _
  | @packed e fo vs h1 h2 _ ih =>
    obtain ⟨f, hf⟩ := exists_fuel ih
    refine ⟨f, fun g hg bare n hn => ?_⟩
    unfold encList
    rw [known_iff.1 h1, Res.bind_ok]
    simp only
    rw [if_pos (fun hh => by rw [lenKind_eq, isLen_iff.mpr hh] at h2; cases h2)]
    obtain ⟨b, hb⟩ := encPacked_ok (rec := enc Γ c g) (e := e) (fo := { fo with fnum := n }) (vs := vs) fun v hv => by
      obtain ⟨b, hb⟩ := hf g hg v hv false n hn
      refine ⟨b, ?_⟩
      rw [pointee_eq] at hb
      unfold Prog.derefZero
      cases hd : derefVal e v <;> rw [hd] at hb <;> exact hb
    rw [hb, Res.bind_ok]
    exact framed_total _ _
  | @unpacked e fo vs h1 h2 h3 _ ih =>
    obtain ⟨f, hf⟩ := exists_fuel (as := vs) (Q := fun g v => ∀ dv, pointee e v = some dv →
        dflt (Γ.shape e.deref) dv = false → ∀ bare n, n < 2 ^ 29 → ∃ bz, enc Γ c g e.deref dv { fo with fnum := n } bare = .ok bz)
      fun v hv => by
        cases hd : pointee e v with
        | none => exact ⟨0, fun g _ dv hh => by cases hh⟩
        | some dv =>
          cases hdf : dflt (Γ.shape e.deref) dv with
          | true => exact ⟨0, fun g _ dv' hh hh2 => by cases hh; rw [hdf] at hh2; cases hh2⟩
          | false =>
            obtain ⟨f, hf⟩ := ih v hv dv hd hdf
            exact ⟨f, fun g hg dv' hh _ => by cases hh; exact hf g hg⟩
    refine ⟨f, fun g hg bare n hn => ?_⟩
    unfold encList
    rw [known_iff.1 h1, Res.bind_ok]
    simp only
    rw [if_neg (fun hh => hh (isLen_iff.mp (by rw [← lenKind_eq]; exact h2)))]
    obtain ⟨b, hb⟩ := encUnpacked_ok (rec := enc Γ c g) (e := e) (fo := { fo with fnum := n }) (vs := vs) hn h3
      fun v hv dv hd hdf => hf g hg v hv dv hd hdf false 1 (by omega)
    rw [hb, Res.bind_ok]
    exact framed_total _ _

end Amino
