import Verif.Leftover
import Verif.ExactDec
import Verif.PropsStale

/-!
# The variable after a call: agreement with the decoder, types
-/

namespace Amino
open Spec

set_option linter.unusedSectionVars false

section
variable {Γ : Prog} {c : Codec} {spoil : TId → Val → Val → Val}
  {rec : Ty → Val → FOpts → Bool → Bytes → DRes Val} {lft : Ty → Val → FOpts → Bool → Bytes → Val}

/-! ## After success the variable holds the result -/

theorem leftPackedArr_ok {e : Ty} {fo : FOpts} : ∀ {ps vs : List Val} {bz : Bytes} {n m : Nat},
    decPackedArr Γ rec e fo ps bz n = .ok m vs → leftPackedArr Γ rec lft e fo ps bz = vs
  | [], vs, bz, n, m, h => by
    unfold decPackedArr at h
    split at h
    · cases h
    · cases h; rfl
  | p :: ps, vs, bz, n, m, h => by
    unfold decPackedArr at h
    obtain ⟨j, v, hr, _, h⟩ := andSlide_inv h
    obtain ⟨ws, hw, rfl⟩ := map_inv h
    unfold leftPackedArr
    simp only [hr, leftPackedArr_ok hw]

theorem leftUnpackedArr_ok {e : Ty} {fo : FOpts} : ∀ {ps vs : List Val} {bz : Bytes} {n m : Nat},
    decUnpackedArr Γ rec e fo ps bz n = .ok m vs → leftUnpackedArr Γ rec lft e fo ps bz = vs
  | [], vs, bz, n, m, h => by
    have : vs = [] := by
      unfold decUnpackedArr at h
      split at h
      · split at h
        case h_4 =>
          split at h
          · cases h
          · cases h; rfl
        all_goals cases h
      · cases h; rfl
    subst this
    rfl
  | p :: ps, vs, bz, n, m, h => by
    unfold decUnpackedArr at h
    split at h
    case h_4 j fnum typ hk =>
      split at h
      · cases h
      rename_i h1
      split at h
      · cases h
      rename_i h2
      obtain ⟨_, h⟩ := slideThen_inv h
      unfold leftUnpackedArr
      simp only [hk, if_neg h1, if_neg h2]
      split at h
      · rename_i h3
        obtain ⟨_, h⟩ := slideThen_inv h
        obtain ⟨ws, hw, rfl⟩ := map_inv h
        rw [if_pos h3, leftUnpackedArr_ok hw]
      · rename_i h3
        obtain ⟨j', v, hr, _, h⟩ := andSlide_inv h
        obtain ⟨ws, hw, rfl⟩ := map_inv h
        rw [if_neg h3]
        simp only [hr, leftUnpackedArr_ok hw]
    all_goals cases h

theorem leftFields_ok : ∀ {fs : List Field} {ps vs : List Val} {num last : Nat} {bz : Bytes} {n m : Nat},
    decFields Γ c rec fs ps num last bz n = .ok m vs → leftFields Γ c rec lft fs ps num last bz = vs
  | [], [], vs, num, last, bz, n, m, h => by
    unfold decFields at h
    obtain ⟨ws, hw, rfl⟩ := map_inv h
    rfl
  | [], p :: ps, vs, num, last, bz, n, m, h => by simp [decFields] at h
  | f :: fs, [], vs, num, last, bz, n, m, h => by simp [decFields] at h
  | f :: fs, p :: ps, vs, num, last, bz, n, m, h => by
    unfold decFields at h
    unfold leftFields
    split at h
    · rename_i hv
      obtain ⟨ws, hw, rfl⟩ := map_inv h
      rw [if_pos hv, leftFields_ok hw]
    rename_i hv
    rw [if_neg hv]
    obtain ⟨hi, h⟩ := infoThen_inv h
    simp only [hi]
    split at h
    · rename_i hb
      obtain ⟨ws, hw, rfl⟩ := map_inv h
      rw [if_pos hb, leftFields_ok hw]
    rename_i hb
    rw [if_neg hb]
    split at h
    · rename_i hu
      obtain ⟨j, v, hr, _, h⟩ := andSlide_inv h
      obtain ⟨ws, hw, rfl⟩ := map_inv h
      rw [if_pos hu]
      simp only [hr, leftFields_ok hw]
    rename_i hu
    rw [if_neg hu]
    split at h
    case h_4 j fnum typ hk =>
      simp only [hk]
      split at h
      · rename_i h1
        obtain ⟨ws, hw, rfl⟩ := map_inv h
        rw [if_pos h1, leftFields_ok hw]
      rename_i h1
      rw [if_neg h1]
      split at h
      · cases h
      rename_i h2
      rw [if_neg h2]
      obtain ⟨_, h⟩ := slideThen_inv h
      split at h
      · cases h
      rename_i h3
      rw [if_neg h3]
      split at h
      · cases h
      rename_i h4
      rw [if_neg h4]
      obtain ⟨j', v, hr, _, h⟩ := andSlide_inv h
      obtain ⟨ws, hw, rfl⟩ := map_inv h
      simp only [hr, leftFields_ok hw]
    all_goals cases h

theorem unframe_left {α : Type} {bare : Bool} {bz : Bytes} {k : Bytes → Nat → DRes α} {m : Nat} {v : α}
    (h : unframe bare bz k = .ok m v) : ∃ b n, k b n = .ok m v ∧ ∀ {β : Type} (p : β) (l : Bytes → β),
      leftFrame bare bz p l = l b := by
  unfold unframe at h
  cases bare with
  | true => exact ⟨_, _, h, fun p l => rfl⟩
  | false =>
    simp only [Bool.false_eq_true, if_false] at h
    split at h
    case h_1 j buf hd =>
      split at h
      · refine ⟨_, _, h, fun p l => ?_⟩
        unfold leftFrame
        simp only [Bool.false_eq_true, if_false, hd]
      · cases h
    case h_2 => split at h <;> cases h
    all_goals cases h

theorem concKey_left {α : Type} {cid : TId} {fo : FOpts} {bz : Bytes} {n m : Nat} {k : Bytes → Nat → DRes α} {v : α}
    (h : concKey Γ cid fo bz n k = .ok m v) : ∃ b n', k b n' = .ok m v ∧ ∀ p l, leftKey Γ cid fo bz p l = l b := by
  unfold concKey at h
  split at h
  · rename_i h0
    split at h
    case h_4 j fnum typ hk =>
      split at h
      · cases h
      rename_i h1
      split at h
      · cases h
      rename_i h2
      obtain ⟨_, h⟩ := slideThen_inv h
      refine ⟨_, _, h, fun p l => ?_⟩
      unfold leftKey
      rw [if_pos h0]
      simp only [hk, if_neg h1, if_neg h2]
    all_goals cases h
  · rename_i h0
    refine ⟨_, _, h, fun p l => ?_⟩
    unfold leftKey
    rw [if_neg h0]

theorem leftIface_ok {id : TId} {prior : Val} {fo : FOpts} {bare : Bool} {bz : Bytes} {m : Nat} {v : Val}
    (h : decIface Γ c rec id prior fo bare bz = .ok m v) : leftIface Γ c rec lft id prior fo bare bz = v := by
  unfold decIface at h
  split at h
  · split at h
    · cases h
    rename_i ii hii
    obtain ⟨b, n, h, hl⟩ := unframe_left h
    unfold leftIface
    simp only [hii]
    rw [hl]
    obtain ⟨j, dp, hd, _, h⟩ := andSlide_inv h
    simp only [hd]
    split at h
    · cases h
    rename_i ci hci
    simp only [hci]
    obtain ⟨b', n', h, hl'⟩ := concKey_left h
    rw [hl']
    split at h
    case h_1 j' w hr =>
      split at h
      case isFalse => cases h
      split at h
      · cases h
      rename_i h1
      split at h
      case isFalse => cases h
      rename_i h2
      cases h
      simp only [hr, if_neg h1, if_pos h2]
    case h_2 =>
      split at h
      · split at h <;> cases h
      · cases h
    all_goals cases h
  · cases h

theorem leftShape_ok {id : TId} {prior : Val} {fo : FOpts} {bare : Bool} {bz : Bytes} {m : Nat} {v : Val}
    (h : decShape Γ c rec id prior fo bare bz = .ok m v) : leftShape Γ c rec lft id prior fo bare bz = v := by
  unfold leftShape
  split
  · rename_i hs
    unfold decShape at h
    simp only [hs] at h
    exact leftIface_ok h
  · rename_i len e hs
    split
    · rw [h]
    · rename_i hb
      unfold decShape at h
      simp only [hs] at h
      rw [if_neg hb] at h
      unfold decArray at h
      obtain ⟨hi, h⟩ := infoThen_inv h
      obtain ⟨b, n, h, hl⟩ := unframe_left h
      unfold leftArray
      simp only [hi]
      rw [hl]
      split at h
      case h_2 => cases h
      obtain ⟨ws, hw, rfl⟩ := map_inv h
      simp only
      split at hw
      · rename_i h1
        rw [if_pos h1, leftPackedArr_ok hw]
      · rename_i h1
        rw [if_neg h1, leftUnpackedArr_ok hw]
  · rename_i fs hs
    unfold decShape at h
    simp only [hs] at h
    obtain ⟨b, n, h, hl⟩ := unframe_left h
    rw [hl]
    split at h
    case h_2 => cases h
    obtain ⟨ws, hw, rfl⟩ := map_inv h
    simp only
    rw [leftFields_ok hw]
  · rw [h]

theorem leftBody_ok {t : Ty} {prior : Val} {fo : FOpts} {bare : Bool} {bz : Bytes} {m : Nat} {v : Val}
    (h : decBody Γ c rec t prior fo bare bz = .ok m v) : leftBody Γ c spoil rec lft t prior fo bare bz = v := by
  unfold decBody at h
  split at h
  · cases h
  rename_i hi
  simp only at h
  obtain ⟨w, hw, rfl⟩ := map_inv h
  unfold leftBody
  rw [if_neg hi]
  congr 1
  split at hw
  · rename_i rid um hu
    obtain ⟨hg, hw⟩ := infoThen_inv hw
    obtain ⟨j, r, hr, _, hw⟩ := andSlide_inv hw
    simp only [hu, hg, hr]
    split at hw
    · rename_i hum; cases hw; simp only [hum]
    all_goals cases hw
  · rename_i hu
    simp only [hu]
    exact leftShape_ok hw

end

theorem left_ok {Γ : Prog} {c : Codec} {spoil : TId → Val → Val → Val} {f : Nat} {t : Ty} {prior : Val} {fo : FOpts} {bare : Bool}
    {bz : Bytes} {m : Nat} {v : Val} (h : dec Γ c f t prior fo bare bz = .ok m v) :
    left Γ c spoil f t prior fo bare bz = v := by
  cases f with
  | zero => cases h
  | succ f => exact leftBody_ok h

/-! ## The variable always holds a value of its type -/

section
variable {Γ : Prog} {c : Codec} {S : TId → Prop} {spoil : TId → Val → Val → Val}
  {rec : Ty → Val → FOpts → Bool → Bytes → DRes Val} {lft : Ty → Val → FOpts → Bool → Bytes → Val}

/-- What a failing `UnmarshalAmino` leaves in its receiver has the receiver's type. -/
def SpoilTy (Γ : Prog) (spoil : TId → Val → Val → Val) : Prop :=
  ∀ {id p} r, HasTy Γ (.base id) p → HasTy Γ (.base id) (spoil id p r)

def LftTyped (Γ : Prog) (S : TId → Prop) (lft : Ty → Val → FOpts → Bool → Bytes → Val) : Prop :=
  ∀ {t p} fo bare bz, OkTy Γ S t → HasTy Γ t p → HasTy Γ t (lft t p fo bare bz)

theorem rec_hasTy (hr : RecTyped Γ S (fun _ => True) rec) {t : Ty} {p : Val} {fo : FOpts} {bare : Bool} {bz : Bytes} {m : Nat}
    {v : Val} (ht : OkTy Γ S t) (hp : HasTy Γ t p) (h : rec t p fo bare bz = .ok m v) : HasTy Γ t v := by
  have := hr t p fo bare bz ht hp
  rw [h] at this
  exact this.2.2

theorem leftPackedArr_typed (hr : RecTyped Γ S (fun _ => True) rec) (hl : LftTyped Γ S lft) {e : Ty} (he : OkTy Γ S e)
    (fo : FOpts) : ∀ (ps : List Val) (bz : Bytes), (∀ p ∈ ps, HasTy Γ e p) →
    (leftPackedArr Γ rec lft e fo ps bz).length = ps.length ∧ ∀ v ∈ leftPackedArr Γ rec lft e fo ps bz, HasTy Γ e v
  | [], bz, h => by simp [leftPackedArr]
  | p :: ps, bz, h => by
    simp only [List.mem_cons, forall_eq_or_imp] at h
    unfold leftPackedArr
    split
    · rename_i m v hv
      have ih := leftPackedArr_typed hr hl he fo ps (bz.drop m) h.2
      simp only [List.length_cons, List.mem_cons, forall_eq_or_imp]
      exact ⟨by rw [ih.1], hasTy_preferNil (rec_hasTy hr he h.1 hv), ih.2⟩
    · simp only [List.length_cons, List.mem_cons, forall_eq_or_imp]
      exact ⟨trivial, hl _ _ _ he h.1, h.2⟩

variable (hT : Γ.Typed)
include hT

theorem leftUnpackedArr_typed (hr : RecTyped Γ S (fun _ => True) rec) (hl : LftTyped Γ S lft) {e : Ty} (he : OkTy Γ S e)
    (fo : FOpts) : ∀ (ps : List Val) (bz : Bytes), (∀ p ∈ ps, HasTy Γ e p) →
    (leftUnpackedArr Γ rec lft e fo ps bz).length = ps.length ∧ ∀ v ∈ leftUnpackedArr Γ rec lft e fo ps bz, HasTy Γ e v
  | [], bz, h => by simp [leftUnpackedArr]
  | p :: ps, bz, h => by
    have h0 := h
    simp only [List.mem_cons, forall_eq_or_imp] at h
    unfold leftUnpackedArr
    split
    case h_2 => exact ⟨rfl, h0⟩
    split
    · exact ⟨rfl, h0⟩
    split
    · exact ⟨rfl, h0⟩
    split
    · rename_i m _ _ _ _ _ _
      have ih := leftUnpackedArr_typed hr hl he fo ps ((bz.drop m).drop 1) h.2
      simp only [List.length_cons, List.mem_cons, forall_eq_or_imp]
      exact ⟨by rw [ih.1], hasTy_default hT.zero _, ih.2⟩
    split
    · rename_i m _ _ _ _ _ _ _ m' v hv
      have ih := leftUnpackedArr_typed hr hl he fo ps ((bz.drop m).drop m') h.2
      simp only [List.length_cons, List.mem_cons, forall_eq_or_imp]
      exact ⟨by rw [ih.1], rec_hasTy hr he h.1 hv, ih.2⟩
    · simp only [List.length_cons, List.mem_cons, forall_eq_or_imp]
      exact ⟨trivial, hl _ _ _ he h.1, h.2⟩

theorem leftFields_typed (hr : RecTyped Γ S (fun _ => True) rec) (hl : LftTyped Γ S lft) : ∀ (fs : List Field) (ps : List Val)
    (num last : Nat) (bz : Bytes), (∀ f ∈ fs, f.visible = true → OkTy Γ S f.ty) → FieldsTy Γ fs ps →
    FieldsTy Γ fs (leftFields Γ c rec lft fs ps num last bz)
  | [], ps, num, last, bz, _, h => by
    unfold leftFields
    exact h
  | f :: fs, [], num, last, bz, _, h => by simp [FieldsTy] at h
  | f :: fs, p :: ps, num, last, bz, hfs, h => by
    have h0 := h
    rw [fieldsTy_cons] at h
    simp only [List.mem_cons, forall_eq_or_imp] at hfs
    have ih := fun num last bz => leftFields_typed hr hl fs ps num last bz hfs.2 h.2
    unfold leftFields
    split
    · exact fieldsTy_cons.mpr ⟨h.1, ih _ _ _⟩
    rename_i hv
    have hf := hfs.1 (by simpa using hv)
    split
    case h_2 => exact h0
    split
    · exact fieldsTy_cons.mpr ⟨hasTy_default hT.zero _, ih _ _ _⟩
    split
    · split
      · rename_i hv
        exact fieldsTy_cons.mpr ⟨rec_hasTy hr hf h.1 hv, ih _ _ _⟩
      · exact fieldsTy_cons.mpr ⟨hl _ _ _ hf h.1, h.2⟩
    split
    case h_2 => exact h0
    split
    · exact fieldsTy_cons.mpr ⟨hasTy_default hT.zero _, ih _ _ _⟩
    split
    · exact h0
    split
    · exact h0
    split
    · exact h0
    split
    · rename_i hv
      exact fieldsTy_cons.mpr ⟨rec_hasTy hr hf h.1 hv, ih _ _ _⟩
    · exact fieldsTy_cons.mpr ⟨hl _ _ _ hf h.1, h.2⟩

theorem leftFrame_typed {α : Type} {P : α → Prop} {bare : Bool} {bz : Bytes} {p : α} {k : Bytes → α} (hp : P p)
    (hk : ∀ b, P (k b)) : P (leftFrame bare bz p k) := by
  unfold leftFrame
  split
  · exact hk _
  · split
    · exact hk _
    · exact hp

theorem leftIface_typed (hS : DecUniv Γ c S) (hr : RecTyped Γ S (fun _ => True) rec) (hl : LftTyped Γ S lft) {id : TId}
    (hs : Γ.shape id = .iface) {prior : Val} (hp : HasTy Γ (.base id) prior) (fo : FOpts) (bare : Bool) (bz : Bytes) :
    HasTy Γ (.base id) (leftIface Γ c rec lft id prior fo bare bz) := by
  unfold leftIface
  split
  case h_2 => exact hp
  split
  · exact .ifaceNil hs
  rename_i ii hii
  refine leftFrame_typed hT (P := HasTy Γ (.base id)) (.ifaceNil hs) fun b => ?_
  split
  case h_2 => exact .ifaceNil hs
  split
  · exact .ifaceNil hs
  rename_i ci hci
  have hci := lookupConc_ok hS hii hci
  have hb : OkTy Γ S (.base ci.tid) := ⟨hci, by simp [Ty.isPtr]⟩
  have hw : ∀ {v}, HasTy Γ (.base ci.tid) v → HasTy Γ ci.dynTy (wrapTy ci.dynTy v) := by
    intro v hv
    unfold ConcInfo.dynTy
    split
    · exact .ptr hv
    · exact hv
  have hk : ∀ b, HasTy Γ (.base id) (match rec (.base ci.tid) (Γ.zero ci.tid) fo true b with
      | .ok m v =>
        if (b.drop m).length > 0 then .nil
        else if Γ.implements ci.dynTy id then .iface ci.dynTy (wrapTy ci.dynTy v) else .nil
      | .err _ _ =>
        if Γ.implements ci.dynTy id then
          .iface ci.dynTy (wrapTy ci.dynTy (lft (.base ci.tid) (Γ.zero ci.tid) fo true b))
        else .nil
      | _ => .nil) := by
    intro b
    split
    · rename_i hv
      split
      · exact .ifaceNil hs
      split
      · rename_i hi
        exact .iface hs hi (hw (rec_hasTy hr hb (hT.zero _) hv))
      · exact .ifaceNil hs
    · split
      · rename_i hi
        exact .iface hs hi (hw (hl _ _ _ hb (hT.zero _)))
      · exact .ifaceNil hs
    · exact .ifaceNil hs
  unfold leftKey
  split
  · split
    · split
      · exact .ifaceNil hs
      split
      · exact .ifaceNil hs
      exact hk _
    · exact .ifaceNil hs
  · exact hk _

theorem leftShape_typed (hS : DecUniv Γ c S) (hr : RecTyped Γ S (fun _ => True) rec) (hl : LftTyped Γ S lft) {id : TId}
    (hid : S id) {prior : Val} (hp : HasTy Γ (.base id) prior) (fo : FOpts) (bare : Bool) (bz : Bytes) :
    HasTy Γ (.base id) (leftShape Γ c rec lft id prior fo bare bz) := by
  have hd : HasTy Γ (.base id) (match decShape Γ c rec id prior fo bare bz with
      | .ok _ v => v
      | _ => prior) := by
    have h := decShape_typed hT hS (Q := fun _ => True) (fun _ _ _ _ _ _ => .inr trivial) hr hid prior hp fo bare bz
    split
    · rename_i hd
      rw [hd] at h
      exact h.2.2
    · exact hp
  unfold leftShape
  split
  · rename_i hs
    exact leftIface_typed hT hS hr hl hs hp _ _ _
  · rename_i len e hs
    split
    · exact hd
    rename_i hb
    have he := hS.array hid hs
    rw [if_neg hb] at he
    unfold leftArray
    split
    case h_2 => exact hp
    refine leftFrame_typed hT (P := HasTy Γ (.base id)) hp fun b => ?_
    cases hp with
    | array hs' hb' hlen hvs =>
      rw [hs] at hs'; cases hs'
      simp only
      split
      · have h := leftPackedArr_typed hr hl he fo _ b hvs
        exact .array hs hb' (by rw [h.1]; exact hlen) h.2
      · have h := leftUnpackedArr_typed hT hr hl he fo _ b hvs
        exact .array hs hb' (by rw [h.1]; exact hlen) h.2
    | arrayBytes hs' hb' => rw [hs] at hs'; cases hs'; exact absurd hb' hb
    | _ => rename_i hs' <;> simp_all
  · rename_i fs hs
    refine leftFrame_typed hT (P := HasTy Γ (.base id)) hp fun b => ?_
    cases hp with
    | struct hs' hlen hvs =>
      rw [hs] at hs'; cases hs'
      simp only
      have h := leftFields_typed (c := c) hT hr hl fs _ 0 0 b (fun f hf => (hS.struct hid hs f hf).2) ⟨hlen, hvs⟩
      exact .struct hs h.1 h.2
    | _ => rename_i hs' <;> simp_all
  · exact hd

theorem leftBody_typed (hS : DecUniv Γ c S) (hsp : SpoilTy Γ spoil) (hr : RecTyped Γ S (fun _ => True) rec)
    (hl : LftTyped Γ S lft) : LftTyped Γ S (leftBody Γ c spoil rec lft) := by
  intro t p fo bare bz ht hp
  have hpr := hasTy_derefPrior hT.zero hp
  unfold leftBody
  rw [if_neg (by rw [ht.2]; simp)]
  refine hasTy_wrap ?_
  split
  · rename_i rid um hum
    split
    case h_2 => exact hpr
    split
    case h_2 => exact hpr
    rename_i r hr'
    split
    · rename_i hv
      exact hT.unmarsh hum hpr (rec_hasTy hr ⟨hS.unmarsh ht.1 hum, by simp [Ty.isPtr]⟩ (hT.zero _) hr') hv
    · exact hsp _ hpr
  · exact leftShape_typed hT hS hr hl ht.1 hpr _ _ _

theorem left_typed (hu : Γ.UserOk) (hS : DecUniv Γ c S) (hsp : SpoilTy Γ spoil) (f : Nat) :
    LftTyped Γ S (left Γ c spoil f) := by
  induction f with
  | zero => intro t p fo bare bz _ hp; exact hp
  | succ f ih =>
    exact leftBody_typed hT hS hsp (dec_typed hT hu hS (fun _ _ _ _ _ _ => .inr trivial) trivial f) ih

end

end Amino
