import Verif.WorkLemmas
import Verif.TypedLemmas

/-!
# Work is at least proportional to the bytes read
-/

namespace Amino
open Spec

set_option linter.unusedSectionVars false

/-- A primitive reader takes at most `N` bytes. -/
def Short {α : Type} (N : Nat) (r : DRes α) : Prop := ∀ n a, r = .ok n a → n ≤ N

theorem short_andSlide {α β : Type} {N M : Nat} {r : DRes α} {bz : Bytes} {n : Nat} {k : α → Bytes → Nat → DRes β}
    (h : Short N r) (hk : ∀ a j, j ≤ N → Short M (k a (bz.drop j) (n + j))) : Short M (r.andSlide bz n k) := by
  intro m v hv
  obtain ⟨j, a, hj, _, hk'⟩ := andSlide_inv hv
  exact hk a j (h j a hj) m v hk'

theorem short_uvarint (bz : Bytes) : Short 10 (decodeUvarint bz) := fun _ _ h => (decodeUvarint_ok h).2.2.1

theorem short_varint (bz : Bytes) : Short 10 (decodeVarint bz) := by
  intro n a h
  have : decodeUvarint bz = .ok n (uvarint bz).1 := by
    unfold decodeVarint at h
    unfold decodeUvarint
    simp only at h ⊢
    split at h
    · cases h
    split at h
    · cases h
    · rename_i h1 h2
      simp only [DRes.ok.injEq] at h
      rw [if_neg h1, if_neg h2, h.1]
  exact short_uvarint bz _ _ this

theorem short_int8 (bz : Bytes) : Short 10 (decodeInt8 bz) := by
  intro n a h
  unfold decodeInt8 at h
  have hs := short_varint bz
  generalize decodeVarint bz = r at *
  cases r with
  | ok m i => simp only at h; split at h <;> cases h; exact hs _ _ rfl
  | _ => cases h

theorem short_int16 (bz : Bytes) : Short 10 (decodeInt16 bz) := by
  intro n a h
  unfold decodeInt16 at h
  have hs := short_varint bz
  generalize decodeVarint bz = r at *
  cases r with
  | ok m i => simp only at h; split at h <;> cases h; exact hs _ _ rfl
  | _ => cases h

theorem short_uint8 (bz : Bytes) : Short 10 (decodeUint8 bz) := by
  intro n a h
  unfold decodeUint8 at h
  have hs := short_uvarint bz
  generalize decodeUvarint bz = r at *
  cases r with
  | ok m i => simp only at h; split at h <;> cases h; exact hs _ _ rfl
  | _ => cases h

theorem short_uint16 (bz : Bytes) : Short 10 (decodeUint16 bz) := by
  intro n a h
  unfold decodeUint16 at h
  have hs := short_uvarint bz
  generalize decodeUvarint bz = r at *
  cases r with
  | ok m i => simp only at h; split at h <;> cases h; exact hs _ _ rfl
  | _ => cases h

theorem short_int64 (bz : Bytes) : Short 10 (decodeInt64 bz) := by
  intro n a h; unfold decodeInt64 at h; split at h <;> cases h; omega

theorem short_int32 (bz : Bytes) : Short 10 (decodeInt32 bz) := by
  intro n a h; unfold decodeInt32 at h; split at h <;> cases h; omega

theorem short_uint64 (bz : Bytes) : Short 10 (decodeUint64 bz) := by
  intro n a h; unfold decodeUint64 at h; split at h <;> cases h; omega

theorem short_uint32 (bz : Bytes) : Short 10 (decodeUint32 bz) := by
  intro n a h; unfold decodeUint32 at h; split at h <;> cases h; omega

theorem short_bool (bz : Bytes) : Short 10 (decodeBool bz) := by
  intro n a h
  unfold decodeBool at h
  split at h
  · cases h
  split at h
  · cases h; omega
  split at h <;> cases h
  omega

theorem short_key (bz : Bytes) : Short 10 (decodeKey bz) := fun _ _ h => (decodeKey_ok h).2.2.2.2.1

theorem short_ok {α : Type} {n N : Nat} {a : α} (h : n ≤ N) : Short N (.ok n a) := by
  intro m b hb; cases hb; exact h

theorem short_err {α : Type} {n N : Nat} {e : Err} : Short N (.err n e : DRes α) := by
  intro m b hb; cases hb

theorem short_ite {α : Type} {N : Nat} {p : Prop} [Decidable p] {a b : DRes α} (h1 : Short N a) (h2 : Short N b) :
    Short N (if p then a else b) := by split <;> assumption

theorem short_int (k : IntKind) (fo : FOpts) (bz : Bytes) : Short 10 (decInt k fo bz) := by
  have ok : ∀ {α : Type} {r : DRes α} (g : α → Int), Short 10 r →
      Short 10 (r.andSlide bz 0 fun i _ n => DRes.ok n (g i)) := by
    intro α r g hr
    exact short_andSlide hr fun a j hj => short_ok (by omega)
  have okIf : ∀ {α : Type} {r : DRes α} (g : α → Int) (p : α → Prop) [∀ a, Decidable (p a)] (e : Err), Short 10 r →
      Short 10 (r.andSlide bz 0 fun i _ n => if p i then DRes.err n e else DRes.ok n (g i)) := by
    intro α r g p _ e hr
    exact short_andSlide hr fun a j hj => short_ite short_err (short_ok (by omega))
  cases k with
  | int64 => exact short_ite (ok _ (short_int64 bz)) (ok _ (short_uvarint bz))
  | int32 => exact short_ite (ok _ (short_int32 bz)) (okIf _ _ _ (short_uvarint bz))
  | int16 => exact ok _ (short_int16 bz)
  | int8 => exact ok _ (short_int8 bz)
  | int => exact okIf _ _ _ (short_uvarint bz)
  | uint64 => exact short_ite (ok _ (short_uint64 bz)) (ok _ (short_uvarint bz))
  | uint32 => exact short_ite (ok _ (short_uint32 bz)) (ok _ (short_uvarint bz))
  | uint16 => exact ok _ (short_uint16 bz)
  | uint8 => exact ok _ (short_uint8 bz)
  | uint => exact ok _ (short_uvarint bz)

theorem short_seconds (bz : Bytes) : Short 20 (decodeSeconds bz) := by
  intro n a h
  unfold decodeSeconds at h
  cases hk : decodeKey bz with
  | ok m ft =>
    obtain ⟨fnum, typ⟩ := ft
    have hm := short_key bz _ _ hk
    simp only [hk] at h
    split at h
    · obtain ⟨_, h⟩ := slideThen_inv h
      obtain ⟨j, u, hj, _, h⟩ := andSlide_inv h
      have := short_uvarint _ _ _ hj
      split at h <;> cases h
      omega
    split at h <;> cases h
    omega
  | _ => simp [hk] at h

theorem short_nanos (bz : Bytes) (n : Nat) : Short (n + 20) (decodeNanos bz n) := by
  intro m a h
  unfold decodeNanos at h
  cases hk : decodeKey bz with
  | ok j ft =>
    obtain ⟨fnum, typ⟩ := ft
    have hm := short_key bz _ _ hk
    simp only [hk] at h
    split at h
    · obtain ⟨_, h⟩ := slideThen_inv h
      obtain ⟨i, u, hj, _, h⟩ := andSlide_inv h
      have := short_uvarint _ _ _ hj
      split at h <;> cases h
      omega
    · cases h; omega
  | _ => simp [hk] at h

theorem short_time (bz : Bytes) : Short 40 (decodeTime bz) := by
  unfold decodeTime
  refine short_andSlide (N := 20) (short_ite (short_seconds bz) (short_ok (by omega))) fun a j hj => ?_
  refine short_ite ?_ (short_ok (by omega))
  intro m v h
  obtain ⟨w, hw, _⟩ := map_inv h
  have := short_nanos _ _ _ _ hw
  omega

/-- The bytes taken by `DecodeByteSlice` are copied, but for the length. -/
theorem copied_of {bz b : Bytes} {n : Nat} (h : decodeByteSlice bz = .ok n b) : n ≤ 10 + copied bz := by
  obtain ⟨l, _, h2, h3, _⟩ := decodeByteSlice_ok h
  unfold copied
  rw [h]
  simp only
  omega

theorem consumeAny_low {typ : Nat} {bz : Bytes} {n : Nat} {u : Unit} (h : consumeAny typ bz = .ok n u) :
    n ≤ 10 + (if typ = typ3ByteLength then copied bz else 0) := by
  have sk : ∀ {α : Type} {r : DRes α} {m : Nat}, skipped r bz = .ok m u → ∃ a, r = .ok m a := by
    intro α r m h
    unfold skipped at h
    cases r with
    | ok j a =>
      simp only at h
      obtain ⟨_, h⟩ := slideThen_inv h
      cases h
      exact ⟨a, by rw [Nat.zero_add]⟩
    | _ => cases h
  unfold consumeAny at h
  split at h
  · obtain ⟨a, ha⟩ := sk h
    have := short_varint _ _ _ ha; omega
  split at h
  · obtain ⟨a, ha⟩ := sk h
    have := short_int64 _ _ _ ha; omega
  split at h
  · rename_i ht
    obtain ⟨a, ha⟩ := sk h
    rw [if_pos ht]
    exact copied_of ha
  split at h
  · obtain ⟨a, ha⟩ := sk h
    have := short_int32 _ _ _ ha; omega
  · cases h

section
variable {Γ : Prog} {c : Codec} {rec : Ty → Val → FOpts → Bool → Bytes → DRes Val}
  {wrk : Ty → Val → FOpts → Bool → Bytes → Nat}

/-- What the recursive calls are assumed to satisfy. -/
def RecLow (Γ : Prog) (rec : Ty → Val → FOpts → Bool → Bytes → DRes Val) (wrk : Ty → Val → FOpts → Bool → Bytes → Nat) : Prop :=
  ∀ t p fo bare bz n v, HasTy Γ t p → rec t p fo bare bz = .ok n v → n ≤ 60 * wrk t p fo bare bz

theorem workRest_low {k last : Nat} {bz : Bytes} {n m : Nat} {u : Unit} (h : consumeRest k last bz n = .ok m u) :
    m ≤ n + 60 * workRest k last bz := by
  induction k generalizing last bz n with
  | zero =>
    cases bz with
    | nil => simp only [consumeRest, DRes.ok.injEq] at h; omega
    | cons => simp [consumeRest] at h
  | succ k ih =>
    cases bz with
    | nil => simp only [consumeRest, DRes.ok.injEq] at h; omega
    | cons b bs =>
      unfold consumeRest at h
      obtain ⟨j, ft, hk, _, h⟩ := andSlide_inv h
      have hj := short_key _ _ _ hk
      split at h
      · cases h
      rename_i hlast
      obtain ⟨i, w, ha, _, h⟩ := andSlide_inv h
      have h1 := consumeAny_low ha
      have h2 := ih h
      unfold workRest
      simp only [hk, if_neg hlast, ha]
      generalize (if ft.2 = typ3ByteLength then copied ((b :: bs).drop j) else 0) = cp at *
      show m ≤ n + 60 * (1 + (cp + workRest k ft.1 (((b :: bs).drop j).drop i)))
      omega

theorem workPackedSlice_low (hz : ∀ id, HasTy Γ (.base id) (Γ.zero id)) (hr : RecLow Γ rec wrk) {e : Ty} {fo : FOpts} {k : Nat} {bz : Bytes} {n m : Nat} {vs : List Val}
    (h : decPackedSlice Γ rec e fo k bz n = .ok m vs) : m ≤ n + 60 * workPackedSlice Γ rec wrk e fo k bz := by
  induction k generalizing bz n vs with
  | zero =>
    cases bz with
    | nil => simp only [decPackedSlice, DRes.ok.injEq] at h; omega
    | cons => simp [decPackedSlice] at h
  | succ k ih =>
    cases bz with
    | nil => simp only [decPackedSlice, DRes.ok.injEq] at h; omega
    | cons b bs =>
      unfold decPackedSlice at h
      obtain ⟨j, v, hv, _, h⟩ := andSlide_inv h
      obtain ⟨ws, hws, _⟩ := map_inv h
      have h1 := hr _ _ _ _ _ _ _ (hasTy_zeroTy hz _) hv
      have h2 := ih hws
      unfold workPackedSlice
      simp only [hv]
      omega

theorem workUnpackedSlice_low (hz : ∀ id, HasTy Γ (.base id) (Γ.zero id)) (hr : RecLow Γ rec wrk) {e : Ty} {fo : FOpts} {k : Nat} {bz : Bytes} {n m : Nat} {vs : List Val}
    (h : decUnpackedSlice Γ rec e fo k bz n = .ok m vs) : m ≤ n + 60 * workUnpackedSlice Γ rec wrk e fo k bz := by
  induction k generalizing bz n vs with
  | zero =>
    cases bz with
    | nil => simp only [decUnpackedSlice, DRes.ok.injEq] at h; omega
    | cons => simp [decUnpackedSlice] at h
  | succ k ih =>
    cases bz with
    | nil => simp only [decUnpackedSlice, DRes.ok.injEq] at h; omega
    | cons b bs =>
      unfold decUnpackedSlice at h
      unfold workUnpackedSlice
      cases hk : decodeKey (b :: bs) with
      | panic p => simp [hk] at h
      | oof => simp [hk] at h
      | err m e => simp [hk] at h
      | ok j ft =>
        obtain ⟨fnum, typ⟩ := ft
        have hj := short_key _ _ _ hk
        simp only [hk] at h ⊢
        split at h
        · cases h
        rename_i h1
        rw [if_neg h1]
        split at h
        · simp only [DRes.ok.injEq] at h; omega
        rename_i h2
        rw [if_neg h2]
        split at h
        · cases h
        rename_i h3
        rw [if_neg h3]
        obtain ⟨_, h⟩ := slideThen_inv h
        split at h
        · rename_i h4
          rw [if_pos h4]
          obtain ⟨_, h⟩ := slideThen_inv h
          obtain ⟨ws, hws, _⟩ := map_inv h
          have := ih hws
          omega
        · rename_i h4
          rw [if_neg h4]
          obtain ⟨i, v, hv, _, h⟩ := andSlide_inv h
          obtain ⟨ws, hws, _⟩ := map_inv h
          have h5 := hr _ _ _ _ _ _ _ (hasTy_zeroTy hz _) hv
          have h6 := ih hws
          simp only [hv]
          omega

theorem workPackedArr_low (hr : RecLow Γ rec wrk) {e : Ty} {fo : FOpts} {ps : List Val} {bz : Bytes} {n m : Nat} {vs : List Val}
    (hps : ∀ p ∈ ps, HasTy Γ e p) (h : decPackedArr Γ rec e fo ps bz n = .ok m vs) : m ≤ n + 60 * workPackedArr rec wrk e fo ps bz := by
  induction ps generalizing bz n vs with
  | nil =>
    unfold decPackedArr at h
    split at h
    · cases h
    · simp only [DRes.ok.injEq] at h; omega
  | cons p ps ih =>
    unfold decPackedArr at h
    obtain ⟨j, v, hv, _, h⟩ := andSlide_inv h
    obtain ⟨ws, hws, _⟩ := map_inv h
    have h1 := hr _ _ _ _ _ _ _ (hps _ (by simp)) hv
    have h2 := ih (fun q hq => hps q (by simp [hq])) hws
    unfold workPackedArr
    simp only [hv]
    omega

theorem workUnpackedArr_low (hr : RecLow Γ rec wrk) {e : Ty} {fo : FOpts} {ps : List Val} {bz : Bytes} {n m : Nat}
    {vs : List Val} (hps : ∀ p ∈ ps, HasTy Γ e p) (h : decUnpackedArr Γ rec e fo ps bz n = .ok m vs) :
    m ≤ n + 60 * workUnpackedArr Γ rec wrk e fo ps bz := by
  induction ps generalizing bz n vs with
  | nil =>
    unfold decUnpackedArr at h
    split at h
    · cases hk : decodeKey bz with
      | ok j ft =>
        simp only [hk] at h
        split at h
        · cases h
        · simp only [DRes.ok.injEq] at h; omega
      | _ => simp [hk] at h
    · simp only [DRes.ok.injEq] at h; omega
  | cons p ps ih =>
    unfold decUnpackedArr at h
    unfold workUnpackedArr
    cases hk : decodeKey bz with
    | panic p => simp [hk] at h
    | oof => simp [hk] at h
    | err m e => simp [hk] at h
    | ok j ft =>
      obtain ⟨fnum, typ⟩ := ft
      have hj := short_key _ _ _ hk
      simp only [hk] at h ⊢
      split at h
      · cases h
      rename_i h1
      rw [if_neg h1]
      split at h
      · cases h
      rename_i h2
      rw [if_neg h2]
      obtain ⟨_, h⟩ := slideThen_inv h
      split at h
      · rename_i h4
        rw [if_pos h4]
        obtain ⟨_, h⟩ := slideThen_inv h
        obtain ⟨ws, hws, _⟩ := map_inv h
        have := ih (fun q hq => hps q (by simp [hq])) hws
        omega
      · rename_i h4
        rw [if_neg h4]
        obtain ⟨i, v, hv, _, h⟩ := andSlide_inv h
        obtain ⟨ws, hws, _⟩ := map_inv h
        have h5 := hr _ _ _ _ _ _ _ (hps _ (by simp)) hv
        have h6 := ih (fun q hq => hps q (by simp [hq])) hws
        simp only [hv]
        omega

theorem workFields_low (hr : RecLow Γ rec wrk) {fs : List Field} {ps : List Val} {num last : Nat} {bz : Bytes} {n m : Nat}
    {vs : List Val} (hps : ∀ q ∈ fs.zip ps, HasTy Γ q.1.ty q.2) (h : decFields Γ c rec fs ps num last bz n = .ok m vs) :
    m ≤ n + 60 * workFields Γ c rec wrk fs ps num last bz := by
  induction fs generalizing ps num last bz n vs with
  | nil =>
    cases ps with
    | nil =>
      unfold decFields at h
      obtain ⟨_, hc, _⟩ := map_inv h
      exact workRest_low hc
    | cons => simp [decFields] at h
  | cons f fs ih =>
    cases ps with
    | nil => simp [decFields] at h
    | cons p ps =>
      unfold decFields at h
      unfold workFields
      split at h
      · rename_i h1
        rw [if_pos h1]
        obtain ⟨ws, hws, _⟩ := map_inv h
        have := ih (fun q hq => hps q (by simp [hq])) hws
        omega
      rename_i h1
      rw [if_neg h1]
      obtain ⟨hi, h⟩ := infoThen_inv h
      simp only [hi]
      split at h
      · rename_i h2
        rw [if_pos h2]
        obtain ⟨ws, hws, _⟩ := map_inv h
        have := ih (fun q hq => hps q (by simp [hq])) hws
        omega
      rename_i h2
      rw [if_neg h2]
      split at h
      · rename_i h3
        rw [if_pos h3]
        obtain ⟨i, v, hv, _, h⟩ := andSlide_inv h
        obtain ⟨ws, hws, _⟩ := map_inv h
        have h5 := hr _ _ _ _ _ _ _ (hps (f, p) (by simp)) hv
        have h6 := ih (fun q hq => hps q (by simp [hq])) hws
        simp only at hv h5
        simp only [hv]
        omega
      rename_i h3
      rw [if_neg h3]
      cases hk : decodeKey bz with
      | panic p => simp [hk] at h
      | oof => simp [hk] at h
      | err m e => simp [hk] at h
      | ok j ft =>
        obtain ⟨fnum, typ⟩ := ft
        have hj := short_key _ _ _ hk
        simp only [hk] at h ⊢
        split at h
        · rename_i h4
          rw [if_pos h4]
          obtain ⟨ws, hws, _⟩ := map_inv h
          have := ih (fun q hq => hps q (by simp [hq])) hws
          omega
        rename_i h4
        rw [if_neg h4]
        split at h
        · cases h
        rename_i h5
        rw [if_neg h5]
        obtain ⟨_, h⟩ := slideThen_inv h
        split at h
        · cases h
        rename_i h6
        rw [if_neg h6]
        split at h
        · cases h
        rename_i h7
        rw [if_neg h7]
        obtain ⟨i, v, hv, _, h⟩ := andSlide_inv h
        obtain ⟨ws, hws, _⟩ := map_inv h
        have h8 := hr _ _ _ _ _ _ _ (hps (f, p) (by simp)) hv
        simp only at h8
        have h9 := ih (fun q hq => hps q (by simp [hq])) hws
        simp only [hv]
        omega

theorem workFrame_low {α : Type} {bare : Bool} {bz : Bytes} {k : Bytes → Nat → DRes α} {w : Bytes → Nat} {m : Nat} {v : α}
    (h : unframe bare bz k = .ok m v)
    (hk : ∀ buf n, n ≤ 10 → k buf n = .ok m v → m ≤ n + 50 + 60 * w buf) : m ≤ 60 + 60 * workFrame bare bz w := by
  unfold unframe at h
  unfold workFrame
  cases bare with
  | true =>
    have := hk bz 0 (by omega) (by simpa using h)
    simp only [if_true]
    omega
  | false =>
    simp only [Bool.false_eq_true, if_false] at h ⊢
    cases hb : decodeByteSlice bz with
    | ok j buf =>
      rw [hb] at h
      simp only at h ⊢
      split at h
      · have hu := (uvarintSize_le hb).2.2.1
        have := hk buf _ hu h
        omega
      · cases h
    | err j e => rw [hb] at h; simp only at h; split at h <;> cases h
    | panic q => rw [hb] at h; cases h
    | oof => rw [hb] at h; cases h

theorem workShape_low (hz : ∀ id, HasTy Γ (.base id) (Γ.zero id)) (hr : RecLow Γ rec wrk) {id : TId}
    {p v : Val} {fo : FOpts} {bare : Bool} {bz : Bytes} {n : Nat}
    (hp : HasTy Γ (.base id) p)
    (h : decShape Γ c rec id p fo bare bz = .ok n v) : n ≤ 60 + 60 * workShape Γ c rec wrk id p fo bare bz := by
  have leaf : ∀ {α : Type} {r : DRes α} {g : α → Val}, Short 10 r →
      (r.andSlide bz 0 fun a _ n => DRes.ok n (g a)) = .ok n v → n ≤ 60 := by
    intro α r g hs he
    obtain ⟨j, a, hj, _, he⟩ := andSlide_inv he
    have := hs _ _ hj
    cases he
    omega
  unfold decShape at h
  unfold workShape
  cases hs : Γ.shape id with
  | iface =>
    rw [hs] at h
    simp only at h ⊢
    unfold decIface at h
    unfold workIface
    cases p <;> try cases h
    simp only at h ⊢
    cases hi : c.iface? id with
    | none => rw [hi] at h; cases h
    | some ii =>
      rw [hi] at h
      refine workFrame_low h fun buf n0 hn0 h => ?_
      obtain ⟨j, dp, hd, _, h⟩ := andSlide_inv h
      have hj : j ≤ 8 := by
        unfold decodeDisambPrefix at hd
        split at hd
        · cases hd
        split at hd
        · split at hd <;> cases hd; omega
        · cases hd; omega
      simp only [hd]
      cases hl : lookupConc c ii dp with
      | error e => rw [hl] at h; cases h
      | ok ci =>
        rw [hl] at h
        simp only at h ⊢
        have last : ∀ (bz' : Bytes) n', ((match rec (.base ci.tid) (Γ.zero ci.tid) fo true bz' with
            | .ok m v =>
              if m ≤ bz'.length then
                if (bz'.drop m).length > 0 then .err (n' + m) .leftover
                else if Γ.implements ci.dynTy id then .ok (n' + m) (Val.iface ci.dynTy (wrapTy ci.dynTy v))
                else .panic .notAssignable
              else .panic .slide
            | .err m e =>
              if m ≤ bz'.length then
                if Γ.implements ci.dynTy id then .err (n' + m) e else .panic .notAssignable
              else .panic .slide
            | .panic p => .panic p
            | .oof => DRes.oof) : DRes Val) = .ok n v →
            n ≤ n' + 60 * wrk (.base ci.tid) (Γ.zero ci.tid) fo true bz' := by
          intro bz' n' h
          cases hv : rec (.base ci.tid) (Γ.zero ci.tid) fo true bz' with
          | ok m w =>
            have := hr _ _ _ _ _ _ _ (hz _) hv
            rw [hv] at h
            simp only at h
            split at h
            · split at h
              · cases h
              split at h
              · cases h; omega
              · cases h
            · cases h
          | err m e =>
            rw [hv] at h
            simp only at h
            split at h
            · split at h <;> cases h
            · cases h
          | panic q => rw [hv] at h; cases h
          | oof => rw [hv] at h; cases h
        unfold concKey at h
        unfold workKey
        split at h
        · rename_i hc
          rw [if_pos hc]
          cases hk : decodeKey (buf.drop j) with
          | ok i ft =>
            obtain ⟨fnum, typ⟩ := ft
            have hi' := short_key _ _ _ hk
            simp only [hk] at h ⊢
            split at h
            · cases h
            rename_i h1
            rw [if_neg h1]
            split at h
            · cases h
            rename_i h2
            rw [if_neg h2]
            obtain ⟨_, h⟩ := slideThen_inv h
            have := last _ _ h
            omega
          | _ => simp [hk] at h
        · rename_i hc
          rw [if_neg hc]
          have := last _ _ h
          dsimp only
          omega
  | array len e =>
    rw [hs] at h
    simp only at h ⊢
    split at h
    · rename_i hb
      rw [if_pos hb]
      unfold decByteArray at h
      split at h
      · cases h
      rename_i hl
      rw [if_neg hl]
      obtain ⟨j, b, hd, _, h⟩ := andSlide_inv h
      have := copied_of hd
      split at h
      · cases h
      split at h <;> cases h
      omega
    · rename_i hb
      rw [if_neg hb]
      unfold decArray at h
      unfold workArray
      obtain ⟨hi, h⟩ := infoThen_inv h
      simp only [hi]
      refine workFrame_low h fun buf n0 hn0 h => ?_
      cases p with
      | list ps =>
        simp only at h ⊢
        obtain ⟨hlen, hps⟩ : ps.length = len ∧ ∀ p ∈ ps, HasTy Γ e p := by
          cases hp with
          | slice hs' => rw [hs] at hs'; cases hs'
          | array hs' _ h1 h2 => rw [hs] at hs'; cases hs'; exact ⟨h1, h2⟩
        rw [if_pos hlen]
        obtain ⟨vs, hq, _⟩ := map_inv h
        split at hq
        · rename_i ht
          rw [if_pos ht]
          have := workPackedArr_low hr hps hq
          omega
        · rename_i ht
          rw [if_neg ht]
          have := workUnpackedArr_low hr hps hq
          omega
      | _ => cases h
  | slice e =>
    rw [hs] at h
    simp only at h ⊢
    split at h
    · rename_i hb
      rw [if_pos hb]
      unfold decByteSlice at h
      split at h
      · cases h; omega
      rename_i hl
      rw [if_neg hl]
      obtain ⟨j, b, hd, _, h⟩ := andSlide_inv h
      have := copied_of hd
      split at h
      · cases h; omega
      split at h <;> cases h
      omega
    · rename_i hb
      rw [if_neg hb]
      unfold decSlice at h
      unfold workSlice
      obtain ⟨hi, h⟩ := infoThen_inv h
      simp only [hi]
      refine workFrame_low h fun buf n0 hn0 h => ?_
      obtain ⟨vs, hq, _⟩ := map_inv h
      split at hq
      · rename_i ht
        rw [if_pos ht]
        have := workPackedSlice_low hz hr hq
        omega
      · rename_i ht
        rw [if_neg ht]
        have := workUnpackedSlice_low hz hr hq
        omega
  | struct fs =>
    rw [hs] at h
    refine workFrame_low h fun buf n0 hn0 h => ?_
    cases p with
    | struct ps =>
      obtain ⟨vs, hq, _⟩ := map_inv h
      have hps : ∀ q ∈ fs.zip ps, HasTy Γ q.1.ty q.2 := by
        cases hp with
        | struct hs' _ h1 => rw [hs] at hs'; cases hs'; exact h1
      have := workFields_low hr hps hq
      simp only
      omega
    | _ => cases h
  | time =>
    rw [hs] at h
    refine workFrame_low h fun buf n0 hn0 h => ?_
    obtain ⟨j, t, ht, _, h⟩ := andSlide_inv h
    have := short_time _ _ _ ht
    cases h
    omega
  | int k =>
    rw [hs] at h
    obtain ⟨i, hi, _⟩ := map_inv h
    have := short_int _ _ _ _ _ hi
    omega
  | bool => rw [hs] at h; have := leaf (short_bool bz) h; omega
  | float64 =>
    rw [hs] at h
    simp only at h
    split at h
    · cases h
    · have := leaf (short_uint64 bz) h; omega
  | float32 =>
    rw [hs] at h
    simp only at h
    split at h
    · cases h
    · have := leaf (short_uint32 bz) h; omega
  | string =>
    rw [hs] at h
    obtain ⟨j, b, hd, _, h⟩ := andSlide_inv h
    have := copied_of hd
    cases h
    simp only
    omega
  | map e => rw [hs] at h; cases h

theorem workBody_low (hz : ∀ id, HasTy Γ (.base id) (Γ.zero id)) (hr : RecLow Γ rec wrk) :
    RecLow Γ (decBody Γ c rec) (workBody Γ c rec wrk) := by
  intro t p fo bare bz n v hp h
  unfold decBody at h
  unfold workBody
  split at h
  · cases h
  rename_i h1
  rw [if_neg h1]
  simp only at h
  obtain ⟨w, h, _⟩ := map_inv h
  cases hum : Γ.unmarsh t.deref with
  | none =>
    rw [hum] at h
    have := workShape_low hz hr (hasTy_derefPrior hz hp) h
    simp only
    omega
  | some ru =>
    obtain ⟨rid, um⟩ := ru
    rw [hum] at h
    simp only at h ⊢
    obtain ⟨hi, h⟩ := infoThen_inv h
    simp only [hi]
    obtain ⟨j, r, hv, _, h⟩ := andSlide_inv h
    have := hr _ _ _ _ _ _ _ (hz rid) hv
    split at h <;> cases h
    omega

end

/-- A call that succeeds does at least one step for every 60 bytes it takes. -/
theorem work_low {Γ : Prog} {c : Codec} (hz : ∀ id, HasTy Γ (.base id) (Γ.zero id)) (f : Nat) :
    RecLow Γ (dec Γ c f) (work Γ c f) := by
  induction f with
  | zero => intro t p fo bare bz n v _ h; cases h
  | succ f ih => exact workBody_low hz ih

end Amino
