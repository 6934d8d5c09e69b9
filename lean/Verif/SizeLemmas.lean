import Verif.SpecSize
import Verif.ExactDec
import Verif.PropsDec

/-!
# Size of decoded values
-/

namespace Amino
open Spec

set_option linter.unusedSectionVars false

variable {Γ : Prog} {c : Codec} {rec : Ty → Val → FOpts → Bool → Bytes → DRes Val} {rank : TId → Nat} {R B K : Nat}

theorem vsize_pos (v : Val) : 1 ≤ vsize v := by cases v <;> simp [vsize]

theorem vsize_wrapTy (t : Ty) (v : Val) : vsize (wrapTy t v) = depth t + vsize v := by
  induction t with
  | base => simp [wrapTy, depth]
  | ptr t ih => simp only [wrapTy, depth, vsize, ih]; omega

theorem vsize_zeroTy (hB : Bounded Γ B) (t : Ty) : vsize (Γ.zeroTy t) ≤ B := by
  cases t with
  | base id => exact hB.zero id
  | ptr t => have := hB.zero 0; have := vsize_pos (Γ.zero 0); simp only [Prog.zeroTy, vsize]; omega

theorem vsize_default (hB : Bounded Γ B) {t : Ty} (ht : depth t ≤ B) : vsize (Γ.defaultValue t) ≤ B + 1 := by
  unfold Prog.defaultValue
  split
  · rw [vsize_wrapTy]; simp only [vsize]; omega
  · have := vsize_zeroTy hB t; omega

theorem vsize_derefPrior (hB : Bounded Γ B) (t : Ty) (p : Val) :
    vsize (Γ.derefPrior t p) ≤ vsize p + (if t.isPtr then B else 0) := by
  induction t generalizing p with
  | base => simp [Prog.derefPrior, Ty.isPtr]
  | ptr t ih =>
    have hn : vsize (Γ.derefPrior t (Γ.zeroTy t)) ≤ B + 1 := by
      clear ih
      induction t with
      | base id => simp only [Prog.derefPrior, Prog.zeroTy]; have := hB.zero id; omega
      | ptr t ih => simpa only [Prog.derefPrior, Prog.zeroTy] using ih
    have hp := vsize_pos p
    cases p with
    | ptr v =>
      have := ih v
      simp only [Prog.derefPrior, vsize, Ty.isPtr, if_true]
      split at this <;> omega
    | _ => simp only [Prog.derefPrior, Ty.isPtr, if_true]; omega

/-- What the pointers of a type may add. -/
def ptrSize (B : Nat) (t : Ty) : Nat := if t.isPtr then B + depth t else 0

theorem ptrSize_le {t : Ty} (h : depth t ≤ B) : ptrSize B t ≤ 2 * B := by
  unfold ptrSize; split <;> omega

/-- What a type of some rank may take without consuming anything. -/
def excess (B : Nat) : Nat → Nat
  | 0 => B * (B + 1)
  | r + 1 => B * (B + 1 + excess B r) + excess B r + 2 * B

theorem excess_mono {r r' : Nat} (h : r ≤ r') : excess B r ≤ excess B r' := by
  induction r' with
  | zero => cases Nat.le_zero.1 h; exact Nat.le_refl _
  | succ r' ih =>
    rcases Nat.lt_or_eq_of_le h with h | h
    · have := ih (by omega); simp only [excess]; omega
    · rw [h]; exact Nat.le_refl _

/-- What the length prefix or the first byte of a type of some rank pays for. -/
def slack (R B r : Nat) : Nat := (R - r) * (2 * B) + 3 * B

theorem slack_mono (r : Nat) : slack R B r ≤ slack R B 0 := by
  unfold slack
  have : (R - r) * (2 * B) ≤ (R - 0) * (2 * B) := Nat.mul_le_mul_right _ (by omega)
  omega

theorem slack_step {r r' : Nat} (h : r < r') (h' : r' ≤ R) : slack R B r' + 2 * B ≤ slack R B r := by
  unfold slack
  have : (R - r' + 1) * (2 * B) ≤ (R - r) * (2 * B) := Nat.mul_le_mul_right _ (by omega)
  rw [Nat.add_mul] at this
  omega

/-- What a byte pays for. -/
def perByte (R B : Nat) : Nat := excess B R + slack R B 0 + 10 * B + 10

/-- What the recursive calls are assumed to satisfy. -/
structure RecSize (Γ : Prog) (rank : TId → Nat) (R B K : Nat) (rec : Ty → Val → FOpts → Bool → Bytes → DRes Val) : Prop where
  any : ∀ {t p fo bare bz n v}, rec t p fo bare bz = .ok n v →
    vsize v ≤ vsize p + ptrSize B t + excess B (rank t.deref) + K * n
  framed : ∀ {t p fo bz n v}, rec t p fo false bz = .ok n v → 1 ≤ n →
    vsize v + slack R B (rank t.deref) ≤ vsize p + ptrSize B t + K * n
  scalar : ∀ {t p fo bare bz n v}, rec t p fo bare bz = .ok n v → Γ.isLen t.deref = false → Γ.unmarsh t.deref = none → 1 ≤ n

theorem le_mul_pos {K n : Nat} (h : 1 ≤ n) : K ≤ K * n := Nat.le_mul_of_pos_right _ h

theorem vsize_preferNil (e : Ty) (v : Val) : vsize (preferNil Γ e v) ≤ vsize v := by
  unfold preferNil
  have := vsize_pos v
  split
  · simpa [vsize] using this
  · exact Nat.le_refl _

section
variable (hK : perByte R B ≤ K) (hB : Bounded Γ B) (hR : ∀ id, rank id ≤ R) (hf : RecFits rec)
  (h : RecSize Γ rank R B K rec)
include hK hB hR h

include hf in
theorem decPackedSlice_size {e : Ty} (he : depth e ≤ B) {fo : FOpts} {k : Nat} {bz : Bytes} {n m : Nat} {vs : List Val}
    (hd : decPackedSlice Γ rec e fo k bz n = .ok m vs) : vsizes vs + K * n ≤ K * m := by
  induction k generalizing bz n vs with
  | zero =>
    cases bz with
    | nil => simp only [decPackedSlice, DRes.ok.injEq] at hd; obtain ⟨rfl, rfl⟩ := hd; simp [vsizes]
    | cons => simp [decPackedSlice] at hd
  | succ k ih =>
    cases bz with
    | nil => simp only [decPackedSlice, DRes.ok.injEq] at hd; obtain ⟨rfl, rfl⟩ := hd; simp [vsizes]
    | cons b bz =>
      unfold decPackedSlice at hd
      obtain ⟨j, v, hv, hj, hd⟩ := andSlide_inv hd
      obtain ⟨ws, hws, rfl⟩ := map_inv hd
      have hi := ih hws
      have h1 : 1 ≤ j := by
        have := hf e (Γ.zeroTy e) fo false (b :: bz)
        rw [hv] at this
        exact Nat.le_trans (by simp [lo]) this.1
      have h2 := h.framed hv h1
      have := vsize_zeroTy hB e
      have := ptrSize_le he
      have := vsize_preferNil (Γ := Γ) e v
      have hs : 3 * B ≤ slack R B (rank e.deref) := by unfold slack; omega
      rw [Nat.mul_add] at hi
      simp only [vsizes]
      omega

theorem decUnpackedSlice_size {e : Ty} (he : depth e ≤ B) {fo : FOpts} {k : Nat} {bz : Bytes} {n m : Nat} {vs : List Val}
    (hd : decUnpackedSlice Γ rec e fo k bz n = .ok m vs) : vsizes vs + K * n ≤ K * m := by
  induction k generalizing bz n vs with
  | zero =>
    cases bz with
    | nil => simp only [decUnpackedSlice, DRes.ok.injEq] at hd; obtain ⟨rfl, rfl⟩ := hd; simp [vsizes]
    | cons => simp [decUnpackedSlice] at hd
  | succ k ih =>
    cases bz with
    | nil => simp only [decUnpackedSlice, DRes.ok.injEq] at hd; obtain ⟨rfl, rfl⟩ := hd; simp [vsizes]
    | cons b bz =>
      unfold decUnpackedSlice at hd
      cases hk : decodeKey (b :: bz) with
      | panic p => simp [hk] at hd
      | oof => simp [hk] at hd
      | err m e => simp [hk] at hd
      | ok j ft =>
        obtain ⟨fnum, typ⟩ := ft
        simp only [hk] at hd
        have hj := (decodeKey_ok hk).2.2.2.1
        have hKj := le_mul_pos (K := K) hj
        have hz := vsize_zeroTy hB e
        have hp := ptrSize_le he
        have hx := excess_mono (B := B) (hR e.deref)
        have hdf := vsize_default hB he
        unfold perByte at hK
        split at hd
        · cases hd
        split at hd
        · simp only [DRes.ok.injEq] at hd; obtain ⟨rfl, rfl⟩ := hd; simp [vsizes]
        split at hd
        · cases hd
        obtain ⟨_, hd⟩ := slideThen_inv hd
        split at hd
        · obtain ⟨_, hd⟩ := slideThen_inv hd
          obtain ⟨ws, hws, rfl⟩ := map_inv hd
          have hi := ih hws
          rw [Nat.mul_add, Nat.mul_add] at hi
          simp only [vsizes]
          omega
        · obtain ⟨i, v, hv, _, hd⟩ := andSlide_inv hd
          obtain ⟨ws, hws, rfl⟩ := map_inv hd
          have hi := ih hws
          have h2 := h.any hv
          rw [Nat.mul_add, Nat.mul_add] at hi
          simp only [vsizes]
          omega

theorem decPackedArr_size {e : Ty} (he : depth e ≤ B) (hl : Γ.isLen e.deref = false) (hu : Γ.unmarsh e.deref = none)
    {fo : FOpts} {ps : List Val} {bz : Bytes} {n m : Nat} {vs : List Val}
    (hd : decPackedArr Γ rec e fo ps bz n = .ok m vs) : vsizes vs + K * n ≤ vsizes ps + K * m := by
  induction ps generalizing bz n vs with
  | nil =>
    unfold decPackedArr at hd
    split at hd
    · cases hd
    · simp only [DRes.ok.injEq] at hd; obtain ⟨rfl, rfl⟩ := hd; simp [vsizes]
  | cons p ps ih =>
    unfold decPackedArr at hd
    obtain ⟨j, v, hv, hj, hd⟩ := andSlide_inv hd
    obtain ⟨ws, hws, rfl⟩ := map_inv hd
    have hi := ih hws
    have h2 := h.framed hv (h.scalar hv hl hu)
    have := ptrSize_le he
    have := vsize_preferNil (Γ := Γ) e v
    have hs : 3 * B ≤ slack R B (rank e.deref) := by unfold slack; omega
    rw [Nat.mul_add] at hi
    simp only [vsizes]
    omega

theorem decUnpackedArr_size {e : Ty} (he : depth e ≤ B) {fo : FOpts} {ps : List Val} {bz : Bytes} {n m : Nat}
    {vs : List Val} (hd : decUnpackedArr Γ rec e fo ps bz n = .ok m vs) : vsizes vs + K * n ≤ vsizes ps + K * m := by
  induction ps generalizing bz n vs with
  | nil =>
    unfold decUnpackedArr at hd
    split at hd
    · cases hk : decodeKey bz with
      | panic p => simp [hk] at hd
      | oof => simp [hk] at hd
      | err m e => simp [hk] at hd
      | ok j ft =>
        simp only [hk] at hd
        split at hd
        · cases hd
        · simp only [DRes.ok.injEq] at hd; obtain ⟨rfl, rfl⟩ := hd; simp [vsizes]
    · simp only [DRes.ok.injEq] at hd; obtain ⟨rfl, rfl⟩ := hd; simp [vsizes]
  | cons p ps ih =>
    unfold decUnpackedArr at hd
    cases hk : decodeKey bz with
    | panic p => simp [hk] at hd
    | oof => simp [hk] at hd
    | err m e => simp [hk] at hd
    | ok j ft =>
      obtain ⟨fnum, typ⟩ := ft
      simp only [hk] at hd
      have hj := (decodeKey_ok hk).2.2.2.1
      have hKj := le_mul_pos (K := K) hj
      have hp := ptrSize_le he
      have hx := excess_mono (B := B) (hR e.deref)
      have hdf := vsize_default hB he
      unfold perByte at hK
      split at hd
      · cases hd
      split at hd
      · cases hd
      obtain ⟨_, hd⟩ := slideThen_inv hd
      split at hd
      · obtain ⟨_, hd⟩ := slideThen_inv hd
        obtain ⟨ws, hws, rfl⟩ := map_inv hd
        have hi := ih hws
        rw [Nat.mul_add, Nat.mul_add] at hi
        simp only [vsizes]
        omega
      · obtain ⟨i, v, hv, _, hd⟩ := andSlide_inv hd
        obtain ⟨ws, hws, rfl⟩ := map_inv hd
        have hi := ih hws
        have h2 := h.any hv
        rw [Nat.mul_add, Nat.mul_add] at hi
        simp only [vsizes]
        omega

theorem decFields_size {w : Nat} {fs : List Field} (hfs : ∀ f ∈ fs, depth f.ty ≤ B)
    (hw : ∀ f ∈ fs, f.visible = true → Γ.unpackedList f = true → excess B (rank f.ty.deref) ≤ w)
    {ps : List Val} {num last : Nat} {bz : Bytes} {n m : Nat} {vs : List Val}
    (hd : decFields Γ c rec fs ps num last bz n = .ok m vs) :
    vsizes vs + K * n ≤ vsizes ps + fs.length * (B + 1 + w) + K * m := by
  induction fs generalizing ps num last bz n vs with
  | nil =>
    cases ps with
    | nil =>
      unfold decFields at hd
      obtain ⟨_, hc, rfl⟩ := map_inv hd
      have := consumeRest_all hc
      have : K * n ≤ K * m := Nat.mul_le_mul_left _ (by omega)
      simp only [vsizes]
      omega
    | cons => simp [decFields] at hd
  | cons f fs ih =>
    cases ps with
    | nil => simp [decFields] at hd
    | cons p ps =>
      have hi := fun {num last bz n vs} =>
        ih (fun g hg => hfs g (by simp [hg])) (fun g hg => hw g (by simp [hg])) (ps := ps) (num := num) (last := last)
          (bz := bz) (n := n) (vs := vs)
      have hdf := vsize_default hB (hfs f (by simp))
      have hx := excess_mono (B := B) (hR f.ty.deref)
      have hps := ptrSize_le (hfs f (by simp))
      have hp := vsize_pos p
      simp only [List.length_cons, Nat.add_mul, vsizes, Nat.one_mul]
      unfold decFields at hd
      split at hd
      · obtain ⟨ws, hws, rfl⟩ := map_inv hd
        have := hi hws
        simp only [vsizes]
        omega
      rename_i hvis
      obtain ⟨_, hd⟩ := infoThen_inv hd
      split at hd
      · obtain ⟨ws, hws, rfl⟩ := map_inv hd
        have := hi hws
        simp only [vsizes]
        omega
      split at hd
      · rename_i hul
        obtain ⟨j, v, hv, _, hd⟩ := andSlide_inv hd
        obtain ⟨ws, hws, rfl⟩ := map_inv hd
        have := hi hws
        have h2 := h.any hv
        have h3 := hw f (by simp) (by simpa using hvis) hul
        have h4 : ptrSize B f.ty = 0 := by
          unfold Prog.unpackedList at hul
          unfold ptrSize
          cases hft : f.ty with
          | base => simp [Ty.isPtr]
          | ptr => rw [hft] at hul; simp at hul
        rw [Nat.mul_add] at this
        simp only [vsizes]
        omega
      cases hk : decodeKey bz with
      | panic p => simp [hk] at hd
      | oof => simp [hk] at hd
      | err m e => simp [hk] at hd
      | ok j ft =>
        obtain ⟨fnum, typ⟩ := ft
        simp only [hk] at hd
        have hj := (decodeKey_ok hk).2.2.2.1
        have hKj := le_mul_pos (K := K) hj
        split at hd
        · obtain ⟨ws, hws, rfl⟩ := map_inv hd
          have := hi hws
          simp only [vsizes]
          omega
        split at hd
        · cases hd
        obtain ⟨_, hd⟩ := slideThen_inv hd
        split at hd
        · cases hd
        split at hd
        · cases hd
        obtain ⟨i, v, hv, _, hd⟩ := andSlide_inv hd
        obtain ⟨ws, hws, rfl⟩ := map_inv hd
        have := hi hws
        have h2 := h.any hv
        rw [Nat.mul_add, Nat.mul_add] at this
        unfold perByte at hK
        simp only [vsizes]
        omega

theorem ifaceContents_size {id : TId} {ii : IfaceInfo} {fo : FOpts} {bz : Bytes} {n m : Nat} {v : Val}
    (hd : ifaceContents Γ c rec id ii fo bz n = .ok m v) : vsize v + slack R B 0 + K * n ≤ K * m := by
  unfold ifaceContents at hd
  obtain ⟨j, dp, hp, hj, hd⟩ := andSlide_inv hd
  have h4 : 4 ≤ j := by
    have := decodeDisambPrefix_post (Q := fun _ => True) bz
    rw [hp] at this
    exact this.1
  have hKj := le_mul_pos (K := K) (n := j) (by omega)
  split at hd
  · cases hd
  · rename_i ci _
    obtain ⟨j', hj', hd⟩ := concKey_inv hd
    split at hd
    · rename_i i w hw
      split at hd
      · split at hd
        · cases hd
        · split at hd
          · simp only [DRes.ok.injEq] at hd
            obtain ⟨rfl, rfl⟩ := hd
            have h2 := h.any hw
            have hz := hB.zero ci.tid
            have hx := excess_mono (B := B) (hR ci.tid)
            have hdt : depth ci.dynTy ≤ 1 := by unfold ConcInfo.dynTy; split <;> simp [depth]
            have h3 : ptrSize B (.base ci.tid) = 0 := by simp [ptrSize, Ty.isPtr]
            unfold perByte at hK
            simp only [vsize, vsize_wrapTy, Ty.deref, Nat.mul_add] at *
            omega
          · cases hd
      · cases hd
    · split at hd
      · split at hd <;> cases hd
      · cases hd
    · cases hd
    · cases hd

end

theorem unframe_inv {α : Type} {bare : Bool} {bz : Bytes} {k : Bytes → Nat → DRes α} {m : Nat} {v : α}
    (h : unframe bare bz k = .ok m v) :
    ∃ buf n, k buf n = .ok m v ∧ (bare = false → 1 ≤ n) := by
  unfold unframe at h
  cases bare with
  | true => exact ⟨bz, 0, by simpa using h, by simp⟩
  | false =>
    simp only [Bool.false_eq_true, if_false] at h
    cases hb : decodeByteSlice bz with
    | ok j buf =>
      rw [hb] at h
      simp only at h
      split at h
      · exact ⟨buf, _, h, fun _ => (uvarintSize_le hb).2.1⟩
      · cases h
    | err j e => rw [hb] at h; simp only at h; split at h <;> cases h
    | panic q => rw [hb] at h; cases h
    | oof => rw [hb] at h; cases h

theorem safe_pos {α : Type} {r : DRes α} {bz : Bytes} (hs : Safe r bz) {n : Nat} {a : α} (h : r = .ok n a) : 1 ≤ n := by
  have := Post.ofSafe (Q := fun _ => True) hs
  rw [h] at this
  exact this.1

section
variable (hK : perByte R B ≤ K) (hB : Bounded Γ B) (hR : DecRank Γ rank R) (hf : RecFits rec)
  (h : RecSize Γ rank R B K rec)
include hK hB hR hf h

theorem decShape_size {id : TId} {p v : Val} {fo : FOpts} {bare : Bool} {bz : Bytes} {n : Nat}
    (hd : decShape Γ c rec id p fo bare bz = .ok n v) :
    vsize v ≤ vsize p + excess B (rank id) + K * n ∧
    (bare = false → 1 ≤ n → vsize v + slack R B (rank id) ≤ vsize p + K * n) ∧
    (Γ.isLen id = false → 1 ≤ n) := by
  have hp := vsize_pos p
  have hsl := slack_mono (R := R) (B := B) (rank id)
  have hxm := excess_mono (B := B) (hR.bound id)
  have hKu : excess B R + slack R B 0 + 10 * B + 10 ≤ K := hK
  -- scalars
  have scalar : ∀ {n : Nat} {v : Val}, 1 ≤ n → vsize v = 1 →
      vsize v ≤ vsize p + excess B (rank id) + K * n ∧
      (bare = false → 1 ≤ n → vsize v + slack R B (rank id) ≤ vsize p + K * n) ∧
      (Γ.isLen id = false → 1 ≤ n) := by
    intro n v hn hv
    have := le_mul_pos (K := K) hn
    exact ⟨by omega, fun _ _ => by omega, fun _ => hn⟩
  -- byte strings
  have byts : ∀ {n j : Nat} {b : Bytes} {v : Val}, decodeByteSlice bz = .ok n b → vsize v ≤ 1 + b.length →
      Γ.isLen id = true →
      vsize v ≤ vsize p + excess B (rank id) + K * n ∧
      (bare = false → 1 ≤ n → vsize v + slack R B (rank id) ≤ vsize p + K * n) ∧
      (Γ.isLen id = false → 1 ≤ n) := by
    intro n j b v hb hv hl
    obtain ⟨l, h1, h2, h3, h4, -, h5, h7⟩ := decodeByteSlice_ok hb
    have hu := uvarintSize_le hb
    have hKn : K + b.length ≤ K * n := by
      have : K * (1 + b.length) ≤ K * n := Nat.mul_le_mul_left _ (by omega)
      have h6 : b.length ≤ K * b.length := Nat.le_mul_of_pos_left _ (by omega)
      rw [Nat.mul_add] at this
      omega
    exact ⟨by omega, fun _ _ => by omega, by simp [hl]⟩
  -- contents of a frame
  have framed : ∀ {m n0 E : Nat} {v : Val}, (bare = false → 1 ≤ n0) → E ≤ excess B (rank id) →
      vsize v + K * n0 ≤ vsize p + E + K * m → Γ.isLen id = true →
      vsize v ≤ vsize p + excess B (rank id) + K * m ∧
      (bare = false → 1 ≤ m → vsize v + slack R B (rank id) ≤ vsize p + K * m) ∧
      (Γ.isLen id = false → 1 ≤ m) := by
    intro m n0 E v hn0 hE hv hl
    refine ⟨by omega, fun hbare _ => ?_, by simp [hl]⟩
    have := le_mul_pos (K := K) (hn0 hbare)
    omega
  have hlen : ∀ {e : Ty}, ¬ Γ.typ3 e.deref fo ≠ typ3ByteLength ∨ Γ.isLen e.deref = false := by
    intro e
    cases hl : Γ.isLen e.deref with
    | false => exact .inr rfl
    | true => exact .inl (fun hty => hty (isLen_iff.mp hl))
  unfold decShape at hd
  split at hd <;> rename_i hs
  · -- iface
    unfold decIface at hd
    cases p <;> try cases hd
    simp only at hd
    cases hii : c.iface? id with
    | none => rw [hii] at hd; cases hd
    | some ii =>
      rw [hii] at hd
      simp only at hd
      obtain ⟨buf, n0, hk, hn0⟩ := unframe_inv hd
      have := ifaceContents_size hK hB hR.bound h (id := id) (ii := ii) hk
      exact ⟨by omega, fun _ _ => by omega, by simp [Prog.isLen, hs]⟩
  · -- array
    rename_i len e
    have hl : Γ.isLen id = true := by simp [Prog.isLen, hs]
    have he := hB.elem (id := id) (e := e) (by rw [hs]; rfl)
    split at hd
    · unfold decByteArray at hd
      split at hd
      · cases hd
      obtain ⟨j, b, hb, hj, hd⟩ := andSlide_inv hd
      split at hd
      · cases hd
      split at hd
      · simp only [DRes.ok.injEq] at hd
        obtain ⟨rfl, rfl⟩ := hd
        rw [Nat.zero_add]
        exact byts (j := 0) hb (by simp [vsize]) hl
      · cases hd
    · unfold decArray at hd
      obtain ⟨_, hd⟩ := infoThen_inv hd
      obtain ⟨buf, n0, hk, hn0⟩ := unframe_inv hd
      cases p <;> try cases hk
      rename_i ps
      simp only at hk
      obtain ⟨vs, hq, rfl⟩ := map_inv hk
      refine framed (E := 0) hn0 (Nat.zero_le _) ?_ hl
      simp only [vsize]
      split at hq
      · rename_i hty
        have hel : Γ.isLen e.deref = false := by
          rcases hlen (e := e) with h' | h'
          · exact absurd hty h'
          · exact h'
        have := decPackedArr_size hK hB hR.bound h he hel (hB.array hs hel) hq
        omega
      · have := decUnpackedArr_size hK hB hR.bound h he hq
        omega
  · -- slice
    rename_i e
    have hl : Γ.isLen id = true := by simp [Prog.isLen, hs]
    have he := hB.elem (id := id) (e := e) (by rw [hs]; rfl)
    split at hd
    · unfold decByteSlice at hd
      split at hd
      · simp only [DRes.ok.injEq] at hd
        obtain ⟨rfl, rfl⟩ := hd
        exact ⟨by simp only [vsize]; omega, fun _ h1 => absurd h1 (by omega), by simp [hl]⟩
      obtain ⟨j, b, hb, hj, hd⟩ := andSlide_inv hd
      split at hd
      · simp only [DRes.ok.injEq] at hd
        obtain ⟨rfl, rfl⟩ := hd
        rw [Nat.zero_add]
        exact byts (j := 0) hb (by simp [vsize]) hl
      split at hd
      · simp only [DRes.ok.injEq] at hd
        obtain ⟨rfl, rfl⟩ := hd
        rw [Nat.zero_add]
        exact byts (j := 0) hb (by simp [vsize]) hl
      · cases hd
    · unfold decSlice at hd
      obtain ⟨_, hd⟩ := infoThen_inv hd
      obtain ⟨buf, n0, hk, hn0⟩ := unframe_inv hd
      obtain ⟨vs, hq, rfl⟩ := map_inv hk
      have hvs : vsizes vs + K * n0 ≤ K * n := by
        split at hq
        · exact decPackedSlice_size hK hB hR.bound hf h he hq
        · exact decUnpackedSlice_size hK hB hR.bound h he hq
      have hv : vsize (if vs.isEmpty then Val.nil else Val.list vs) ≤ 1 + vsizes vs := by
        split <;> simp [vsize]
      exact framed (E := 0) hn0 (Nat.zero_le _) (by omega) hl
  · -- struct
    rename_i fs
    have hl : Γ.isLen id = true := by simp [Prog.isLen, hs]
    obtain ⟨buf, n0, hk, hn0⟩ := unframe_inv hd
    cases p <;> try cases hk
    rename_i ps
    simp only at hk
    obtain ⟨vs, hq, rfl⟩ := map_inv hk
    have hfl := hB.fields hs
    cases hr : rank id with
    | zero =>
      have := decFields_size hK hB hR.bound h (w := 0) hfl.2
        (fun f hf' hv hul => absurd (hR.field hs f hf' hv hul) (by omega)) hq
      have hm : fs.length * (B + 1 + 0) ≤ B * (B + 1) := Nat.mul_le_mul_right _ hfl.1
      have := framed (E := fs.length * (B + 1 + 0)) (v := .struct vs) (m := n) hn0
        (by rw [hr]; simpa [excess] using hm) (by simp only [vsize]; omega) hl
      rw [hr] at this
      exact this
    | succ r =>
      have := decFields_size hK hB hR.bound h (w := excess B r) hfl.2
        (fun f hf' hv hul => excess_mono (by have := hR.field hs f hf' hv hul; omega)) hq
      have hm : fs.length * (B + 1 + excess B r) ≤ B * (B + 1 + excess B r) := Nat.mul_le_mul_right _ hfl.1
      have := framed (E := fs.length * (B + 1 + excess B r)) (v := .struct vs) (m := n) hn0
        (by rw [hr]; simp only [excess]; omega) (by simp only [vsize]; omega) hl
      rw [hr] at this
      exact this
  · -- time
    have hl : Γ.isLen id = true := by simp [Prog.isLen, hs]
    obtain ⟨buf, n0, hk, hn0⟩ := unframe_inv hd
    obtain ⟨j, t, ht, hj, hk⟩ := andSlide_inv hk
    simp only [DRes.ok.injEq] at hk
    obtain ⟨rfl, rfl⟩ := hk
    exact framed (E := 0) hn0 (Nat.zero_le _) (by simp only [vsize, Nat.mul_add]; omega) hl
  · rename_i k
    obtain ⟨i, hi, rfl⟩ := map_inv hd
    have := decInt_post (Q := fun _ => True) k fo bz
    rw [hi] at this
    exact scalar this.1 (by simp [vsize])
  · obtain ⟨j, b, hb, hj, hd⟩ := andSlide_inv hd
    simp only [DRes.ok.injEq] at hd
    obtain ⟨rfl, rfl⟩ := hd
    exact scalar (by have := safe_pos (decodeBool_safe bz) hb; omega) (by simp [vsize])
  · split at hd
    · cases hd
    obtain ⟨j, b, hb, hj, hd⟩ := andSlide_inv hd
    simp only [DRes.ok.injEq] at hd
    obtain ⟨rfl, rfl⟩ := hd
    exact scalar (by have := safe_pos (decodeUint64_safe bz) hb; omega) (by simp [vsize])
  · split at hd
    · cases hd
    obtain ⟨j, b, hb, hj, hd⟩ := andSlide_inv hd
    simp only [DRes.ok.injEq] at hd
    obtain ⟨rfl, rfl⟩ := hd
    exact scalar (by have := safe_pos (decodeUint32_safe bz) hb; omega) (by simp [vsize])
  · obtain ⟨j, b, hb, hj, hd⟩ := andSlide_inv hd
    simp only [DRes.ok.injEq] at hd
    obtain ⟨rfl, rfl⟩ := hd
    rw [Nat.zero_add]
    exact byts (j := 0) hb (by simp [vsize]) (by simp [Prog.isLen, hs])
  · cases hd

theorem decBody_size : RecSize Γ rank R B K (decBody Γ c rec) := by
  have main : ∀ {t p fo bare bz n v}, decBody Γ c rec t p fo bare bz = .ok n v →
      vsize v ≤ vsize p + ptrSize B t + excess B (rank t.deref) + K * n ∧
      (bare = false → 1 ≤ n → vsize v + slack R B (rank t.deref) ≤ vsize p + ptrSize B t + K * n) ∧
      (Γ.isLen t.deref = false → Γ.unmarsh t.deref = none → 1 ≤ n) := by
    intro t p fo bare bz n v hd
    unfold decBody at hd
    split at hd
    · cases hd
    simp only at hd
    obtain ⟨w, hd', rfl⟩ := map_inv hd
    clear hd
    have hd := hd'
    have hdp := vsize_derefPrior hB t p
    have hpt : depth t + (if t.isPtr then B else 0) = ptrSize B t := by
      unfold ptrSize
      cases t with
      | base => simp [Ty.isPtr, depth]
      | ptr => simp [Ty.isPtr]; omega
    rw [vsize_wrapTy]
    cases hum : Γ.unmarsh t.deref with
    | none =>
      rw [hum] at hd
      simp only at hd
      obtain ⟨h1, h2, h3⟩ := decShape_size hK hB hR hf h hd
      exact ⟨by omega, fun a b => by have := h2 a b; omega, fun a _ => h3 a⟩
    | some ru =>
      obtain ⟨rid, um⟩ := ru
      rw [hum] at hd
      simp only at hd
      obtain ⟨_, hd⟩ := infoThen_inv hd
      obtain ⟨j, r, hr, hj, hd⟩ := andSlide_inv hd
      split at hd <;> try cases hd
      rename_i w' hu
      have hus := hB.user hum hu
      have hz := hB.zero rid
      have hrk := hR.unmarsh hum
      have hb := hR.bound t.deref
      have h3 : ptrSize B (.base rid) = 0 := by simp [ptrSize, Ty.isPtr]
      have ha := h.any hr
      rw [Nat.zero_add]
      refine ⟨?_, fun hbare h1 => ?_, fun _ h => by cases h⟩
      · have : excess B (rank rid) + 2 * B ≤ excess B (rank t.deref) := by
          have := excess_mono (B := B) (show rank rid + 1 ≤ rank t.deref from hrk)
          simp only [excess] at this
          omega
        simp only [Ty.deref] at ha
        omega
      · subst hbare
        have hfr := h.framed hr h1
        have := slack_step (R := R) (B := B) hrk hb
        simp only [Ty.deref] at hfr
        omega
  exact ⟨fun h => (main h).1, fun h h1 => (main h).2.1 rfl h1, fun h => (main h).2.2⟩

end

theorem dec_size (hK : perByte R B ≤ K) (hB : Bounded Γ B) (hR : DecRank Γ rank R) (hu : Γ.UserOk) (f : Nat) :
    RecSize Γ rank R B K (dec Γ c f) := by
  induction f with
  | zero => exact ⟨fun h => by simp [dec] at h, fun h => by simp [dec] at h, fun h => by simp [dec] at h⟩
  | succ f ih =>
    have := decBody_size (c := c) hK hB hR (dec_fits hu f) ih
    exact ⟨fun h => this.any (by simpa only [dec] using h), fun h => this.framed (by simpa only [dec] using h),
      fun h => this.scalar (by simpa only [dec] using h)⟩

end Amino
