import Verif.SpecProto
import Verif.WireLemmas

/-!
# Encodings are protobuf serializations
-/

namespace Amino
open Spec

theorem body_any (l : Bytes) (x : PV) : (PV.any l x).body = l ++ x.bare := by
  cases x <;> simp [PV.body, PV.bare, PV.payload, PV.wt]

theorem pmsg_append (m m' : PMsg) : (m.append m').bytes = m.bytes ++ m'.bytes := by
  cases m with
  | nil => simp [PMsg.append, PMsg.bytes]
  | field n v r =>
    have := pmsg_append r m'
    simp [PMsg.append, PMsg.bytes, this]

theorem pmsg_field (n : Nat) (x : PV) (m : PMsg) : (PMsg.field n x m).bytes = varint (8 * n + x.wt) ++ x.payload ++ m.bytes := by
  simp [PMsg.bytes, PV.payload]

theorem pvs_cons (x : PV) (xs : PVs) : (PVs.cons x xs).bytes = x.payload ++ xs.bytes := by
  simp [PVs.bytes, PV.payload]

theorem bare_scalar {x : PV} (h : x.wt ≠ 2) : x.bare = x.payload := by
  cases x <;> simp_all [PV.bare, PV.payload, PV.wt]

theorem spec_le_length (k n : Nat) : (le k n).length = k := by
  induction k generalizing n with
  | zero => rfl
  | succ k ih => simp [le, ih]

theorem pvPayload_ne (x : PV) : x.payload ≠ [] := by
  intro h
  have h' := congrArg List.length h
  have hv := varint_length_pos
  cases x with
  | varint n => simp only [PV.payload, PV.wt, PV.body, List.length_append, List.length_nil] at h'; have := hv n; omega
  | fixed64 n | fixed32 n => simp [PV.payload, PV.wt, PV.body, spec_le_length] at h'
  | _ => simp only [PV.payload, PV.wt, if_true, List.length_append, List.length_nil] at h'; exact absurd h' (by have := hv; grind)

theorem framedZero {p : Bytes} : varint p.length ++ p = [0] ↔ p = [] := by
  constructor
  · intro h
    have h' := congrArg List.length h
    have := varint_length_pos p.length
    simp only [List.length_append, List.length_cons, List.length_nil] at h'
    exact List.length_eq_zero_iff.mp (by omega)
  · rintro rfl; unfold varint; rfl

/-- Only empty values are written as a lone zero byte. -/
theorem pvPayload_zero {x : PV} (h : ∀ l y, x = .any l y → l ≠ []) : x.payload = [0] ↔ x.empty := by
  cases x with
  | varint n => simp [PV.payload, PV.wt, PV.body, PV.empty, varint_eq_zero]
  | fixed64 n =>
    simp only [PV.payload, PV.wt, PV.body, PV.empty, iff_false]
    intro h'; have := congrArg List.length h'; simp [spec_le_length] at this
  | fixed32 n =>
    simp only [PV.payload, PV.wt, PV.body, PV.empty, iff_false]
    intro h'; have := congrArg List.length h'; simp [spec_le_length] at this
  | bytes b => simp only [PV.payload, PV.wt, PV.body, PV.empty, if_true, framedZero]
  | msg m =>
    simp only [PV.payload, PV.wt, PV.body, PV.empty, if_true, framedZero]
    cases m with
    | nil => simp [PMsg.bytes]
    | field n v r => rw [pmsg_field]; simp [pvPayload_ne]
  | packed vs =>
    simp only [PV.payload, PV.wt, PV.body, PV.empty, if_true, framedZero]
    cases vs with
    | nil => simp [PVs.bytes]
    | cons v r => rw [pvs_cons]; simp [pvPayload_ne]
  | any l y =>
    simp only [PV.payload, PV.wt, PV.empty, if_true, framedZero, body_any]
    simp [h l y rfl]

theorem twos64_eq {i : Int} (h1 : -(2 ^ 63) ≤ i) (h2 : i < 2 ^ 64) : (u64OfInt i).toNat = twos64 i := by
  rw [u64OfInt_toNat]
  unfold twos64
  split <;> omega

theorem le_mod (k n : Nat) : le k (n % 256 ^ k) = le k n := by
  induction k generalizing n with
  | zero => rfl
  | succ k ih =>
    unfold le
    rw [← ih (n / 256)]
    congr 1
    · rw [Nat.pow_succ, Nat.mod_mul_left_mod]
    · congr 1
      rw [Nat.pow_succ', Nat.mod_mul_right_div_self]

/-- The message of a time. -/
theorem encodeTime_msg {s ns : Int} {b : Bytes} (h1 : -(2 ^ 63) ≤ s) (h2 : s < 2 ^ 63) (h3 : 0 ≤ ns) (h4 : ns < 1000000000)
    (h : encodeTime s ns = .ok b) : b = (timestamp s ns).bytes := by
  have hr := encodeTime_ok_range h h3
  rw [encodeTime_eq s ns ⟨hr.1, hr.2.1⟩ ⟨h3, hr.2.2⟩] at h
  simp only [Res.ok.injEq] at h
  rw [← h, twos64_eq h1 (by omega), twos64_eq (i := ns) (by omega) (by omega)]
  have hn : twos64 ns = ns.toNat := by unfold twos64; rw [if_neg (by omega)]
  have k1 : varint (8 * 1 + 0) = [8] := by unfold varint; rfl
  have k2 : varint (8 * 2 + 0) = [16] := by unfold varint; rfl
  unfold timestamp
  by_cases hs : s = 0 <;> by_cases hns : ns = 0 <;>
    simp only [hs, hns, if_true, if_false, ne_eq, not_true, not_false_eq_true, PMsg.bytes, pmsg_field, PV.payload, PV.wt, PV.body, k1, k2, hn,
      List.nil_append, List.append_nil, List.cons_append] <;> rfl

section
variable {Γ : Prog} {c : Codec} {S : TId → FOpts → Prop}

theorem encInt_means {k : IntKind} {fo : FOpts} {i : Int} {b : Bytes} (hr : k.inRange i)
    (h : encInt k fo i = .ok b) {id : TId} (hm : Γ.marsh id = none) (hs : Γ.shape id = .int k) :
    ∃ x, Means Γ c id fo (.int i) x ∧ x.wt = wireType Γ id fo ∧ b = x.payload ∧ x.bare = x.payload ∧ ∀ l y, x ≠ .any l y := by
  have hz : ∀ {b}, (k = .int8 ∨ k = .int16) → -(2 ^ 63) ≤ i → i < 2 ^ 63 → encodeVarint i = .ok b →
      ∃ x, Means Γ c id fo (.int i) x ∧ x.wt = 0 ∧ b = x.payload ∧ x.bare = x.payload ∧ ∀ l y, x ≠ .any l y := by
    intro b hk h1 h2 h
    rw [encodeVarint_eq i h1 h2] at h
    simp only [Res.ok.injEq] at h
    exact ⟨_, .sint hm hs hk, rfl, by simp [PV.payload, PV.wt, PV.body, h], by simp [PV.bare, PV.payload, PV.wt], by simp⟩
  have hu : ∀ {b}, k ≠ .int8 → k ≠ .int16 → ¬ (k ∈ [IntKind.int64, .uint64] ∧ fo.fixed64 = true) →
      ¬ (k ∈ [IntKind.int32, .uint32] ∧ fo.fixed32 = true) → -(2 ^ 63) ≤ i → i < 2 ^ 64 → encodeUvarint (u64OfInt i) = .ok b →
      ∃ x, Means Γ c id fo (.int i) x ∧ x.wt = 0 ∧ b = x.payload ∧ x.bare = x.payload ∧ ∀ l y, x ≠ .any l y := by
    intro b k1 k2 k3 k4 h1 h2 h
    rw [encodeUvarint_eq, twos64_eq h1 h2] at h
    simp only [Res.ok.injEq] at h
    exact ⟨_, .int hm hs k1 k2 k3 k4, rfl, by simp [PV.payload, PV.wt, PV.body, h], by simp [PV.bare, PV.payload, PV.wt], by simp⟩
  have h8 : ∀ {b}, k ∈ [IntKind.int64, .uint64] → fo.fixed64 = true → -(2 ^ 63) ≤ i → i < 2 ^ 64 → putLE 8 (u64OfInt i) = b →
      ∃ x, Means Γ c id fo (.int i) x ∧ x.wt = 1 ∧ b = x.payload ∧ x.bare = x.payload ∧ ∀ l y, x ≠ .any l y := by
    intro b k1 k2 h1 h2 h
    rw [putLE_eq, twos64_eq h1 h2] at h
    exact ⟨_, .fixed64 hm hs k1 k2, rfl, by simp [PV.payload, PV.wt, PV.body, h], by simp [PV.bare, PV.payload, PV.wt], by simp⟩
  have h4 : ∀ {b}, k ∈ [IntKind.int32, .uint32] → fo.fixed32 = true → -(2 ^ 63) ≤ i → i < 2 ^ 64 → putLE 4 (u64OfInt i) = b →
      ∃ x, Means Γ c id fo (.int i) x ∧ x.wt = 5 ∧ b = x.payload ∧ x.bare = x.payload ∧ ∀ l y, x ≠ .any l y := by
    intro b k1 k2 h1 h2 h
    rw [putLE_eq, twos64_eq h1 h2, ← le_mod] at h
    exact ⟨_, .fixed32 hm hs k1 k2, rfl, by simp [PV.payload, PV.wt, PV.body, ← h], by simp [PV.bare, PV.payload, PV.wt], by simp⟩
  unfold wireType
  cases k <;> simp only [hs, IntKind.inRange, IntKind.signed, IntKind.bits, if_true, if_false, Bool.false_eq_true] at hr h ⊢ <;>
    unfold encInt at h
  · exact hz (by simp) (by omega) (by omega) h
  · exact hz (by simp) (by omega) (by omega) h
  · cases hf : fo.fixed32 <;> simp only [hf, if_true, if_false, Bool.false_eq_true] at h ⊢
    · exact hu (by simp) (by simp) (by simp) (by simp [hf]) (by omega) (by omega) h
    · simp [encodeInt32] at h; exact h4 (by simp) hf (by omega) (by omega) h
  · cases hf : fo.fixed64 <;> simp only [hf, if_true, if_false, Bool.false_eq_true] at h ⊢
    · exact hu (by simp) (by simp) (by simp [hf]) (by simp) (by omega) (by omega) h
    · simp [encodeInt64] at h; exact h8 (by simp) hf (by omega) (by omega) h
  · exact hu (by simp) (by simp) (by simp) (by simp) (by omega) (by omega) h
  · exact hu (by simp) (by simp) (by simp) (by simp) (by omega) (by omega) h
  · exact hu (by simp) (by simp) (by simp) (by simp) (by omega) (by omega) h
  · cases hf : fo.fixed32 <;> simp only [hf, if_true, if_false, Bool.false_eq_true] at h ⊢
    · exact hu (by simp) (by simp) (by simp) (by simp [hf]) (by omega) (by omega) h
    · simp [encodeUint32] at h; exact h4 (by simp) hf (by omega) (by omega) h
  · cases hf : fo.fixed64 <;> simp only [hf, if_true, if_false, Bool.false_eq_true] at h ⊢
    · exact hu (by simp) (by simp) (by simp [hf]) (by simp) (by omega) (by omega) h
    · simp [encodeUint64] at h; exact h8 (by simp) hf (by omega) (by omega) h
  · exact hu (by simp) (by simp) (by simp) (by simp) (by omega) (by omega) h

/-- The claim for one recursive call: the bytes are those of a protobuf value the Go value stands for. -/
def RecMeans (Γ : Prog) (c : Codec) (S : TId → FOpts → Prop) (rec : TId → Val → FOpts → Bool → Res Bytes) : Prop :=
  ∀ {id v fo bare b}, S id fo → HasTy Γ (.base id) v → rec id v fo bare = .ok b → b.length < 2 ^ 63 →
    ∃ x, Means Γ c id fo v x ∧ x.wt = wireType Γ id fo ∧ b = (if bare then x.bare else x.payload) ∧
      ∀ l y, x = .any l y → l ≠ []

variable {rec : TId → Val → FOpts → Bool → Res Bytes}

theorem encPacked_means (hr : RecMeans Γ c S rec) (hz : ∀ id, HasTy Γ (.base id) (Γ.zero id)) {e : Ty} {fo : FOpts}
    {vs : List Val} {b : Bytes} (hS : S e.deref fo) (ht : ∀ v ∈ vs, HasTy Γ e v) (h : encPacked Γ rec e fo vs = .ok b)
    (hl : b.length < 2 ^ 63) : ∃ xs, MeansPacked Γ c e fo vs xs ∧ b = xs.bytes := by
  induction vs generalizing b with
  | nil => simp [encPacked] at h; subst h; exact ⟨.nil, .nil, by simp [PVs.bytes]⟩
  | cons v vs ih =>
    unfold encPacked at h
    obtain ⟨b1, hb1, h⟩ := Res.bind_eq_ok h
    obtain ⟨b2, hb2, h⟩ := Res.bind_eq_ok h
    simp only [Res.ok.injEq] at h
    subst h
    simp only [List.length_append] at hl
    obtain ⟨xs, h1, h2⟩ := ih (fun v hv => ht v (by simp [hv])) hb2 (by omega)
    obtain ⟨x, g1, g2, g3, _⟩ := hr hS (hasTy_derefZero hz (ht v (by simp))) hb1 (by omega)
    refine ⟨.cons x xs, .cons ?_ h1, by rw [pvs_cons, h2, g3]; simp⟩
    rw [pointee_eq]
    unfold Prog.derefZero at g1
    split at g1 <;> rename_i hd <;> rw [hd] <;> exact g1

theorem encUnpacked_means (hr : RecMeans Γ c S rec) {e : Ty} {fo : FOpts}
    {vs : List Val} {b : Bytes} (hok : ElemOk Γ S e fo) (hlk : lenKind Γ e.deref = true)
    (ht : ∀ v ∈ vs, HasTy Γ e v) (h : encUnpacked Γ rec e fo vs = .ok b)
    (hl : b.length < 2 ^ 63) : ∃ m, MeansElems Γ c e fo vs m ∧ b = m.bytes := by
  induction vs generalizing b with
  | nil => simp [encUnpacked] at h; subst h; exact ⟨.nil, .nil, by simp [PMsg.bytes]⟩
  | cons v vs ih =>
    unfold encUnpacked at h
    obtain ⟨k, hk, h⟩ := Res.bind_eq_ok h
    obtain ⟨b1, hb1, h⟩ := Res.bind_eq_ok h
    obtain ⟨b2, hb2, h⟩ := Res.bind_eq_ok h
    simp only [Res.ok.injEq] at h
    subst h
    simp only [List.length_append] at hl
    obtain ⟨rfl, hn⟩ := encodeKey_ok hk (by decide)
    obtain ⟨m, h1, h2⟩ := ih (fun v hv => ht v (by simp [hv])) hb2 (by omega)
    have h0 : encodeUint8 0 = .ok b1 → b1 = (PV.bytes []).payload := by
      intro h
      simp [encodeUint8, encodeUvarint_eq] at h
      simp [PV.payload, PV.wt, PV.body, ← h]
    have hempty : (∀ dv, pointee e v = some dv → dflt (Γ.shape e.deref) dv = true) → encodeUint8 0 = .ok b1 →
        ∃ m, MeansElems Γ c e fo (v :: vs) m ∧ varint (8 * fo.fnum + typ3ByteLength) ++ b1 ++ b2 = m.bytes := by
      intro hh h
      exact ⟨_, .empty hh h1, by rw [pmsg_field, h0 h, h2]; rfl⟩
    unfold encElem at hb1
    split at hb1
    · rename_i hd
      split at hb1
      · simp at hb1
      · exact hempty (by rw [pointee_eq, hd]; simp) hb1
    · rename_i dv hd
      split at hb1
      · rename_i hdf
        split at hb1
        · simp at hb1
        · exact hempty (by rw [pointee_eq, hd]; intro dv' h'; cases h'; rw [dflt_eq]; exact hdf) hb1
      · rename_i hdf
        have hS := hok.2
        rw [if_pos hlk] at hS
        obtain ⟨x, g1, g2, g3, _⟩ := hr hS (hasTy_derefVal (ht v (by simp)) hd) hb1 (by omega)
        rw [wireType_eq, isLen_iff.mp (by rwa [lenKind_eq] at hlk)] at g2
        exact ⟨_, .cons (by rw [pointee_eq, hd]) (by rw [dflt_eq]; simpa using hdf) g1 h1, by rw [pmsg_field, g3, g2, h2]; simp⟩

theorem framed_means {bare : Bool} {p b : Bytes} {x : PV} (h : framed bare p = .ok b) (hl : b.length < 2 ^ 63)
    (hx : x.wt = 2) (hb : x.bare = x.body) (hp : p = x.body) : b = (if bare then x.bare else x.payload) := by
  obtain ⟨rfl, _⟩ := framed_ok h hl
  cases bare <;> simp [PV.payload, hx, hb, hp]

theorem encList_means (hr : RecMeans Γ c S rec) (hz : ∀ id, HasTy Γ (.base id) (Γ.zero id)) {id : TId} {e : Ty} {fo : FOpts}
    {v : Val} {bare : Bool} {b : Bytes} (hm : Γ.marsh id = none) (he : (Γ.shape id).elem? = some e)
    (hbk : Γ.isByteKind e = false) (hok : ElemOk Γ S e fo) (ht : HasTy Γ (.base id) v)
    (h : encList Γ c rec e v fo bare = .ok b) (hl : b.length < 2 ^ 63) :
    ∃ x, Means Γ c id fo v x ∧ x.wt = 2 ∧ b = (if bare then x.bare else x.payload) ∧ ∀ l y, x = .any l y → l ≠ [] := by
  unfold encList at h
  obtain ⟨_, _, h⟩ := Res.bind_eq_ok h
  split at h
  · have hs : Γ.shape id = .slice e := by
      cases ht with
      | sliceNil hs => rw [hs] at he; simp [Shape.elem?] at he; rw [hs, he]
      | mapNil hs => rw [hs] at he; simp [Shape.elem?] at he
      | ifaceNil hs => rw [hs] at he; simp [Shape.elem?] at he
    exact ⟨_, .nilList hm hs hbk, rfl, framed_means h hl rfl rfl (by simp [PV.body, PVs.bytes]), by simp⟩
  · rename_i vs _
    obtain ⟨buf, hb, h⟩ := Res.bind_eq_ok h
    have hlen : buf.length < 2 ^ 63 := (framed_ok h hl).2
    have helt : ∀ v ∈ vs, HasTy Γ e v := by
      cases ht with
      | slice hs' _ h3 => rw [hs'] at he; simp [Shape.elem?] at he; subst he; exact h3
      | array hs' _ _ h3 => rw [hs'] at he; simp [Shape.elem?] at he; subst he; exact h3
    cases hlk : lenKind Γ e.deref with
    | true =>
      rw [if_neg (by simpa using isLen_iff.mp (by rwa [lenKind_eq] at hlk))] at hb
      obtain ⟨m, h1, h2⟩ := encUnpacked_means hr hok hlk helt hb hlen
      exact ⟨_, .list hm he hlk h1, rfl, framed_means h hl rfl rfl (by simp [PV.body, h2]), by simp⟩
    | false =>
      have hne : Γ.typ3 e.deref fo ≠ typ3ByteLength := by
        intro hh; rw [← isLen_iff, ← lenKind_eq, hlk] at hh; cases hh
      rw [if_pos hne] at hb
      have hS := hok.2
      rw [if_neg (by simp [hlk])] at hS
      obtain ⟨xs, h1, h2⟩ := encPacked_means hr hz hS helt hb hlen
      exact ⟨_, .packed hm he hlk h1, rfl, framed_means h hl rfl rfl (by simp [PV.body, h2]), by simp⟩
  · simp at h

theorem encList_bare {e : Ty} {fo : FOpts} {v : Val} {b : Bytes} (hlk : lenKind Γ e.deref = true)
    (h : encList Γ c rec e v fo true = .ok b) :
    (v = .nil ∧ b = []) ∨ ∃ vs, v = .list vs ∧ encUnpacked Γ rec e fo vs = .ok b := by
  unfold encList at h
  obtain ⟨_, _, h⟩ := Res.bind_eq_ok h
  cases v with
  | nil => simp [framed] at h; exact .inl ⟨rfl, h⟩
  | list vs =>
    obtain ⟨buf, hb, h⟩ := Res.bind_eq_ok h
    simp [framed] at h
    subst h
    rw [if_neg (by simpa using isLen_iff.mp (by rwa [lenKind_eq] at hlk))] at hb
    exact .inr ⟨vs, rfl, hb⟩
  | _ => simp at h

/-- The fields of a struct. -/
theorem encFields_means (hr : RecMeans Γ c S rec) {fs : List Field} {num : Nat}
    {vs : List Val} {b : Bytes} (hf : FieldsOk Γ S num fs) (ht : FieldsTy Γ fs vs)
    (h : encFields Γ c rec num fs vs = .ok b) (hl : b.length < 2 ^ 63) :
    ∃ m, MeansFields Γ c num fs vs m ∧ b = m.bytes := by
  induction fs generalizing num vs b with
  | nil =>
    cases vs with
    | nil => simp [encFields] at h; subst h; exact ⟨.nil, .nil, by simp [PMsg.bytes]⟩
    | cons => simp [encFields] at h
  | cons fld fs ih =>
    cases vs with
    | nil => simp [encFields] at h
    | cons v vs =>
      have ht' := fieldsTy_cons.mp ht
      unfold encFields at h
      unfold FieldsOk at hf
      cases hv : fld.visible with
      | false =>
        rw [hv] at h hf
        simp at h hf
        obtain ⟨m, h1, h2⟩ := ih hf ht'.2 h hl
        exact ⟨m, .hidden hv h1, h2⟩
      | true =>
        rw [hv] at h hf
        simp only [Bool.not_true, Bool.false_eq_true, if_false, if_true] at h hf
        obtain ⟨b1, hb1, h⟩ := Res.bind_eq_ok h
        obtain ⟨b2, hb2, h⟩ := Res.bind_eq_ok h
        simp only [Res.ok.injEq] at h
        subst h
        rw [List.length_append] at hl
        obtain ⟨m, h1, h2⟩ := ih hf.2 ht'.2 hb2 (by omega)
        have hf := hf.1
        have ht := ht'.1
        unfold encField at hb1
        obtain ⟨_, _, hb1⟩ := Res.bind_eq_ok hb1
        split at hb1
        · rename_i hd
          split at hb1 <;> simp at hb1
          subst hb1
          exact ⟨m, .absent hv (by rw [pointee_eq, hd]) h1, by simpa using h2⟩
        · rename_i dv hd
          have htd := hasTy_derefVal ht hd
          split at hb1
          · rename_i hdf
            simp at hb1
            subst hb1
            simp only [Bool.and_eq_true, Bool.not_eq_true'] at hdf
            exact ⟨m, .dflt hv hdf.2 (by rw [pointee_eq, hd]) (by rw [dflt_eq]; exact hdf.1) h1, by simpa using h2⟩
          · rename_i hdf
            have hdf' : dflt (Γ.shape fld.ty.deref) dv = true → fld.opts.writeEmpty = true := by
              rw [dflt_eq]
              intro hh
              simpa [hh] using hdf
            split at hb1
            · rename_i hu
              obtain ⟨id, e, hid, he, hbk, hlk⟩ := unpackedList_inv hu
              have hel' : (Γ.shape fld.ty.deref).elem? = some e := by rw [hid]; exact he
              rw [hel'] at hb1
              simp only at hb1
              have hrep : repeated Γ fld = true := by rw [repeated_eq]; exact hu
              have hok := (hf.rep hrep).2.2 e hel'
              have hdv : dv = v := by rw [hid] at hd; simpa [derefVal] using hd.symm
              have hb1 := encList_bare hlk hb1
              rw [hdv] at hb1 htd
              rcases hb1 with ⟨rfl, rfl⟩ | ⟨us, rfl, hb⟩
              · exact ⟨m, .repNil hv hrep h1, by simpa using h2⟩
              · have helt : ∀ v ∈ us, HasTy Γ e v := by
                  rw [hid] at htd
                  simp only [Ty.deref] at htd
                  cases htd with
                  | slice hs' _ h3 => rw [hs'] at he; simp [Shape.elem?] at he; subst he; exact h3
                  | array hs' _ _ h3 => rw [hs'] at he; simp [Shape.elem?] at he; subst he; exact h3
                obtain ⟨xs, g1, g2⟩ := encUnpacked_means hr hok hlk helt hb (by omega)
                exact ⟨_, .rep hv hrep hel' g1 h1, by rw [pmsg_append, g2, h2]⟩
            · rename_i hu
              unfold writeField at hb1
              obtain ⟨k, hk, hb1⟩ := Res.bind_eq_ok hb1
              obtain ⟨b3, hb3, hb1⟩ := Res.bind_eq_ok hb1
              obtain ⟨rfl, hn⟩ := encodeKey_ok hk (typ3_lt _ _ _)
              have hrep : repeated Γ fld = false := by rw [repeated_eq]; simpa using hu
              have hS := (hf.single hrep).1
              split at hb1
              · rename_i hw
                simp at hb1; subst hb1
                simp only [Bool.and_eq_true, Bool.not_eq_true', Bool.or_eq_false_iff, beq_iff_eq] at hw
                obtain ⟨⟨hwe, hpt⟩, rfl⟩ := hw
                obtain ⟨x, g1, g2, g3, g4⟩ := hr hS htd hb3 (by decide)
                simp only [Bool.false_eq_true, if_false] at g3
                have hdv : dv = v := by
                  cases hty : fld.ty with
                  | base => rw [hty] at hd; simpa [derefVal] using hd.symm
                  | ptr => rw [hty] at hpt; cases hpt
                subst hdv
                exact ⟨m, .empty hv hwe hpt hrep g1 ((pvPayload_zero g4).mp g3.symm) h1, by simpa using h2⟩
              · rename_i hw
                simp only [Res.ok.injEq] at hb1
                subst hb1
                rw [List.length_append] at hl
                obtain ⟨x, g1, g2, g3, g4⟩ := hr hS htd hb3 (by omega)
                simp only [Bool.false_eq_true, if_false] at g3
                refine ⟨_, .present hv (by rw [pointee_eq, hd]) hdf' hrep g1 ?_ h1, ?_⟩
                · intro hx
                  rw [← pvPayload_zero g4, ← g3] at hx
                  simp [hx] at hw
                  cases hwe : fld.opts.writeEmpty <;> simp_all
                · rw [pmsg_field, g2, ← wireType_eq, g3, h2]

theorem enc_means (hU : Universe Γ c S) (hT : Γ.Typed) (hM : SameWire Γ S) (f : Nat) : RecMeans Γ c S (enc Γ c f) := by
  induction f with
  | zero => intro id v fo bare b _ _ h; simp [enc] at h
  | succ f ih =>
    intro id v fo bare b hS ht h hl
    unfold enc encBody at h
    cases hm : Γ.marsh id with
    | some rm =>
      obtain ⟨rid, m⟩ := rm
      rw [hm] at h
      simp only at h
      obtain ⟨r, hr, h⟩ := Res.bind_eq_ok h
      obtain ⟨_, _, h⟩ := Res.bind_eq_ok h
      obtain ⟨_, hSr, _, _, _⟩ := hU.marsh hS hm
      obtain ⟨x, h1, h2, h3, h4⟩ := ih hSr (hT.marsh hm ht hr) h hl
      exact ⟨x, .rep hm hr h1, by rw [h2, hM hS hm], h3, h4⟩
    | none =>
      rw [hm] at h
      simp only at h
      have hbytes : ∀ {p b : Bytes}, encodeByteSlice p = .ok b → b.length < 2 ^ 63 →
          b = (if bare then (PV.bytes p).bare else (PV.bytes p).payload) := by
        intro p b h hl
        obtain ⟨rfl, _⟩ := encodeByteSlice_ok h hl
        cases bare <;> simp [PV.bare, PV.payload, PV.wt, PV.body]
      unfold encShape at h
      split at h
      · rename_i hs
        have hw : wireType Γ id fo = 2 := by unfold wireType; rw [hs]
        rw [hw]
        unfold encIface at h
        split at h
        · simp at h; subst h
          refine ⟨_, .nilIface hm hs, rfl, ?_, by simp⟩
          have : varint 0 = [0] := by unfold varint; rfl
          cases bare <;> simp [PV.bare, PV.payload, PV.wt, PV.body, this]
        · rename_i t cv
          split at h
          · simp at h
          rename_i crv hd
          split at h
          · simp at h
          obtain ⟨_, _, h⟩ := Res.bind_eq_ok h
          split at h
          · simp at h
          rename_i ci hci
          split at h
          · simp at h
          rename_i ii hii
          obtain ⟨b1, hb1, h⟩ := Res.bind_eq_ok h
          have hlen := (framed_ok h hl).2
          simp only [List.length_append] at hlen
          cases ht with
          | iface hs' himp htv =>
            obtain ⟨hin, hall⟩ := hU.iface hS hs hii
            have hok := hall ci (hin t ci himp hci)
            have htid := conc_mem hci
            obtain ⟨x, h1, h2, h3, h4⟩ := ih (by rw [← htid]; exact hok.type) (hasTy_derefVal htv hd) hb1 (by omega)
            refine ⟨_, .iface hm hs (by rw [pointee_eq, hd]) hci hii h1, rfl, framed_means h hl rfl rfl ?_, ?_⟩
            · rw [body_any, h3]
              simp [nameBytes, IfaceInfo.withPrefix]
            · intro l y he
              cases he
              intro hh
              have := hok.prefixLen
              unfold nameBytes at hh
              simp only [List.append_eq_nil_iff] at hh
              rw [hh.2] at this
              cases this
        · simp at h
      · rename_i e hs
        have hw : wireType Γ id fo = 2 := by unfold wireType; rw [hs]
        rw [hw]
        have hlo := hU.slice hS hs hm
        unfold ListOk at hlo
        split at h
        · rename_i hb
          split at h
          · exact ⟨_, .bytesNil hm hs hb, rfl, hbytes h hl, by simp⟩
          · exact ⟨_, .bytes hm (by rw [hs]; rfl) hb, rfl, hbytes h hl, by simp⟩
          · simp at h
        · rename_i hb
          rw [if_neg hb] at hlo
          rw [if_neg (by simp [hlo.1])] at h
          exact encList_means ih hT.zero hm (by rw [hs]; rfl) (by simpa using hb) hlo.2 ht h hl
      · rename_i n e hs
        have hw : wireType Γ id fo = 2 := by unfold wireType; rw [hs]
        rw [hw]
        have hlo := hU.array hS hs hm
        unfold ListOk at hlo
        split at h
        · rename_i hb
          split at h
          · exact ⟨_, .bytes hm (by rw [hs]; rfl) hb, rfl, hbytes h hl, by simp⟩
          · simp at h
        · rename_i hb
          rw [if_neg hb] at hlo
          rw [if_neg (by simp [hlo.1])] at h
          exact encList_means ih hT.zero hm (by rw [hs]; rfl) (by simpa using hb) hlo.2 ht h hl
      · rename_i fs hs
        have hw : wireType Γ id fo = 2 := by unfold wireType; rw [hs]
        rw [hw]
        split at h
        · obtain ⟨p, hp, h⟩ := Res.bind_eq_ok h
          cases ht with
          | struct hs' h1 h2 =>
            rw [hs] at hs'; cases hs'
            obtain ⟨m, g1, g2⟩ := encFields_means ih (hU.struct hS hs hm) ⟨h1, h2⟩ hp (framed_ok h hl).2
            exact ⟨_, .struct hm hs g1, rfl, framed_means h hl rfl rfl (by simp [PV.body, g2]), by simp⟩
        · simp at h
      · rename_i hs
        have hw : wireType Γ id fo = 2 := by unfold wireType; rw [hs]
        rw [hw]
        split at h
        · obtain ⟨p, hp, h⟩ := Res.bind_eq_ok h
          cases ht with
          | time hs' h1 h2 h3 h4 =>
            exact ⟨_, .time hm hs, rfl, framed_means h hl rfl rfl (by simp [PV.body, encodeTime_msg h1 h2 h3 h4 hp]), by simp⟩
        · simp at h
      · rename_i k hs
        split at h
        · cases ht with
          | int hs' hr =>
            rw [hs] at hs'; cases hs'
            obtain ⟨x, h1, h2, h3, h4, h5⟩ := encInt_means (c := c) hr h hm hs
            exact ⟨x, h1, h2, by cases bare <;> simp [h3, h4], fun l y he => absurd he (h5 l y)⟩
        · simp at h
      · rename_i hs
        have hw : wireType Γ id fo = 0 := by unfold wireType; rw [hs]
        rw [hw]
        split at h
        · refine ⟨_, .bool hm hs, rfl, ?_, by simp⟩
          rename_i bb
          cases bb <;> simp only [encodeBool, Bool.false_eq_true, if_false, if_true, encodeUint8, encodeUvarint_eq, Res.ok.injEq] at h <;>
            cases bare <;> simp [PV.bare, PV.payload, PV.wt, PV.body, ← h]
        · simp at h
      · rename_i hs
        have hw : wireType Γ id fo = 1 := by unfold wireType; rw [hs]
        rw [hw]
        split at h
        · simp at h
        split at h
        · simp [encodeUint64, putLE_eq] at h
          exact ⟨_, .double hm hs, rfl, by cases bare <;> simp [PV.bare, PV.payload, PV.wt, PV.body, ← h], by simp⟩
        · simp at h
      · rename_i hs
        have hw : wireType Γ id fo = 5 := by unfold wireType; rw [hs]
        rw [hw]
        split at h
        · simp at h
        split at h
        · simp [encodeUint32, putLE_eq] at h
          exact ⟨_, .float hm hs, rfl, by cases bare <;> simp [PV.bare, PV.payload, PV.wt, PV.body, ← h], by simp⟩
        · simp at h
      · rename_i hs
        have hw : wireType Γ id fo = 2 := by unfold wireType; rw [hs]
        rw [hw]
        split at h
        · exact ⟨_, .string hm hs, rfl, hbytes h hl, by simp⟩
        · simp at h
      · simp at h

end

end Amino
