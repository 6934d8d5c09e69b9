import Verif.SpecOrder
import Verif.WireLemmas

/-!
# How much the decoder consumes
-/

namespace Amino
open Spec

theorem andSlide_inv {α β : Type} {r : DRes α} {bz : Bytes} {n m : Nat} {k : α → Bytes → Nat → DRes β} {v : β}
    (h : r.andSlide bz n k = .ok m v) :
    ∃ j a, r = .ok j a ∧ j ≤ bz.length ∧ k a (bz.drop j) (n + j) = .ok m v := by
  unfold DRes.andSlide at h
  cases r with
  | ok j a =>
    simp only at h
    split at h
    · rename_i hj; exact ⟨j, a, rfl, hj, h⟩
    · cases h
  | err j e => simp only at h; split at h <;> cases h
  | panic p => cases h
  | oof => cases h

theorem map_inv {α β : Type} {r : DRes α} {f : α → β} {m : Nat} {v : β} (h : r.map f = .ok m v) :
    ∃ a, r = .ok m a ∧ v = f a := by
  cases r <;> simp only [DRes.map_ok, DRes.map_err, DRes.map_panic, DRes.map_oof, DRes.ok.injEq, reduceCtorEq] at h
  exact ⟨_, by rw [h.1], h.2.symm⟩

theorem slideThen_inv {β : Type} {j : Nat} {bz : Bytes} {n m : Nat} {k : Bytes → Nat → DRes β} {v : β}
    (h : slideThen j bz n k = .ok m v) : j ≤ bz.length ∧ k (bz.drop j) (n + j) = .ok m v := by
  unfold slideThen at h
  split at h
  · rename_i hj; exact ⟨hj, h⟩
  · cases h

theorem infoThen_inv {α : Type} {Γ : Prog} {c : Codec} {id : TId} {n m : Nat} {k : DRes α} {v : α}
    (h : infoThen Γ c id n k = .ok m v) : getInfo Γ c id = .ok () ∧ k = .ok m v := by
  unfold infoThen at h
  split at h <;> first | exact ⟨‹_›, h⟩ | cases h

/-- The length prefix as written, with anything behind the contents. -/
theorem unframe_varint {α : Type} {body rest : Bytes} (hl : body.length < 2 ^ 63) (k : Bytes → Nat → DRes α) :
    unframe false (varint body.length ++ body ++ rest) k = k body (varint body.length).length := by
  unfold unframe
  simp only [Bool.false_eq_true, if_false]
  rw [List.append_assoc, decodeByteSlice_varint _ _ hl]
  simp only
  rw [if_pos (by simp only [List.length_append]; omega), uvarintSize_eq]
  have : (UInt64.ofNat body.length).toNat = body.length := by simp; omega
  rw [this]

theorem consumeRest_all {k last n m : Nat} {bz : Bytes} (h : consumeRest k last bz n = .ok m ()) : m = n + bz.length := by
  induction k generalizing last n bz with
  | zero =>
    cases bz with
    | nil => simp [consumeRest] at h; simp [h]
    | cons b bz => simp [consumeRest] at h
  | succ k ih =>
    cases bz with
    | nil => simp [consumeRest] at h; simp [h]
    | cons b bz =>
      unfold consumeRest at h
      obtain ⟨j, ft, _, hj, h⟩ := andSlide_inv h
      split at h
      · cases h
      · obtain ⟨j', _, _, hj', h⟩ := andSlide_inv h
        have := ih h
        rw [List.length_drop] at this hj'
        rw [List.length_drop] at this
        omega

section
variable {Γ : Prog} {c : Codec} {rec : Ty → Val → FOpts → Bool → Bytes → DRes Val}

theorem decFields_all {fs : List Field} {ps vs : List Val} {num last n m : Nat} {bz : Bytes}
    (h : decFields Γ c rec fs ps num last bz n = .ok m vs) : m = n + bz.length := by
  induction fs generalizing ps vs num last n bz with
  | nil =>
    cases ps with
    | nil =>
      unfold decFields at h
      obtain ⟨a, h, _⟩ := map_inv h
      exact consumeRest_all h
    | cons => simp [decFields] at h
  | cons f fs ih =>
    cases ps with
    | nil => simp [decFields] at h
    | cons p ps =>
      cases hv : f.visible with
      | false =>
        simp only [decFields, hv, Bool.not_false, if_true] at h
        obtain ⟨a, h, _⟩ := map_inv h
        exact ih h
      | true =>
        simp only [decFields, hv, Bool.not_true, Bool.false_eq_true, if_false] at h
        obtain ⟨_, h⟩ := infoThen_inv h
        split at h
        · obtain ⟨a, h, _⟩ := map_inv h
          exact ih h
        split at h
        · obtain ⟨j, a, _, hj, h⟩ := andSlide_inv h
          obtain ⟨a, h, _⟩ := map_inv h
          have := ih h
          rw [List.length_drop] at this
          omega
        split at h
        · cases h
        · cases h
        · cases h
        split at h
        · obtain ⟨a, h, _⟩ := map_inv h
          exact ih h
        split at h
        · cases h
        obtain ⟨hj, h⟩ := slideThen_inv h
        split at h
        · cases h
        split at h
        · cases h
        · obtain ⟨j', a, _, hj', h⟩ := andSlide_inv h
          obtain ⟨a, h, _⟩ := map_inv h
          have := ih h
          rw [List.length_drop] at this hj'
          rw [List.length_drop] at this
          omega

theorem decPackedSlice_all {e : Ty} {fo : FOpts} {k n m : Nat} {bz : Bytes} {vs : List Val}
    (h : decPackedSlice Γ rec e fo k bz n = .ok m vs) : m = n + bz.length := by
  induction k generalizing n bz vs with
  | zero =>
    cases bz with
    | nil => simp [decPackedSlice] at h; simp [h]
    | cons b bz => simp [decPackedSlice] at h
  | succ k ih =>
    cases bz with
    | nil => simp [decPackedSlice] at h; simp [h]
    | cons b bz =>
      unfold decPackedSlice at h
      obtain ⟨j, a, _, hj, h⟩ := andSlide_inv h
      obtain ⟨a, h, _⟩ := map_inv h
      have := ih h
      rw [List.length_drop] at this
      omega

theorem decPackedArr_all {e : Ty} {fo : FOpts} {n m : Nat} {bz : Bytes} {ps vs : List Val}
    (h : decPackedArr Γ rec e fo ps bz n = .ok m vs) : m = n + bz.length := by
  induction ps generalizing n bz vs with
  | nil =>
    unfold decPackedArr at h
    split at h
    · cases h
    · simp at h; omega
  | cons p ps ih =>
    unfold decPackedArr at h
    obtain ⟨j, a, _, hj, h⟩ := andSlide_inv h
    obtain ⟨a, h, _⟩ := map_inv h
    have := ih h
    rw [List.length_drop] at this
    omega

theorem concKey_inv {α : Type} {cid : TId} {fo : FOpts} {bz : Bytes} {n m : Nat} {k : Bytes → Nat → DRes α} {v : α}
    (h : concKey Γ cid fo bz n k = .ok m v) :
    ∃ j, j ≤ bz.length ∧ k (bz.drop j) (n + j) = .ok m v := by
  unfold concKey at h
  split at h
  · split at h
    · cases h
    · cases h
    · cases h
    · split at h
      · cases h
      split at h
      · cases h
      obtain ⟨hj, h⟩ := slideThen_inv h
      exact ⟨_, hj, h⟩
  · exact ⟨0, by omega, h⟩

/-- What an interface decoder does with its contents. -/
def ifaceContents (Γ : Prog) (c : Codec) (rec : Ty → Val → FOpts → Bool → Bytes → DRes Val) (id : TId) (ii : IfaceInfo)
    (fo : FOpts) (bz : Bytes) (n : Nat) : DRes Val :=
  (decodeDisambPrefix bz).andSlide bz n fun dp bz n =>
  match lookupConc c ii dp with
  | .error e => .err n e
  | .ok ci =>
    concKey Γ ci.tid fo bz n fun bz n =>
    match rec (.base ci.tid) (Γ.zero ci.tid) fo true bz with
    | .ok m v =>
      if m ≤ bz.length then
        if (bz.drop m).length > 0 then .err (n + m) .leftover
        else if Γ.implements ci.dynTy id then .ok (n + m) (.iface ci.dynTy (wrapTy ci.dynTy v))
        else .panic .notAssignable
      else .panic .slide
    | .err m e =>
      if m ≤ bz.length then
        if Γ.implements ci.dynTy id then .err (n + m) e else .panic .notAssignable
      else .panic .slide
    | .panic p => .panic p
    | .oof => .oof

theorem ifaceContents_all {id : TId} {ii : IfaceInfo} {fo : FOpts} {bz : Bytes} {n m : Nat} {v : Val}
    (h : ifaceContents Γ c rec id ii fo bz n = .ok m v) : m = n + bz.length := by
  unfold ifaceContents at h
  obtain ⟨j, dp, _, hj, h⟩ := andSlide_inv h
  split at h
  · cases h
  · obtain ⟨j', hj', h⟩ := concKey_inv h
    split at h
    · split at h
      · split at h
        · cases h
        · split at h
          · simp only [DRes.ok.injEq] at h
            simp only [List.length_drop] at *
            omega
          · cases h
      · cases h
    · split at h
      · split at h <;> cases h
      · cases h
    · cases h
    · cases h

theorem decShape_framed {id : TId} {p v : Val} {fo : FOpts} {body rest : Bytes} {n : Nat} (hl : body.length < 2 ^ 63)
    (hx : exactKind Γ id = true) (hk : lenKind Γ id = true)
    (h : decShape Γ c rec id p fo false (varint body.length ++ body ++ rest) = .ok n v) :
    n = (varint body.length ++ body).length ∧
      ∀ rest', decShape Γ c rec id p fo false (varint body.length ++ body ++ rest') = .ok n v := by
  have hbs : ∀ rest', decodeByteSlice (varint body.length ++ body ++ rest') =
      .ok ((varint body.length).length + body.length) body := by
    intro rest'
    rw [List.append_assoc]
    exact decodeByteSlice_varint body rest' hl
  have hsl : ∀ {α : Type} (rest' : Bytes) (k : Bytes → Bytes → Nat → DRes α),
      (DRes.ok ((varint body.length).length + body.length) body).andSlide (varint body.length ++ body ++ rest') 0 k =
        k body rest' (varint body.length ++ body).length := by
    intro α rest' k
    have := andSlide_append (b := varint body.length ++ body) (rest := rest') (n := 0) (a := body) (k := k)
    rw [Nat.zero_add] at this
    rw [← this, List.length_append]
  unfold exactKind at hx
  unfold lenKind at hk
  unfold decShape at h ⊢
  split at h <;> rename_i hs <;> simp only [hs] at hx hk ⊢ <;> try cases hk
  · -- iface
    unfold decIface at h ⊢
    cases p <;> try cases h
    simp only at h ⊢
    cases hii : c.iface? id with
    | none => rw [hii] at h; cases h
    | some ii =>
      rw [hii] at h
      simp only at h ⊢
      rw [unframe_varint hl] at h
      have := ifaceContents_all (Γ := Γ) (c := c) (rec := rec) h
      refine ⟨by rw [this, List.length_append], fun rest' => ?_⟩
      rw [unframe_varint hl]
      exact h
  · -- array
    rename_i len e
    split at h <;> rename_i hb
    · simp only [hb, if_true]
      unfold decByteArray at h ⊢
      split at h
      · cases h
      rw [hbs, hsl] at h
      split at h
      · cases h
      rename_i hbl
      split at h
      · rename_i he
        simp only [DRes.ok.injEq] at h
        refine ⟨h.1.symm, fun rest' => ?_⟩
        rw [if_neg (by simp only [List.length_append]; omega), hbs, hsl, if_neg hbl, if_pos he]
        simp only [h.1, h.2]
      · cases h
    · simp only [Bool.not_eq_true] at hb
      simp only [hb, Bool.false_eq_true, if_false]
      unfold decArray at h ⊢
      obtain ⟨hi, h⟩ := infoThen_inv h
      rw [unframe_varint hl] at h
      simp [hb, lenKind_eq] at hx
      have ht : Γ.typ3 e.deref fo ≠ typ3ByteLength := by
        intro hh
        have := (isLen_iff (Γ := Γ) (id := e.deref) (fo := fo)).mpr hh
        rw [hx.2] at this; cases this
      cases p <;> try cases h
      rename_i ps
      simp only at h
      rw [if_pos ht] at h
      obtain ⟨a, h', rfl⟩ := map_inv h
      have := decPackedArr_all h'
      refine ⟨by rw [this, List.length_append], fun rest' => ?_⟩
      unfold infoThen
      rw [hi]
      simp only
      rw [unframe_varint hl]
      simp only [if_pos ht, h', DRes.map_ok]
  · -- slice
    rename_i e
    split at h <;> rename_i hb
    · simp only [hb, if_true]
      have hne : ∀ rest', (varint body.length ++ body ++ rest').length ≠ 0 := by
        intro rest'
        have := varint_length_pos body.length
        simp only [List.length_append]; omega
      unfold decByteSlice at h ⊢
      rw [if_neg (hne rest), hbs, hsl] at h
      split at h
      · rename_i hz
        simp only [DRes.ok.injEq] at h
        refine ⟨h.1.symm, fun rest' => ?_⟩
        rw [if_neg (hne rest'), hbs, hsl, if_pos hz]
        simp only [h.1, h.2]
      · rename_i hz
        split at h
        · rename_i he
          simp only [DRes.ok.injEq] at h
          refine ⟨h.1.symm, fun rest' => ?_⟩
          rw [if_neg (hne rest'), hbs, hsl, if_neg hz, if_pos he]
          simp only [h.1, h.2]
        · cases h
    · simp only [Bool.not_eq_true] at hb
      simp only [hb, Bool.false_eq_true, if_false]
      unfold decSlice at h ⊢
      obtain ⟨hi, h⟩ := infoThen_inv h
      rw [unframe_varint hl] at h
      simp [hb, lenKind_eq] at hx
      have ht : Γ.typ3 e.deref fo ≠ typ3ByteLength := by
        intro hh
        have := (isLen_iff (Γ := Γ) (id := e.deref) (fo := fo)).mpr hh
        rw [hx.2] at this; cases this
      rw [if_pos ht] at h
      obtain ⟨a, h', rfl⟩ := map_inv h
      have := decPackedSlice_all h'
      refine ⟨by rw [this, List.length_append], fun rest' => ?_⟩
      unfold infoThen
      rw [hi]
      simp only
      rw [unframe_varint hl]
      simp only [if_pos ht, h', DRes.map_ok]
  · -- struct
    rw [unframe_varint hl] at h
    cases p <;> try cases h
    simp only at h
    obtain ⟨a, h', rfl⟩ := map_inv h
    have := decFields_all h'
    refine ⟨by rw [this, List.length_append], fun rest' => ?_⟩
    rw [unframe_varint hl]
    simp only [h', DRes.map_ok]
  · -- time
    simp at hx
  · -- string
    unfold decodeString at h ⊢
    rw [hbs, hsl] at h
    simp only [DRes.ok.injEq] at h
    refine ⟨h.1.symm, fun rest' => ?_⟩
    rw [hbs, hsl]
    simp only [h.1, h.2]
  · -- map
    cases h

theorem decBody_framed {t : Ty} {p v : Val} {fo : FOpts} {body rest : Bytes} {n : Nat} (hl : body.length < 2 ^ 63)
    (hx : exactKind Γ t.deref = true) (hk : lenKind Γ t.deref = true)
    (h : decBody Γ c rec t p fo false (varint body.length ++ body ++ rest) = .ok n v) :
    n = (varint body.length ++ body).length ∧
      ∀ rest', decBody Γ c rec t p fo false (varint body.length ++ body ++ rest') = .ok n v := by
  have hu : Γ.unmarsh t.deref = none := by
    unfold exactKind at hx
    simp only [Bool.and_eq_true, Option.isNone_iff_eq_none] at hx
    exact hx.1
  unfold decBody at h ⊢
  split at h
  · cases h
  · rename_i hi
    simp only [hu] at h ⊢
    obtain ⟨a, h', rfl⟩ := map_inv h
    obtain ⟨h1, h2⟩ := decShape_framed hl hx hk h'
    refine ⟨h1, fun rest' => ?_⟩
    rw [if_neg hi, h2]
    rfl

theorem decInt_payload {k : IntKind} {fo : FOpts} {pl rest : Bytes} {n : Nat} {i : Int} {id : TId}
    (hs : Γ.shape id = .int k) (hp : Payload (Γ.typ3 id fo) pl) (h : decInt k fo (pl ++ rest) = .ok n i) : n = pl.length := by
  have huv : ∀ {x : Nat}, x < 2 ^ 64 → ∀ {β : Type} (k : UInt64 → Bytes → Nat → DRes β),
      (decodeUvarint (varint x ++ rest)).andSlide (varint x ++ rest) 0 k = k (UInt64.ofNat x) rest (varint x).length := by
    intro x hx β k
    rw [decodeUvarint_varint _ hx, andSlide_append, Nat.zero_add]
  have hv : ∀ {x : Nat}, x < 2 ^ 64 → decodeVarint (varint x ++ rest) = .ok (varint x).length (zag x) := by
    intro x hx
    rw [decodeVarint_eq, readVarint_varint]
    simp only
    rw [if_pos ⟨varint_u64_length _ hx, hx⟩]
  have hu : ∀ {β : Type} (k : UInt64 → Bytes → Nat → DRes β) {b : β}, Payload 0 pl →
      (decodeUvarint (pl ++ rest)).andSlide (pl ++ rest) 0 k = .ok n b → ∃ u, k u rest pl.length = .ok n b := by
    intro β k b hp h
    cases hp with
    | varint hx => rw [huv hx] at h; exact ⟨_, h⟩
  have hfix : ∀ {β : Type} {w : Nat} {a : β}, pl.length = w → ∀ (k : β → Bytes → Nat → DRes Int),
      (if (pl ++ rest).length < w then .err 0 .eof else DRes.ok w a).andSlide (pl ++ rest) 0 k = k a rest w := by
    intro β w a hw k
    rw [if_neg (by simp only [List.length_append]; omega), ← hw, andSlide_append, Nat.zero_add]
  have hlen8 : Payload 1 pl → pl.length = 8 := by intro hp; cases hp; assumption
  have hlen4 : Payload 5 pl → pl.length = 4 := by intro hp; cases hp; assumption
  unfold Prog.typ3 at hp
  rw [hs] at hp
  cases k <;> simp only at hp <;> unfold decInt at h <;> simp only at h
  case int8 =>
    cases hp with
    | varint hx =>
      unfold decodeInt8 at h
      rw [hv hx] at h
      simp only at h
      split at h
      · obtain ⟨_, _, h, _⟩ := andSlide_inv h; cases h
      · rw [andSlide_append] at h; simp at h; exact h.1.symm
  case int16 =>
    cases hp with
    | varint hx =>
      unfold decodeInt16 at h
      rw [hv hx] at h
      simp only at h
      split at h
      · obtain ⟨_, _, h, _⟩ := andSlide_inv h; cases h
      · rw [andSlide_append] at h; simp at h; exact h.1.symm
  case int32 =>
    cases hf : fo.fixed32 <;> simp only [hf, Bool.false_eq_true, if_false, if_true] at hp h
    · obtain ⟨u, h⟩ := hu _ hp h
      split at h <;> simp at h
      exact h.1.symm
    · have := hlen4 hp
      unfold decodeInt32 at h
      rw [hfix this] at h
      simp at h; omega
  case int64 =>
    cases hf : fo.fixed64 <;> simp only [hf, Bool.false_eq_true, if_false, if_true] at hp h
    · obtain ⟨u, h⟩ := hu _ hp h
      simp at h
      exact h.1.symm
    · have := hlen8 hp
      unfold decodeInt64 at h
      rw [hfix this] at h
      simp at h; omega
  case int =>
    obtain ⟨u, h⟩ := hu _ hp h
    split at h <;> simp at h
    exact h.1.symm
  case uint8 =>
    cases hp with
    | varint hx =>
      unfold decodeUint8 at h
      rw [decodeUvarint_varint _ hx] at h
      simp only at h
      split at h
      · obtain ⟨_, _, h, _⟩ := andSlide_inv h; cases h
      · rw [andSlide_append] at h; simp at h; exact h.1.symm
  case uint16 =>
    cases hp with
    | varint hx =>
      unfold decodeUint16 at h
      rw [decodeUvarint_varint _ hx] at h
      simp only at h
      split at h
      · obtain ⟨_, _, h, _⟩ := andSlide_inv h; cases h
      · rw [andSlide_append] at h; simp at h; exact h.1.symm
  case uint32 =>
    cases hf : fo.fixed32 <;> simp only [hf, Bool.false_eq_true, if_false, if_true] at hp h
    · obtain ⟨u, h⟩ := hu _ hp h
      simp at h
      exact h.1.symm
    · have := hlen4 hp
      unfold decodeUint32 at h
      rw [hfix this] at h
      simp at h; omega
  case uint64 =>
    cases hf : fo.fixed64 <;> simp only [hf, Bool.false_eq_true, if_false, if_true] at hp h
    · obtain ⟨u, h⟩ := hu _ hp h
      simp at h
      exact h.1.symm
    · have := hlen8 hp
      unfold decodeUint64 at h
      rw [hfix this] at h
      simp at h; omega
  case uint =>
    obtain ⟨u, h⟩ := hu _ hp h
    simp at h
    exact h.1.symm

/-- A field decoder uses exactly the payload of its wire type. -/
theorem decBody_payload {t : Ty} {p v : Val} {fo : FOpts} {pl rest : Bytes} {n : Nat}
    (hx : exactKind Γ t.deref = true) (hp : Payload (Γ.typ3 t.deref fo) pl)
    (h : decBody Γ c rec t p fo false (pl ++ rest) = .ok n v) : n = pl.length := by
  cases hk : lenKind Γ t.deref with
  | true =>
    rw [lenKind_eq, isLen_iff (fo := fo)] at hk
    rw [hk] at hp
    rw [← isLen_iff (fo := fo), ← lenKind_eq] at hk
    cases hp with
    | bytes hl => exact (decBody_framed hl hx hk h).1
  | false =>
    have hu : Γ.unmarsh t.deref = none := by
      unfold exactKind at hx
      simp only [Bool.and_eq_true, Option.isNone_iff_eq_none] at hx
      exact hx.1
    unfold decBody at h
    split at h
    · cases h
    simp only [hu] at h
    obtain ⟨a, h', rfl⟩ := map_inv h
    unfold decShape at h'
    unfold lenKind at hk
    split at h' <;> rename_i hs <;> simp only [hs] at hk <;> try cases hk
    · obtain ⟨a, h'', rfl⟩ := map_inv h'
      exact decInt_payload hs hp h''
    · unfold Prog.typ3 at hp
      rw [hs] at hp
      simp only [typ3Varint] at hp
      cases hp with
      | @varint x hx =>
        obtain ⟨j, b, hb, _, h'⟩ := andSlide_inv h'
        simp only [Nat.zero_add, DRes.ok.injEq] at h'
        unfold varint at hb ⊢
        split
        · rename_i h128
          rw [if_pos h128] at hb
          unfold decodeBool at hb
          simp only [List.cons_append] at hb
          split at hb
          · simp at hb; simp; omega
          · split at hb
            · simp at hb; simp; omega
            · cases hb
        · rename_i h128
          rw [if_neg h128] at hb
          unfold decodeBool at hb
          simp only [List.cons_append] at hb
          have hge : 128 ≤ (UInt8.ofNat (x % 128 + 128)).toNat := by simp; omega
          split at hb
          · rename_i h0; rw [h0] at hge; simp at hge
          · split at hb
            · rename_i h0; rw [h0] at hge; simp at hge
            · cases hb
    · unfold Prog.typ3 at hp
      rw [hs] at hp
      simp only [typ38Byte] at hp
      cases hp with
      | fixed64 hb =>
        split at h'
        · cases h'
        obtain ⟨j, b, hb', _, h'⟩ := andSlide_inv h'
        unfold decodeUint64 at hb'
        split at hb' <;> simp at hb' h'
        omega
    · unfold Prog.typ3 at hp
      rw [hs] at hp
      simp only [typ34Byte] at hp
      cases hp with
      | fixed32 hb =>
        split at h'
        · cases h'
        obtain ⟨j, b, hb', _, h'⟩ := andSlide_inv h'
        unfold decodeUint32 at hb'
        split at hb' <;> simp at hb' h'
        omega

end

end Amino
