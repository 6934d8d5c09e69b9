import Verif.EncWorkLemmas
import Verif.PropsOut

/-!
# C118: the work of Marshal
-/

namespace Amino
open Spec OutB

section
variable {Γ : Prog} {rank : TId → Nat} {B R : Nat}

/-- The work of the entry points from that of the encoder. -/
theorem encWorkBare_le {c : Codec} {K : Nat} {G : Val → Nat} (hz : ∀ id, HasTy Γ (.base id) (Γ.zero id)) (hm : ReprSmall Γ B)
    (hR : ReprRank Γ rank R) (hc : PrefixBytes c) (hG : Room (B + 60) K R G)
    (hr : ∀ {id rid m v r}, Γ.marsh id = some (rid, m) → m v = .ok r → G r ≤ G v ∨
      (Γ.marsh rid = none ∧ ((∃ s, r = .str s) ∨ ∃ b, r = .bytes b) ∧ vsize r ≤ B * vsize v))
    (f : Nat) (t : Ty) (v : Val) : encWorkBare Γ c f t v ≤ 2 * G v := by
  have hv := vsize_pos' v
  have h1 : (B + 60 + R + 60) * vsize v ≤ G v := Nat.le_trans (Nat.mul_le_mul_right _ hG.big) (hG.lin v)
  have h2 : (B + 60) * 1 ≤ (B + 60) * vsize v := Nat.mul_le_mul_left _ hv
  have h3 : R * 1 ≤ R * vsize v := Nat.mul_le_mul_left _ hv
  rw [Nat.add_mul, Nat.add_mul] at h1
  unfold encWorkBare
  split
  · omega
  rename_i rv hd
  have hd' := hG.deref hd
  have hw : ∀ fo bare, encWork Γ c f t.deref rv fo bare ≤ G v + R := fun fo bare => by
    have := encWork_le hz hm hR hc hG hr f t.deref rv fo bare
    have := hR.bound t.deref
    omega
  split
  · have h4 : wrote (marshalBare Γ c f t v) ≤ (B + 60) * vsize v + 4 := wrote_le fun b h => marshalBare_len hz hm hc h
    have h5 : (if !Γ.structOrRep t.deref then
        encWorkWrite Γ (encWork Γ c f) 1 t.deref {} rv (Γ.typ3 t.deref {} != typ3ByteLength)
       else encWork Γ c f t.deref rv { fnum := 1 } true) ≤ G v + R + 10 := by
      split
      · have h5 := hw {} (Γ.typ3 t.deref {} != typ3ByteLength)
        have h6 := wrote_key 1 (Γ.typ3 t.deref {})
        have h7 := afterOk_le (encodeKey 1 (Γ.typ3 t.deref {})) (encWork Γ c f t.deref rv {} (Γ.typ3 t.deref {} != typ3ByteLength))
        unfold encWorkWrite
        omega
      · have h5 := hw { fnum := 1 } true
        omega
    cases c.conc? t.deref <;> simp only <;> omega
  · omega

/-- The work of writing the length in front. -/
theorem encWorkLP_le {c : Codec} (hz : ∀ id, HasTy Γ (.base id) (Γ.zero id)) (hm : ReprSmall Γ B) (hc : PrefixBytes c)
    (f : Nat) (t : Ty) (v : Val) : encWorkLP Γ c f t v ≤ encWorkBare Γ c f t v + (B + 80) * vsize v := by
  have h1 : wrote (marshalLP Γ c f t v) ≤ (B + 60) * vsize v + 14 := wrote_le fun b h => marshalLP_len hz hm hc h
  have hv := vsize_pos' v
  unfold encWorkLP
  rw [Nat.add_mul] at h1 ⊢
  omega

/-- C118: the work of MarshalBinaryBare, with or without an error, grows at most with the square of the size of the value;
the factor depends on the program only: on how much its MarshalAmino methods return (`B`), and how often such methods
return types with such methods (`R`). -/
theorem C118_bare (hz : ∀ id, HasTy Γ (.base id) (Γ.zero id)) (hm : ReprSmall Γ B) (hR : ReprRank Γ rank R) :
    ∃ K, ∀ (c : Codec), PrefixBytes c → ∀ (f : Nat) (t : Ty) (v : Val), encWorkBare Γ c f t v ≤ K * vsize v ^ 2 := by
  refine ⟨2 * (B + R + 120), fun c hc f t v => ?_⟩
  have := encWorkBare_le hz hm hR hc (room_sq (show B + 60 + R + 60 ≤ B + R + 120 by omega))
    (fun h1 h2 => (hm.marsh h1 h2).imp_left (ksq_mono _)) f t v
  rw [Nat.pow_two, Nat.mul_assoc]
  exact this

/-- C118 for MarshalBinaryLengthPrefixed. -/
theorem C118_lengthPrefixed (hz : ∀ id, HasTy Γ (.base id) (Γ.zero id)) (hm : ReprSmall Γ B) (hR : ReprRank Γ rank R) :
    ∃ K, ∀ (c : Codec), PrefixBytes c → ∀ (f : Nat) (t : Ty) (v : Val), encWorkLP Γ c f t v ≤ K * vsize v ^ 2 := by
  obtain ⟨K, hK⟩ := C118_bare hz hm hR
  refine ⟨K + (B + 80), fun c hc f t v => ?_⟩
  have h1 := encWorkLP_le hz hm hc f t v
  have h2 := hK c hc f t v
  have h3 : (B + 80) * vsize v ≤ (B + 80) * vsize v ^ 2 := by
    rw [Nat.pow_two]; exact Nat.mul_le_mul_left _ (Nat.le_mul_of_pos_left _ (vsize_pos' v))
  rw [Nat.add_mul]; omega

/-- C118, what the square comes from: the work is at most proportional to the size times the depth of the nesting.  For
values of bounded depth, the work is proportional to the size. -/
theorem C118_nesting (hz : ∀ id, HasTy Γ (.base id) (Γ.zero id)) (hm : ReprSmall Γ B) (hs : ReprShallow Γ)
    (hR : ReprRank Γ rank R) : ∃ K, ∀ (c : Codec), PrefixBytes c → ∀ (f : Nat) (t : Ty) (v : Val),
      encWorkBare Γ c f t v ≤ K * (vsize v * vlevel v) ∧ encWorkLP Γ c f t v ≤ K * (vsize v * vlevel v) := by
  refine ⟨2 * (B + R + 120) + (B + 80), fun c hc f t v => ?_⟩
  have h1 := encWorkBare_le hz hm hR hc (room_level (show B + 60 + R + 60 ≤ B + R + 120 by omega))
    (fun h1 h2 => (hm.marsh h1 h2).imp_left fun h3 =>
      Nat.mul_le_mul_left _ (Nat.mul_le_mul h3 (hs _ _ _ _ _ h1 h2))) f t v
  have h2 := encWorkLP_le hz hm hc f t v
  have h3 : (B + 80) * vsize v ≤ (B + 80) * (vsize v * vlevel v) :=
    Nat.mul_le_mul_left _ (Nat.le_mul_of_pos_right _ (vlevel_pos v))
  rw [← Nat.mul_assoc] at h1
  rw [Nat.add_mul]
  omega

end

/-! ## From below -/

theorem wrote_ok {r : Res Bytes} {b : Bytes} (h : r = .ok b) : wrote r = b.length := by rw [h]; rfl

theorem encWorkShape_low {Γ : Prog} {c : Codec} {rec : TId → Val → FOpts → Bool → Res Bytes}
    {wrk : TId → Val → FOpts → Bool → Nat} {f : Nat} {id : TId} {v : Val} {fo : FOpts} {bare : Bool} {b : Bytes}
    (h : encShape Γ c rec f id v fo bare = .ok b) : b.length ≤ encWorkShape Γ c rec wrk f id v fo bare := by
  have hl : ∀ {e}, encList Γ c rec e v fo bare = .ok b → b.length ≤ encWorkList Γ c rec wrk e v fo bare := by
    intro e h
    have h1 := wrote_ok h
    obtain ⟨_, hg, _⟩ := Res.bind_eq_ok h
    unfold encWorkList
    simp only [hg]
    omega
  have hw := wrote_ok h
  unfold encShape at h
  unfold encWorkShape
  cases hs : Γ.shape id with
  | iface =>
    simp only [hs] at h
    have := wrote_ok h
    simp only [encWorkIface]
    omega
  | slice e =>
    simp only [hs] at h
    simp only
    split
    · omega
    · rename_i hb
      simp only [Bool.or_eq_true, not_or] at hb
      rw [if_neg hb.1, if_neg hb.2] at h
      exact hl h
  | array n e =>
    simp only [hs] at h
    simp only
    split
    · omega
    · rename_i hb
      simp only [Bool.or_eq_true, not_or] at hb
      rw [if_neg hb.1, if_neg hb.2] at h
      exact hl h
  | _ => simp only; omega

theorem encWork_low {Γ : Prog} {c : Codec} : ∀ {f : Nat} {id : TId} {v : Val} {fo : FOpts} {bare : Bool} {b : Bytes},
    enc Γ c f id v fo bare = .ok b → b.length + 1 ≤ encWork Γ c f id v fo bare
  | 0, _, _, _, _, _, h => by cases h
  | f + 1, id, v, fo, bare, b, h => by
    simp only [enc, encBody] at h
    simp only [encWork, encWorkBody]
    cases hmi : Γ.marsh id with
    | some p =>
      obtain ⟨rid, m⟩ := p
      simp only [hmi] at h
      obtain ⟨r, hr, h⟩ := Res.bind_eq_ok h
      obtain ⟨_, hg, h⟩ := Res.bind_eq_ok h
      have := encWork_low h
      simp only [hr, hg]
      omega
    | none =>
      simp only [hmi] at h
      have := encWorkShape_low (wrk := encWork Γ c f) h
      simp only
      omega

/-- C118, from below: every byte of the result is counted. -/
theorem C118_counted {Γ : Prog} {c : Codec} {f : Nat} {t : Ty} {v : Val} {b : Bytes} (h : marshalBare Γ c f t v = .ok b) :
    b.length ≤ encWorkBare Γ c f t v := by
  have hb := wrote_ok h
  unfold marshalBare at h
  unfold encWorkBare
  split at h
  · cases h
  rename_i rv hd
  obtain ⟨_, hg, h⟩ := Res.bind_eq_ok h
  obtain ⟨x, hx, h⟩ := Res.bind_eq_ok h
  simp only [hd, hg]
  split at h
  · rename_i ci hci
    simp only [hci]
    omega
  · rename_i hci
    cases h
    split at hx
    · rename_i hs
      obtain ⟨k, hk, hx⟩ := Res.bind_eq_ok hx
      obtain ⟨y, hy, hx⟩ := Res.bind_eq_ok hx
      have h1 := encWork_low hy
      have h2 := wrote_ok hk
      simp only [if_pos hs, encWorkWrite, hk, afterOk] at h2 ⊢
      split at hx
      · cases hx; simp
      · cases hx
        simp only [List.length_append]; omega
    · rename_i hs
      have := encWork_low hx
      rw [if_neg hs]
      omega

/-! ## The square is needed -/

namespace Link

/-- `type Link struct { Next *Link }` is type 1. -/
def prog : Prog where
  shape | 1 => .struct [{ ty := .ptr (.base 1) }] | _ => .bool
  zero | 1 => .struct [.nil] | _ => .bool false
  marsh _ := none
  unmarsh _ := none
  implements _ _ := false
  byteId := 0

/-- A list of k + 1 Links. -/
def chain : Nat → Val
  | 0 => .struct [.nil]
  | k + 1 => .struct [.ptr (chain k)]

theorem chain_size (k : Nat) : vsize (chain k) = 2 * k + 2 := by
  induction k with
  | zero => rfl
  | succ k ih => simp only [chain, vsize, vsizes, ih]; omega

/-- The bytes of a chain and the work they take. -/
theorem enc_chain (k : Nat) : ∀ f fo, k < f → ∃ bz, (∀ bare, enc prog {} f 1 (chain k) fo bare = framed bare bz) ∧
    2 * k ≤ bz.length ∧ ∀ bare, k * k ≤ encWork prog {} f 1 (chain k) fo bare := by
  induction k with
  | zero =>
    intro f fo hf
    obtain ⟨f, rfl⟩ : ∃ g, f = g + 1 := ⟨f - 1, by omega⟩
    exact ⟨[], fun bare => rfl, by decide, fun bare => by omega⟩
  | succ k ih =>
    intro f fo hf
    obtain ⟨f, rfl⟩ : ∃ g, f = g + 1 := ⟨f - 1, by omega⟩
    obtain ⟨b1, h1, l1, w1⟩ := ih f { fnum := 1 } (by omega)
    obtain ⟨x1, e1, m1⟩ : ∃ x, encodeByteSlice b1 = .ok x ∧ b1.length + 1 ≤ x.length := by
      unfold encodeByteSlice
      rw [encodeUvarint_eq]
      refine ⟨_, rfl, ?_⟩
      have := varint_length_pos (UInt64.ofNat b1.length).toNat
      simp only [List.length_append]; omega
    obtain ⟨vs, hvs⟩ : ∃ vs, chain k = .struct vs := by cases k <;> exact ⟨_, rfl⟩
    have hf1 : encField prog {} (enc prog {} f) { ty := .ptr (.base 1) } 1 (.ptr (chain k)) = .ok ([0x0A] ++ x1) := by
      have : encField prog {} (enc prog {} f) { ty := .ptr (.base 1) } 1 (.ptr (chain k)) =
          (encodeKey 1 typ3ByteLength).bind fun k1 => (enc prog {} f 1 (chain k) { fnum := 1 } false).bind fun b =>
            .ok (k1 ++ b) := by
        rw [hvs]; rfl
      rw [this, h1]
      show (encodeByteSlice b1).bind _ = _
      rw [e1]; rfl
    have hall : ∀ bare, enc prog {} (f + 1) 1 (chain (k + 1)) fo bare = framed bare (([0x0A] ++ x1) ++ []) := by
      intro bare
      show ((encField prog {} (enc prog {} f) { ty := .ptr (.base 1) } 1 (.ptr (chain k))).bind fun b =>
          Res.bind (.ok []) fun b'' => .ok (b ++ b'')).bind (fun buf => framed bare buf) = _
      rw [hf1]; rfl
    refine ⟨([0x0A] ++ x1) ++ [], hall, ?_, ?_⟩
    · simp only [List.length_append, List.length_cons, List.length_nil]; omega
    · intro bare
      have hw : encWork prog {} (f + 1) 1 (chain (k + 1)) fo bare =
          1 + ((1 + (1 + encWork prog {} f 1 (chain k) { fnum := 1 } false) +
            afterOk (encField prog {} (enc prog {} f) { ty := .ptr (.base 1) } 1 (.ptr (chain k))) 0) +
            wrote (enc prog {} (f + 1) 1 (chain (k + 1)) fo bare)) := by
        rw [show chain (k + 1) = .struct [.ptr (chain k)] from rfl]
        show encWorkBody prog {} (enc prog {} f) (encWork prog {} f) f 1 (.struct [.ptr (chain k)]) fo bare = _
        rw [hvs]; rfl
      have h2 := w1 false
      have h3 : 2 * k + 2 ≤ wrote (enc prog {} (f + 1) 1 (chain (k + 1)) fo bare) := by
        rw [hall]
        unfold framed
        split
        · simp only [wrote, List.length_append, List.length_cons, List.length_nil]; omega
        · unfold encodeByteSlice
          rw [encodeUvarint_eq]
          simp only [wrote, Res.bind, List.length_append, List.length_cons, List.length_nil]; omega
      rw [hw]
      have : (k + 1) * (k + 1) = k * k + 2 * k + 1 := by rw [Nat.add_mul, Nat.mul_add]; omega
      omega

theorem typed : ∀ id, HasTy prog (.base id) (prog.zero id) := by
  intro id
  match id with
  | 0 => exact .bool rfl
  | 1 => exact .struct rfl rfl (by simp [prog]; exact .ptrNil)
  | n + 2 => exact .bool rfl

theorem small : ReprSmall prog 0 where
  marsh := by intro id rid m v r h; cases h

theorem ranked : ReprRank prog (fun _ => 0) 0 where
  bound _ := Nat.le_refl _
  marsh := by intro id rid m h; cases h

end Link

/-- C118, the bound cannot be improved to a multiple of the size: encoding a chain of n + 1 values, of size 2n + 2, takes at
least n² steps, because every level copies everything inside it. -/
theorem C118_square_reached (n : Nat) : vsize (Link.chain n) = 2 * n + 2 ∧
    (∃ bz, marshalBare Link.prog {} (n + 1) (.base 1) (Link.chain n) = .ok bz) ∧
    n * n ≤ encWorkBare Link.prog {} (n + 1) (.base 1) (Link.chain n) := by
  obtain ⟨bz, h1, _, h2⟩ := Link.enc_chain n (n + 1) { fnum := 1 } (by omega)
  refine ⟨Link.chain_size n, ⟨bz, ?_⟩, Nat.le_trans (h2 true) (Nat.le_of_eq ?_)⟩
  · show (((enc Link.prog {} (n + 1) 1 (Link.chain n) { fnum := 1 } true).bind fun bz => .ok bz : Res Bytes)) = _
    rw [h1]
    rfl
  · rfl

/-! ## The hypotheses can be met -/

example : ∃ K, ∀ (c : Codec), PrefixBytes c → ∀ (f : Nat) (t : Ty) (v : Val),
    encWorkBare Link.prog c f t v ≤ K * vsize v ^ 2 := C118_bare Link.typed Link.small Link.ranked

example : PrefixBytes {} := by intro id ci h; cases h

theorem Demo.reprRank : ReprRank Demo.prog (fun _ => 0) 0 where
  bound _ := Nat.le_refl _
  marsh := by intro id rid m h; cases h

theorem JDemo.reprRank : ReprRank JDemo.prog (fun id => if (JDemo.prog.marsh id).isSome then 1 else 0) 1 where
  bound id := by split <;> omega
  marsh := by
    intro id rid m h
    simp only [h, Option.isSome_some, if_true]
    simp only [JDemo.prog] at h
    split at h
    · cases h
      decide +kernel
    · cases h

theorem JDemo.reprShallow : ReprShallow JDemo.prog := by
  intro id rid m v r h hr
  simp only [JDemo.prog] at h
  split at h
  · cases h
    unfold JDemo.centsOut at hr
    split at hr
    · cases hr; exact vlevel_pos _
    · cases hr
  · cases h

/-- A program with a MarshalAmino method. -/
example : ∃ K, ∀ (c : Codec), PrefixBytes c → ∀ (f : Nat) (t : Ty) (v : Val),
    encWorkBare JDemo.prog c f t v ≤ K * (vsize v * vlevel v) ∧ encWorkLP JDemo.prog c f t v ≤ K * (vsize v * vlevel v) :=
  C118_nesting JDemo.typed.zero JDemo.reprSmall JDemo.reprShallow JDemo.reprRank

example : ∃ K, ∀ (c : Codec), PrefixBytes c → ∀ (f : Nat) (t : Ty) (v : Val),
    encWorkLP Demo.prog c f t v ≤ K * vsize v ^ 2 :=
  C118_lengthPrefixed Demo.prog_typed.zero Demo.reprSmall Demo.reprRank

/-- The message of the demo. -/
example : Demo.msgBytes.length ≤ encWorkBare Demo.prog Demo.codecFoo 5 (.base Demo.msgT) Demo.msg :=
  C118_counted Demo.msg_marshal

/-- Its 47 bytes take 163 steps, and 48 more with their length in front. -/
example : Demo.msgBytes.length = 47 ∧ encWorkBare Demo.prog Demo.codecFoo 5 (.base Demo.msgT) Demo.msg = 163 ∧
    encWorkLP Demo.prog Demo.codecFoo 5 (.base Demo.msgT) Demo.msg = 211 := by decide +kernel

/-- `[]int64{1, 300}`, written `0a 03 01 ac 02`, takes 13 steps: the key, the call for the list, an iteration, a call and
the bytes of each element, and the four bytes of the buffer with its length. -/
example : encWorkBare Demo.prog {} 9 (.base 15) (.list [.int 1, .int 300]) = 13 := by decide +kernel

/-- `[]string{"", "ab"}`: here the elements have keys. -/
example : encWorkBare Demo.prog {} 9 (.base 22) (.list [.str [], .str [97, 98]]) = 18 := by decide +kernel

/-- Two calls and two bytes for a value and its representation. -/
example : encWorkBare JDemo.prog {} 9 (.base 12) (.struct [.int 250]) = 4 := by decide +kernel

end Amino
