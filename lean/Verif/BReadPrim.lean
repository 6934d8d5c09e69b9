import Verif.SpecBReads
import Verif.WriteLemmas
import Verif.PropsStale
import Verif.WireLemmas
import Verif.ExactDec

/-!
# The primitive decoders against the specification of what bytes are read as
-/

namespace Amino
open Spec

variable {Γ : Prog} {c : Codec}

theorem readVarint_app {d r : Bytes} {v l : Nat} (h : readVarint d = some (v, l)) : readVarint (d ++ r) = some (v, l) := by
  induction d generalizing v l with
  | nil => cases h
  | cons b bs ih =>
    rw [List.cons_append]
    unfold readVarint at h ⊢
    split at h
    · rename_i hb; rw [if_pos hb]; exact h
    · rename_i hb
      rw [if_neg hb]
      obtain ⟨p, hp, h⟩ := Option.map_eq_some_iff.mp h
      rw [ih hp]
      rw [Option.map_some, h]

theorem readVarint_split {b : Bytes} {v n : Nat} : readVarint b = some (v, n) ↔
    ∃ d r, b = d ++ r ∧ d.length = n ∧ readVarint d = some (v, n) := by
  constructor
  · intro h
    have hl := readVarint_len h
    exact ⟨b.take n, b.drop n, (List.take_append_drop n b).symm, by rw [List.length_take]; omega, readVarint_take h n (Nat.le_refl _)⟩
  · rintro ⟨d, r, rfl, _, h⟩
    exact readVarint_app h

theorem number_iff {b : Bytes} {n : Nat} {u : UInt64} : decodeUvarint b = .ok n u ↔
    ∃ d r, b = d ++ r ∧ d.length = n ∧ Number u.toNat d := by
  rw [C01_uvarint_decode_iff, readVarint_split]
  constructor
  · rintro ⟨⟨d, r, h1, h2, h3⟩, h4⟩
    subst h2
    exact ⟨d, r, h1, rfl, h3, h4, u.toNat_lt⟩
  · rintro ⟨d, r, h1, h2, h3, h4, _⟩
    subst h2
    exact ⟨⟨d, r, h1, rfl, h3⟩, h4⟩

theorem number_of {d r : Bytes} {v : Nat} (h : Number v d) : decodeUvarint (d ++ r) = .ok d.length (UInt64.ofNat v) := by
  refine number_iff.mpr ⟨d, r, rfl, rfl, ?_⟩
  rw [ofNat_toNat_lt h.2.2]
  exact h

theorem number_pos {d : Bytes} {v : Nat} (h : Number v d) : 0 < d.length := (readVarint_len h.1).1

theorem key_iff {b : Bytes} {n num typ : Nat} : decodeKey b = .ok n (num, typ) ↔
    ∃ key r, b = key ++ r ∧ key.length = n ∧ KeyText num typ key := by
  rw [C10_key_range, readVarint_split]
  constructor
  · rintro ⟨⟨d, r, h1, h2, h3⟩, h4, h5, h6⟩
    subst h2
    exact ⟨d, r, h1, rfl, ⟨h3, h6, by omega⟩, h4, h5⟩
  · rintro ⟨d, r, h1, h2, ⟨h3, h4, _⟩, h5, h6⟩
    subst h2
    exact ⟨⟨d, r, h1, rfl, h3⟩, h5, h6, h4⟩

theorem key_of {num typ : Nat} {key r : Bytes} (h : KeyText num typ key) : decodeKey (key ++ r) = .ok key.length (num, typ) :=
  key_iff.mpr ⟨key, r, rfl, rfl, h⟩

theorem key_pos {num typ : Nat} {key : Bytes} (h : KeyText num typ key) : 0 < key.length := number_pos h.1

theorem counted_iff {b s : Bytes} {n : Nat} : decodeByteSlice b = .ok n s ↔ Counted s n b := by
  constructor
  · intro h
    obtain ⟨l, h1, h2, h3, h4, h5, h6, _⟩ := decodeByteSlice_ok h
    obtain ⟨d, r, rfl, rfl, h7⟩ := readVarint_split.mp h1
    rw [List.drop_left] at h5
    refine ⟨d, r.drop s.length, ?_, ⟨h7, h3, by omega⟩, h6, h2⟩
    congr 1
    conv => rhs; lhs; rw [h5]
    exact (List.take_append_drop _ _).symm
  · rintro ⟨d, r, rfl, h1, h2, rfl⟩
    unfold decodeByteSlice
    rw [number_of h1]
    simp only [DRes.andSlide, List.length_append, Nat.le_add_right, if_true, List.drop_left]
    have hi : intOfU64 (UInt64.ofNat s.length) = s.length := by
      rw [intOfU64_ofNat h1.2.2, if_pos h2]
    rw [hi, if_neg (by omega), if_neg (by omega), ofNat_toNat_lt h1.2.2, List.take_left]
    simp

theorem counted_within {b s : Bytes} {n : Nat} (h : Counted s n b) : n ≤ b.length ∧ 0 < n := by
  obtain ⟨d, r, rfl, h1, h2, rfl⟩ := h
  have := number_pos h1
  simp; omega

theorem framed_within {whole : Bool} {b body : Bytes} {k : Nat} (h : Framed whole b body k) :
    k + body.length ≤ b.length ∧ (whole = false → 0 < k) := by
  cases h with
  | whole => simp
  | counted h1 h2 =>
    rename_i d r
    have := (readVarint_minimal h1.1).1
    have := varint_length_pos body.length
    simp; omega

theorem unframe_of {α : Type} {whole : Bool} {b body : Bytes} {k : Nat} (h : Framed whole b body k) (f : Bytes → Nat → DRes α) :
    unframe whole b f = f body k := by
  cases h with
  | whole => rfl
  | counted h1 h2 =>
    rename_i d r
    unfold unframe
    have hc : Counted body (d.length + body.length) (d ++ (body ++ r)) := ⟨d, r, rfl, h1, h2, rfl⟩
    rw [if_neg (by simp), counted_iff.mpr hc]
    simp only
    rw [if_pos (counted_within hc).1, uvarintSize_eq, ofNat_toNat_lt h1.2.2]

theorem framed_inv {α : Type} {whole : Bool} {b : Bytes} {f : Bytes → Nat → DRes α} {n : Nat} {a : α} (h : unframe whole b f = .ok n a) :
    ∃ body k, Framed whole b body k ∧ f body k = .ok n a := by
  unfold unframe at h
  cases whole with
  | true => exact ⟨b, 0, .whole, h⟩
  | false =>
    rw [if_neg (by simp)] at h
    cases hd : decodeByteSlice b with
    | ok m buf =>
      rw [hd] at h
      simp only at h
      split at h
      · obtain ⟨d, r, rfl, h1, h2, _⟩ := counted_iff.mp hd
        refine ⟨buf, _, .counted h1 h2, ?_⟩
        rw [uvarintSize_eq, ofNat_toNat_lt h1.2.2] at h
        exact h
      · cases h
    | err m e => rw [hd] at h; simp only at h; split at h <;> cases h
    | panic p => rw [hd] at h; cases h
    | oof => rw [hd] at h; cases h

theorem infoThen_of {α : Type} {id : TId} (h : Known Γ c id) (n : Nat) (k : DRes α) : infoThen Γ c id n k = k := by
  unfold infoThen; rw [known_iff.mp h]

theorem andSlide_of {α β : Type} {bz : Bytes} {n j : Nat} {a : α} (k : α → Bytes → Nat → DRes β) (hj : j ≤ bz.length) :
    (DRes.ok j a).andSlide bz n k = k a (bz.drop j) (n + j) := by
  simp only [DRes.andSlide]; rw [if_pos hj]

theorem slideThen_of {β : Type} {bz : Bytes} {n j : Nat} (k : Bytes → Nat → DRes β) (hj : j ≤ bz.length) :
    slideThen j bz n k = k (bz.drop j) (n + j) := by
  unfold slideThen; rw [if_pos hj]

/-! ## Unknown fields -/

theorem skipped_inv {α : Type} {r : DRes α} {bz : Bytes} {n : Nat} (h : skipped r bz = .ok n ()) : ∃ a, r = .ok n a ∧ n ≤ bz.length := by
  unfold skipped at h
  split at h
  · obtain ⟨hj, h⟩ := slideThen_inv h
    injection h with h1
    rw [Nat.zero_add] at h1
    subst h1
    exact ⟨_, rfl, hj⟩
  all_goals cases h

theorem skipped_of {α : Type} {bz : Bytes} {n : Nat} {a : α} (h : n ≤ bz.length) : skipped (.ok n a) bz = .ok n () := by
  simp only [skipped]; rw [slideThen_of _ h, Nat.zero_add]

theorem varint_number {b : Bytes} {n : Nat} {i : Int} (h : decodeVarint b = .ok n i) : ∃ d r v, b = d ++ r ∧ d.length = n ∧ Number v d := by
  rw [decodeVarint_eq] at h
  cases hr : readVarint b with
  | none => rw [hr] at h; cases h
  | some p =>
    obtain ⟨v, l⟩ := p
    rw [hr] at h
    simp only at h
    split at h
    · rename_i hc
      cases h
      obtain ⟨d, r, rfl, rfl, h1⟩ := readVarint_split.mp hr
      exact ⟨d, r, v, rfl, rfl, h1, hc⟩
    · cases h

theorem number_varint {d r : Bytes} {v : Nat} (h : Number v d) : ∃ i, decodeVarint (d ++ r) = .ok d.length i := by
  rw [decodeVarint_eq, readVarint_app h.1]
  simp only
  rw [if_pos h.2]
  exact ⟨_, rfl⟩

theorem consumeAny_inv {typ n : Nat} {b : Bytes} (h : consumeAny typ b = .ok n ()) :
    ∃ p r, b = p ++ r ∧ p.length = n ∧ Skippable typ p := by
  unfold consumeAny at h
  split at h
  · rename_i ht
    subst ht
    obtain ⟨a, ha, _⟩ := skipped_inv h
    obtain ⟨d, r, v, h1, h2, h3⟩ := varint_number ha
    exact ⟨d, r, h1, h2, .varint h3⟩
  split at h
  · rename_i ht
    subst ht
    obtain ⟨a, ha, hl⟩ := skipped_inv h
    unfold decodeInt64 at ha
    split at ha
    · cases ha
    · cases ha
      exact ⟨b.take 8, b.drop 8, (List.take_append_drop _ _).symm, by rw [List.length_take]; omega, .eight (by rw [List.length_take]; omega)⟩
  split at h
  · rename_i ht
    subst ht
    obtain ⟨a, ha, hl⟩ := skipped_inv h
    obtain ⟨d, r, rfl, h1, h2, rfl⟩ := counted_iff.mp ha
    exact ⟨d ++ a, r, by simp, by simp, .bytes h1 h2⟩
  split at h
  · rename_i ht
    subst ht
    obtain ⟨a, ha, hl⟩ := skipped_inv h
    unfold decodeInt32 at ha
    split at ha
    · cases ha
    · cases ha
      exact ⟨b.take 4, b.drop 4, (List.take_append_drop _ _).symm, by rw [List.length_take]; omega, .four (by rw [List.length_take]; omega)⟩
  · cases h

theorem consumeAny_of {typ : Nat} {p r : Bytes} (h : Skippable typ p) : consumeAny typ (p ++ r) = .ok p.length () := by
  unfold consumeAny
  cases h with
  | varint h =>
    obtain ⟨i, hi⟩ := number_varint (r := r) h
    rw [if_pos (by decide), hi]
    exact skipped_of (by simp)
  | eight h =>
    rw [if_neg (by decide), if_pos (by decide)]
    unfold decodeInt64
    rw [if_neg (by rw [List.length_append]; omega), h]
    exact skipped_of (by rw [List.length_append]; omega)
  | bytes h1 h2 =>
    rename_i d s
    rw [if_neg (by decide), if_neg (by decide), if_pos (by decide)]
    have hc : Counted s (d.length + s.length) ((d ++ s) ++ r) := ⟨d, r, by simp, h1, h2, rfl⟩
    rw [counted_iff.mpr hc, List.length_append]
    exact skipped_of (counted_within hc).1
  | four h =>
    rw [if_neg (by decide), if_neg (by decide), if_neg (by decide), if_pos (by decide)]
    unfold decodeInt32
    rw [if_neg (by rw [List.length_append]; omega), h]
    exact skipped_of (by rw [List.length_append]; omega)

theorem consumeRest_inv {k last n m : Nat} {b : Bytes} (h : consumeRest k last b n = .ok m ()) : Unknown last b ∧ m = n + b.length := by
  induction k generalizing last n b with
  | zero =>
    cases b with
    | nil => cases h; exact ⟨.nil, rfl⟩
    | cons => cases h
  | succ k ih =>
    cases b with
    | nil => cases h; exact ⟨.nil, rfl⟩
    | cons x xs =>
      rw [consumeRest] at h
      obtain ⟨j, ⟨num, typ⟩, hk, hj, h⟩ := andSlide_inv h
      obtain ⟨key, r, hb, rfl, hk'⟩ := key_iff.mp hk
      rw [hb] at h ⊢
      simp only at h
      split at h
      · cases h
      rename_i hlt
      obtain ⟨j', _, hc, hj', h⟩ := andSlide_inv h
      rw [List.drop_left] at hc hj' h
      obtain ⟨p, r', rfl, rfl, hp⟩ := consumeAny_inv hc
      rw [List.drop_left] at h
      obtain ⟨h1, h2⟩ := ih h
      refine ⟨.cons hk' (by omega) hp h1, ?_⟩
      simp only [List.length_append]; omega
      all_goals simp

theorem unknown_shrinks {typ : Nat} {p : Bytes} (h : Skippable typ p) : 0 < p.length := by
  cases h with
  | varint h => exact number_pos h
  | eight h => omega
  | bytes h => have := number_pos h; simp; omega
  | four h => omega

theorem consumeRest_of {last : Nat} {b : Bytes} (h : Unknown last b) : ∀ (k n : Nat), b.length ≤ k →
    consumeRest k last b n = .ok (n + b.length) () := by
  induction h with
  | nil => intro k n _; cases k <;> rfl
  | @cons last num typ key p r hk hl hp hr ih =>
    intro k n hle
    have := key_pos hk
    have := unknown_shrinks hp
    cases k with
    | zero => simp only [List.length_append] at hle; omega
    | succ k =>
      obtain ⟨x, xs, hx⟩ : ∃ x xs, key ++ (p ++ r) = x :: xs := by
        cases key with
        | nil => simp at this
        | cons x xs => exact ⟨_, _, rfl⟩
      rw [hx, consumeRest, ← hx, key_of hk, andSlide_of _ (by simp)]
      · simp only
        rw [if_neg (by omega), List.drop_left, consumeAny_of hp, andSlide_of _ (by simp), List.drop_left, ih k _ (by simp only [List.length_append] at hle; omega)]
        simp only [List.length_append]
        congr 1
        omega
      all_goals simp

/-! ## Times -/

theorem secs_iff {b : Bytes} {n : Nat} {s : Int} (hb : b ≠ []) : decodeSeconds b = .ok n s ↔ ∃ r, Secs b r s ∧ n + r.length = b.length := by
  constructor
  · intro h
    unfold decodeSeconds at h
    cases hk : decodeKey b with
    | ok m ft =>
      obtain ⟨num, typ⟩ := ft
      rw [hk] at h
      simp only at h
      obtain ⟨key, r, rfl, rfl, hk'⟩ := key_iff.mp hk
      split at h
      · rename_i hft
        obtain ⟨rfl, rfl⟩ := hft
        obtain ⟨hj, h⟩ := slideThen_inv h
        rw [List.drop_left] at h
        obtain ⟨j, u, hu, hj', h⟩ := andSlide_inv h
        obtain ⟨d, r', rfl, rfl, hd⟩ := number_iff.mp hu
        split at h
        · cases h
        rename_i hr
        cases h
        unfold minSeconds maxSeconds at hr
        refine ⟨r',   .some hk' hd rfl ?_ ?_, by simp; omega⟩
        · show _ ≤ intOfU64 u
          omega
        · show intOfU64 u < _
          omega
      · split at h
        · rename_i hft
          obtain ⟨rfl, rfl⟩ := hft
          cases h
          exact ⟨_,   .nanosFirst hk', by simp⟩
        · cases h
    | err | panic | oof => rw [hk] at h; cases h
  · rintro ⟨r, h, hn⟩
    unfold decodeSeconds
    cases h with
    | none => exact absurd rfl hb
    | nanosFirst hk =>
      rw [key_of hk]
      simp only
      rw [if_neg (by decide), if_pos (by decide)]
      congr 1
      omega
    | @some key d r v s hk hd hs h1 h2 =>
      rw [key_of hk]
      simp only
      rw [if_pos (by decide), slideThen_of _ (by simp), List.drop_left, number_of hd, andSlide_of _ (by simp)]
      rw [intOfU64_ofNat hd.2.2, ← hs]
      unfold minSeconds maxSeconds
      rw [if_neg (by omega)]
      congr 1
      simp at hn; omega

theorem nanos_iff {b : Bytes} {m n : Nat} {s : Int} (hb : b ≠ []) : decodeNanos b m = .ok n s ↔ ∃ r, Nanos b r s ∧ n + r.length = m + b.length := by
  constructor
  · intro h
    unfold decodeNanos at h
    cases hk : decodeKey b with
    | ok j ft =>
      obtain ⟨num, typ⟩ := ft
      rw [hk] at h
      simp only at h
      obtain ⟨key, r, rfl, rfl, hk'⟩ := key_iff.mp hk
      split at h
      · rename_i hft
        obtain ⟨rfl, rfl⟩ := hft
        obtain ⟨hj, h⟩ := slideThen_inv h
        rw [List.drop_left] at h
        obtain ⟨j, u, hu, hj', h⟩ := andSlide_inv h
        obtain ⟨d, r', rfl, rfl, hd⟩ := number_iff.mp hu
        split at h
        · cases h
        rename_i hr
        cases h
        unfold maxNanos at hr
        exact ⟨r', .some hk' hd (by omega), by simp; omega⟩
      · rename_i hft
        cases h
        exact ⟨_,   .other hk' hft, rfl⟩
    | err | panic | oof => rw [hk] at h; cases h
  · rintro ⟨r, h, hn⟩
    unfold decodeNanos
    cases h with
    | none => exact absurd rfl hb
    | other hk ho =>
      rw [key_of hk]
      simp only
      rw [if_neg (show ¬ (_ = 2 ∧ _ = typ3Varint) from ho)]
      congr 1
      omega
    | @some key d r v hk hd hv =>
      rw [key_of hk]
      simp only
      rw [if_pos (by decide), slideThen_of _ (by simp), List.drop_left, number_of hd, andSlide_of _ (by simp)]
      rw [ofNat_toNat_lt hd.2.2]
      unfold maxNanos
      rw [if_neg (by omega)]
      congr 1
      simp at hn; omega

theorem secs_suffix {b r : Bytes} {s : Int} (h : Secs b r s) : ∃ p, b = p ++ r := by
  cases h with
  | none => exact ⟨[], rfl⟩
  | nanosFirst => exact ⟨[], rfl⟩
  | some => exact ⟨_, (List.append_assoc _ _ _).symm⟩

theorem nanos_suffix {b r : Bytes} {s : Int} (h : Nanos b r s) : ∃ p, b = p ++ r := by
  cases h with
  | none => exact ⟨[], rfl⟩
  | other => exact ⟨[], rfl⟩
  | some => exact ⟨_, (List.append_assoc _ _ _).symm⟩

theorem time_iff {b : Bytes} {n : Nat} {p : Int × Int} : decodeTime b = .ok n p ↔ TimeText b n p.1 p.2 := by
  have hsec : ∀ n s, (if b.length > 0 then decodeSeconds b else .ok 0 0) = DRes.ok n s ↔ ∃ r, Secs b r s ∧ n + r.length = b.length := by
    intro n s
    cases b with
    | nil =>
      simp only [List.length_nil, gt_iff_lt, Nat.lt_irrefl, if_false]
      constructor
      · intro h; cases h; exact ⟨[], .none, rfl⟩
      · rintro ⟨r, h, hn⟩
        generalize hx : ([] : Bytes) = x at h
        cases h with
        | none => simp at hn; rw [hn]
        | nanosFirst hk => have := key_pos hk; have h2 := congrArg List.length hx; simp at h2; omega
        | some hk => have := key_pos hk; have h2 := congrArg List.length hx; simp at h2; omega
    | cons x xs =>
      rw [if_pos (by simp)]
      exact secs_iff (by simp)
  have hnan : ∀ (b : Bytes) (m n : Nat) (s : Int) , (if b.length > 0 then decodeNanos b m else .ok m 0) = DRes.ok n s ↔
      ∃ r, Nanos b r s ∧ n + r.length = m + b.length := by
    intro b m n s
    cases b with
    | nil =>
      simp only [List.length_nil, gt_iff_lt, Nat.lt_irrefl, if_false]
      constructor
      · intro h; cases h; exact ⟨[], .none, rfl⟩
      · rintro ⟨r, h, hn⟩
        generalize hx : ([] : Bytes) = x at h
        cases h with
        | none => simp at hn; rw [hn]
        | other hk => have := key_pos hk; have h2 := congrArg List.length hx; simp at h2; omega
        | some hk => have := key_pos hk; have h2 := congrArg List.length hx; simp at h2; omega
    | cons x xs =>
      rw [if_pos (by simp)]
      exact nanos_iff (by simp)
  unfold decodeTime
  constructor
  · intro h
    obtain ⟨j, s, hs, hj, h⟩ := andSlide_inv h
    obtain ⟨r, hs', hr⟩ := (hsec _ _).mp hs
    obtain ⟨q, rfl⟩ := secs_suffix hs'
    have hjq : j = q.length := by simp at hr; omega
    subst hjq
    rw [List.drop_left] at h
    have h' : ∃ ns, (if r.length > 0 then decodeNanos r (0 + q.length) else .ok (0 + q.length) 0) = .ok n ns ∧ p = (s, ns) := by
      split at h
      · obtain ⟨ns, h1, h2⟩ := map_inv h
        rename_i hl
        exact ⟨ns, by rw [if_pos hl]; exact h1, h2⟩
      · rename_i hl
        cases h
        exact ⟨0, by rw [if_neg hl], rfl⟩
    obtain ⟨ns, h1, rfl⟩ := h'
    obtain ⟨r', h2, h3⟩ := (hnan _ _ _ _).mp h1
    exact ⟨r, r', hs', h2, by simp at h3 ⊢; omega⟩
  · rintro ⟨r, r', hs, hn, hl⟩
    obtain ⟨q, rfl⟩ := secs_suffix hs
    rw [(hsec q.length p.1).mpr ⟨r, hs, by simp⟩, andSlide_of _ (by simp), List.drop_left]
    have h2 := (hnan r (0 + q.length) n p.2).mpr ⟨r', hn, by simp at hl ⊢; omega⟩
    split
    · rename_i hlt
      rw [if_pos hlt] at h2
      rw [h2]; rfl
    · rename_i hlt
      rw [if_neg hlt] at h2
      injection h2 with h3 h4
      rw [← h3, h4]

theorem time_within {b : Bytes} {n : Nat} {s ns : Int} (h : TimeText b n s ns) : n ≤ b.length := by
  obtain ⟨r, r', _, _, h⟩ := h
  omega

end Amino
