import Verif.SpecScan
import Verif.PropsScan
import Verif.BReadPrim

/-!
# C53, C58: how every scan ends
-/

namespace Amino

open Spec

theorem uvarint_number {u : Nat} {k : Bytes} (h : Number u k) (r : Bytes) :
    uvarint (k ++ r) = (UInt64.ofNat u, (k.length : Int)) := by
  rw [uvarint_eq, readVarint_app h.1]
  simp only
  rw [if_pos h.2]

theorem uvarint_tooLong {d : Bytes} (h : TooLong d) (r : Bytes) : uvarint (d ++ r) = (0, -(d.length : Int)) ∧ 0 < d.length := by
  obtain ⟨v, h1, h2⟩ := h
  rw [uvarint_eq, readVarint_app h1]
  simp only
  rw [if_neg h2]
  exact ⟨rfl, (readVarint_len h1).1⟩

/-- What a byte string begins with. -/
theorem number_cases (b : Bytes) : Unended b ∨ (∃ v d r, b = d ++ r ∧ Number v d) ∨ ∃ d r, b = d ++ r ∧ TooLong d := by
  cases h : readVarint b with
  | none =>
    left
    rcases uvarint_cases b with ⟨_, h1, _⟩ | ⟨h1, _⟩ | ⟨h1, _⟩
    · exact h1
    · rw [uvarint_eq, h] at h1; exact absurd h1 (by decide)
    · rw [uvarint_eq, h] at h1; exact absurd h1 (by decide)
  | some p =>
    obtain ⟨v, n⟩ := p
    obtain ⟨d, r, rfl, rfl, h1⟩ := readVarint_split.mp h
    right
    by_cases hd : d.length ≤ 10 ∧ v < 2 ^ 64
    · exact .inl ⟨v, d, r, rfl, h1, hd⟩
    · exact .inr ⟨d, r, rfl, v, h1, hd⟩

theorem key_number {u : Nat} {k : Bytes} (h : Number u k) (r : Bytes) : scanFieldKey (k ++ r) = (k.length, u % 8, false) := by
  have h0 : ¬ ((k.length : Int) < 0) := by omega
  rw [scanFieldKey, uvarint_number h]
  simp only [h0, if_false, Int.toNat_natCast, Prod.mk.injEq, and_true, true_and]
  rw [UInt64.toNat_and, UInt64.toNat_ofNat', show (7 : UInt64).toNat = 2 ^ 3 - 1 by decide, Nat.and_two_pow_sub_one_eq_mod]
  omega

/-- A round of the loop behind a key. -/
theorem scanLoop_key {u : Nat} {k : Bytes} (h : Number u k) (r : Bytes) (fuel n : Nat) :
    scanLoop true (fuel + 1) (k ++ r) n = match scanAny (u % 8) r with
      | .panic => .panic
      | .running => .running
      | .ret m err => if err then .ret (n + k.length + m) true else scanLoop true fuel (r.drop m) (n + k.length + m) := by
  have hne : (k ++ r).isEmpty = false := by
    have := number_pos h
    cases k with
    | nil => simp at this
    | cons _ _ => rfl
  rw [scanLoop, key_number h]
  simp only [hne, Bool.and_false, Bool.false_eq_true, if_false, List.drop_left]
  cases scanAny (u % 8) r <;> rfl

theorem intOf_small {v : Nat} (h : v < 2 ^ 63) : intOf (UInt64.ofNat v) = (v : Int) := by
  have : (UInt64.ofNat v).toNat = v := by rw [UInt64.toNat_ofNat']; omega
  rw [intOf, this, if_pos h]

theorem intOf_big {v : Nat} (h : v < 2 ^ 64) (h2 : 2 ^ 63 ≤ v) : intOf (UInt64.ofNat v) < 0 := by
  have : (UInt64.ofNat v).toNat = v := by rw [UInt64.toNat_ofNat']; omega
  rw [intOf, this, if_neg (by omega)]
  omega

theorem scanByteLength_number {v : Nat} {d : Bytes} (h : Number v d) (r : Bytes) : scanByteLength (d ++ r) =
    if 2 ^ 63 ≤ v then .panic else if d.length + r.length ≤ v then .ret 0 true
    else if r.length < v then .panic else .ret (d.length + v) false := by
  have hl := number_pos h
  have h0 : ¬ ((d.length : Int) < 0) := by omega
  unfold scanByteLength
  rw [uvarint_number h]
  simp only [h0, if_false, Int.toNat_natCast, List.drop_left]
  by_cases hb : 2 ^ 63 ≤ v
  · have hi := intOf_big h.2.2 hb
    rw [if_pos hb, if_neg (by simp only [List.length_append]; omega), if_pos hi]
  · rw [if_neg hb, intOf_small (by omega)]
    by_cases h1 : d.length + r.length ≤ v
    · rw [if_pos h1, if_pos (by simp only [List.length_append]; omega)]
    · rw [if_neg h1, if_neg (by simp only [List.length_append]; omega), if_neg (by omega), Int.toNat_natCast]

theorem scanVarint_number {v : Nat} {d : Bytes} (h : Number v d) (r : Bytes) : scanVarint (d ++ r) = .ret d.length false := by
  have hl := number_pos h
  have hne : (d ++ r).isEmpty = false := by
    cases d with
    | nil => simp at hl
    | cons _ _ => rfl
  have h0 : ¬ ((d.length : Int) ≤ 0) := by omega
  simp only [scanVarint, uvarint_number h, if_neg h0, hne]
  simp

theorem scanVarint_long {d : Bytes} (h : TooLong d) (r : Bytes) : scanVarint (d ++ r) = .ret 0 true := by
  obtain ⟨h1, h2⟩ := uvarint_tooLong h r
  have h3 : (-(d.length : Int)) ≤ 0 := by omega
  have h4 : (0 : Int) ≠ -(d.length : Int) := by omega
  simp only [scanVarint, h1, if_pos h3, if_pos h4]
  simp

theorem scanByteLength_long {d : Bytes} (h : TooLong d) (r : Bytes) : scanByteLength (d ++ r) = .panic := by
  obtain ⟨h1, h2⟩ := uvarint_tooLong h r
  have h3 : (-(d.length : Int)) < 0 := by omega
  have h4 : intOf 0 = 0 := by decide
  have h5 : ¬ ((0 : Int) ≥ ((d ++ r).length : Int)) := by rw [List.length_append]; omega
  simp only [scanByteLength, h1, h4, if_neg h5, if_pos h3]

theorem scanByteLength_open {r : Bytes} (hn : r ≠ []) (h : Unended r) : scanByteLength r = .ret 0 false := by
  have hl : 0 < r.length := List.length_pos_iff.mpr hn
  have h4 : intOf 0 = 0 := by decide
  have h5 : ¬ ((0 : Int) ≥ (r.length : Int)) := by omega
  simp only [scanByteLength, uvarint_open h, h4, if_neg h5]
  simp

theorem scanVarint_open {r : Bytes} (hn : r ≠ []) (h : Unended r) : scanVarint r = .ret 0 false := by
  simp [scanVarint, uvarint_open h, hn]

theorem scanAny_0 (bz : Bytes) : scanAny 0 bz = scanVarint bz := rfl
theorem scanAny_1 (bz : Bytes) : scanAny 1 bz = scanFixed 8 bz := rfl
theorem scanAny_2 (bz : Bytes) : scanAny 2 bz = scanByteLength bz := rfl
theorem scanAny_5 (bz : Bytes) : scanAny 5 bz = scanFixed 4 bz := rfl

theorem scanLoop_field {f : Bytes} (h : ScanField f) (r : Bytes) (fuel n : Nat) :
    scanLoop true (fuel + 1) (f ++ r) n = scanLoop true fuel r (n + f.length) := by
  cases h with
  | varint h1 h2 h3 =>
    rw [List.append_assoc, scanLoop_key h1, h2, scanAny_0, scanVarint_number h3]
    simp [Nat.add_assoc]
  | @fixed64 u k p h1 h2 h3 =>
    rw [List.append_assoc, scanLoop_key h1, h2, scanAny_1, scanFixed, if_neg (by rw [List.length_append]; omega)]
    simp only [Bool.false_eq_true, if_false, ← h3, List.drop_left, List.length_append, Nat.add_assoc]
  | @bytes u k d s h1 h2 h3 h4 =>
    rw [List.append_assoc, List.append_assoc, scanLoop_key h1, h2, scanAny_2, scanByteLength_number h3, if_neg (by omega), if_neg (by
      have := number_pos h3; rw [List.length_append]; omega), if_neg (by rw [List.length_append]; omega)]
    simp only [Bool.false_eq_true, if_false, List.length_append, Nat.add_assoc]
    rw [← List.append_assoc, ← List.length_append, List.drop_left, List.length_append]
  | @fixed32 u k p h1 h2 h3 =>
    rw [List.append_assoc, scanLoop_key h1, h2, scanAny_5, scanFixed, if_neg (by rw [List.length_append]; omega)]
    simp only [Bool.false_eq_true, if_false, ← h3, List.drop_left, List.length_append, Nat.add_assoc]

theorem scanLoop_fields {p : Bytes} (h : ScanFields p) : ∃ k, ∀ r fuel n,
    scanLoop true (fuel + k) (p ++ r) n = scanLoop true fuel r (n + p.length) := by
  induction h with
  | nil => exact ⟨0, fun r fuel n => rfl⟩
  | @cons f q hf _ ih =>
    obtain ⟨k, ih⟩ := ih
    refine ⟨k + 1, fun r fuel n => ?_⟩
    rw [List.append_assoc, show fuel + (k + 1) = (fuel + k) + 1 by omega, scanLoop_field hf, ih, List.length_append, Nat.add_assoc]

theorem scanLoop_stuck {r : Bytes} (h : ScanStuck r) (fuel n : Nat) : scanLoop true fuel r n = .running := by
  cases h with
  | key hn h => exact scanLoop_open hn h fuel n
  | @number u k r h1 h2 hn h =>
    cases fuel with
    | zero => rfl
    | succ fuel =>
      rw [scanLoop_key h1]
      rcases h2 with h2 | h2
      · rw [h2, scanAny_0, scanVarint_open hn h]
        exact scanLoop_open hn h fuel _
      · rw [h2, scanAny_2, scanByteLength_open hn h]
        exact scanLoop_open hn h fuel _

theorem scanLoop_broken {r : Bytes} (h : ScanBroken r) (fuel n : Nat) :
    ∃ m, scanLoop true (fuel + 1) r n = .ret (n + m) true := by
  cases h with
  | @key d r h =>
    obtain ⟨h1, h2⟩ := uvarint_tooLong h r
    have h3 : (-(d.length : Int)) < 0 := by omega
    have hne : (d ++ r).isEmpty = false := by
      cases d with
      | nil => simp at h2
      | cons _ _ => rfl
    refine ⟨0, ?_⟩
    rw [scanLoop, scanFieldKey, h1]
    simp only [if_pos h3, hne, Bool.and_false, Bool.false_eq_true, if_false, if_true]
  | @ended u k h1 h2 =>
    refine ⟨r.length, ?_⟩
    have := scanLoop_key h1 [] fuel n
    rw [List.append_nil] at this
    rw [this]
    rcases h2 with h2 | h2 <;> rw [h2] <;> rfl
  | @number u k d r h1 h2 h3 =>
    refine ⟨k.length, ?_⟩
    rw [scanLoop_key h1, h2, scanAny_0, scanVarint_long h3]
    rfl
  | @fixed64 u k r h1 h2 h3 =>
    refine ⟨k.length, ?_⟩
    rw [scanLoop_key h1, h2, scanAny_1, scanFixed, if_pos h3]
    rfl
  | @fixed32 u k r h1 h2 h3 =>
    refine ⟨k.length, ?_⟩
    rw [scanLoop_key h1, h2, scanAny_5, scanFixed, if_pos h3]
    rfl
  | @bytes u v k d r h1 h2 h3 h4 h5 =>
    refine ⟨k.length, ?_⟩
    rw [scanLoop_key h1, h2, scanAny_2, scanByteLength_number h3, if_neg (by omega), if_pos h5]
    rfl

theorem scanLoop_crash {r : Bytes} (h : ScanCrash r) (fuel n : Nat) : scanLoop true (fuel + 1) r n = .panic := by
  cases h with
  | @typ u k r h1 h2 =>
    rw [scanLoop_key h1]
    rcases h2 with h2 | h2 | h2 | h2 <;> rw [h2] <;> rfl
  | @long u k d r h1 h2 h3 => rw [scanLoop_key h1, h2, scanAny_2, scanByteLength_long h3]
  | @huge u v k d r h1 h2 h3 h4 => rw [scanLoop_key h1, h2, scanAny_2, scanByteLength_number h3, if_pos h4]
  | @short u v k d r h1 h2 h3 h4 h5 =>
    rw [scanLoop_key h1, h2, scanAny_2, scanByteLength_number h3]
    by_cases hb : 2 ^ 63 ≤ v
    · rw [if_pos hb]
    · rw [if_neg hb, if_neg (by omega), if_pos h4]

/-- What may come next. -/
theorem scan_next (b : Bytes) : b = [] ∨ ScanStuck b ∨ ScanBroken b ∨ ScanCrash b ∨ ∃ f r, b = f ++ r ∧ ScanField f := by
  by_cases hb : b = []
  · exact .inl hb
  right
  rcases number_cases b with h | ⟨u, k, r, rfl, h⟩ | ⟨d, r, rfl, h⟩
  · exact .inl (.key hb h)
  · have ht : u % 8 < 8 := Nat.mod_lt _ (by decide)
    have e : ∀ i, u % 8 = i → i = 0 ∨ i = 1 ∨ i = 2 ∨ i = 3 ∨ i = 4 ∨ i = 5 ∨ i = 6 ∨ i = 7 := by omega
    rcases e _ rfl with e | e | e | e | e | e | e | e
    · rcases number_cases r with h2 | ⟨v, d, r, rfl, h2⟩ | ⟨d, r, rfl, h2⟩
      · by_cases hr : r = []
        · subst hr; rw [List.append_nil]; exact .inr (.inl (.ended h (.inl e)))
        · exact .inl (.number h (.inl e) hr h2)
      · exact .inr (.inr (.inr ⟨k ++ d, r, (List.append_assoc ..).symm, .varint h e h2⟩))
      · exact .inr (.inl (.number h e h2))
    · by_cases hr : r.length < 8
      · exact .inr (.inl (.fixed64 h e hr))
      · exact .inr (.inr (.inr ⟨k ++ r.take 8, r.drop 8, by rw [List.append_assoc, List.take_append_drop],
          .fixed64 h e (by rw [List.length_take]; omega)⟩))
    · rcases number_cases r with h2 | ⟨v, d, r, rfl, h2⟩ | ⟨d, r, rfl, h2⟩
      · by_cases hr : r = []
        · subst hr; rw [List.append_nil]; exact .inr (.inl (.ended h (.inr e)))
        · exact .inl (.number h (.inr e) hr h2)
      · by_cases h3 : 2 ^ 63 ≤ v
        · exact .inr (.inr (.inl (.huge h e h2 h3)))
        · by_cases h4 : d.length + r.length ≤ v
          · exact .inr (.inl (.bytes h e h2 (by omega) h4))
          · by_cases h5 : r.length < v
            · exact .inr (.inr (.inl (.short h e h2 h5 (by omega))))
            · have hl : (r.take v).length = v := by rw [List.length_take]; omega
              exact .inr (.inr (.inr ⟨k ++ (d ++ r.take v), r.drop v, by
                rw [List.append_assoc, List.append_assoc, List.take_append_drop], .bytes h e (by rw [hl]; exact h2) (by omega)⟩))
      · exact .inr (.inr (.inl (.long h e h2)))
    · exact .inr (.inr (.inl (.typ h (.inl e))))
    · exact .inr (.inr (.inl (.typ h (.inr (.inl e)))))
    · by_cases hr : r.length < 4
      · exact .inr (.inl (.fixed32 h e hr))
      · exact .inr (.inr (.inr ⟨k ++ r.take 4, r.drop 4, by rw [List.append_assoc, List.take_append_drop],
          .fixed32 h e (by rw [List.length_take]; omega)⟩))
    · exact .inr (.inr (.inl (.typ h (.inr (.inr (.inl e))))))
    · exact .inr (.inr (.inl (.typ h (.inr (.inr (.inr e))))))
  · exact .inr (.inl (.key h))

theorem scanField_pos {f : Bytes} (h : ScanField f) : 0 < f.length := by
  cases h with
  | varint h _ _ => have := number_pos h; rw [List.length_append]; omega
  | fixed64 h _ _ => have := number_pos h; rw [List.length_append]; omega
  | bytes h _ _ _ => have := number_pos h; rw [List.length_append]; omega
  | fixed32 h _ _ => have := number_pos h; rw [List.length_append]; omega

/-- Every input is complete fields, and then one of the four ends. -/
theorem scan_split (b : Bytes) : ∃ p r, b = p ++ r ∧ ScanFields p ∧ (r = [] ∨ ScanStuck r ∨ ScanBroken r ∨ ScanCrash r) := by
  induction hn : b.length using Nat.strongRecOn generalizing b with
  | ind n ih =>
    subst hn
    rcases scan_next b with h | h | h | h | ⟨f, r, rfl, hf⟩
    · exact ⟨[], b, rfl, .nil, .inl h⟩
    · exact ⟨[], b, rfl, .nil, .inr (.inl h)⟩
    · exact ⟨[], b, rfl, .nil, .inr (.inr (.inl h))⟩
    · exact ⟨[], b, rfl, .nil, .inr (.inr (.inr h))⟩
    · obtain ⟨p, q, rfl, hp, hq⟩ := ih r.length (by have := scanField_pos hf; rw [List.length_append]; omega) r rfl
      exact ⟨f ++ p, q, (List.append_assoc ..).symm, .cons hf hp, hq⟩

/-- More rounds do not change the result. -/
theorem scanLoop_more {fuel : Nat} {b : Bytes} {n : Nat} {x : Scan} (h : scanLoop true fuel b n = x) (hx : x ≠ .running) (j : Nat) :
    scanLoop true (fuel + j) b n = x := by
  induction fuel generalizing b n with
  | zero => exact absurd h.symm hx
  | succ fuel ih =>
    rw [show fuel + 1 + j = (fuel + j) + 1 by omega]
    rw [scanLoop] at h ⊢
    split
    · rename_i hc; rw [if_pos hc] at h; exact h
    · rename_i hc
      rw [if_neg hc] at h
      simp only at h ⊢
      split
      · rename_i he; rw [if_pos he] at h; exact h
      · rename_i he
        rw [if_neg he] at h
        cases hs : scanAny (scanFieldKey b).2.1 (b.drop (scanFieldKey b).1) with
        | panic => rw [hs] at h; exact h
        | running => rw [hs] at h; exact h
        | ret m err =>
          rw [hs] at h
          simp only at h ⊢
          split
          · rename_i he; rw [if_pos he] at h; exact h
          · rename_i he; rw [if_neg he] at h; exact ih h

theorem scan_once {f g : Nat} {b : Bytes} {x y : Scan} (h : scanStruct f b = x) (h2 : scanStruct g b = y) (hx : x ≠ .running)
    (hy : y ≠ .running) : x = y := by
  have h3 := scanLoop_more h hx g
  have h4 := scanLoop_more h2 hy f
  rw [Nat.add_comm, h4] at h3
  exact h3.symm

/-- C53, C58, exactly: a scan ends without error on sequences of complete fields, with an error, with a panic, or never, if
what is left behind complete fields is as described in `SpecScan`; there is no other case. -/
theorem C58_exact_partial (bz : Bytes) :
    ((∃ fuel n, scanStruct fuel bz = .ret n false) ↔ ScanFields bz) ∧
    ((∃ fuel n, scanStruct fuel bz = .ret n true) ↔ ∃ p r, bz = p ++ r ∧ ScanFields p ∧ ScanBroken r) ∧
    ((∃ fuel, scanStruct fuel bz = .panic) ↔ ∃ p r, bz = p ++ r ∧ ScanFields p ∧ ScanCrash r) ∧
    ((∀ fuel, scanStruct fuel bz = .running) ↔ ∃ p r, bz = p ++ r ∧ ScanFields p ∧ ScanStuck r) := by
  have f1 : ∀ {b}, ScanFields b → ∃ fuel n, scanStruct fuel b = .ret n false := by
    intro b h
    obtain ⟨k, h⟩ := scanLoop_fields h
    refine ⟨1 + k, 0 + b.length, ?_⟩
    have := h [] 1 0
    rw [List.append_nil] at this
    exact this
  have f2 : ∀ {p r}, ScanFields p → ScanBroken r → ∃ fuel n, scanStruct fuel (p ++ r) = .ret n true := by
    intro p r h hr
    obtain ⟨k, h⟩ := scanLoop_fields h
    obtain ⟨m, hm⟩ := scanLoop_broken hr 0 (0 + p.length)
    exact ⟨0 + 1 + k, _, (h r (0 + 1) 0).trans hm⟩
  have f3 : ∀ {p r}, ScanFields p → ScanCrash r → ∃ fuel, scanStruct fuel (p ++ r) = .panic := by
    intro p r h hr
    obtain ⟨k, h⟩ := scanLoop_fields h
    exact ⟨0 + 1 + k, (h r (0 + 1) 0).trans (scanLoop_crash hr 0 _)⟩
  have f4 : ∀ {p r}, ScanFields p → ScanStuck r → ∀ fuel, scanStruct fuel (p ++ r) = .running := by
    intro p r h hr fuel
    obtain ⟨k, h⟩ := scanLoop_fields h
    cases hx : scanStruct fuel (p ++ r) with
    | running => rfl
    | panic =>
      have := scanLoop_more hx (by simp) k
      rw [h, scanLoop_stuck hr] at this; cases this
    | ret n e =>
      have := scanLoop_more hx (by simp) k
      rw [h, scanLoop_stuck hr] at this; cases this
  obtain ⟨p, r, rfl, hp, hr⟩ := scan_split bz
  have all : (∃ n fuel, scanStruct fuel (p ++ r) = .ret n false) ∧ ScanFields (p ++ r) ∨
      (∃ n fuel, scanStruct fuel (p ++ r) = .ret n true) ∧ ScanBroken r ∨
      (∃ fuel, scanStruct fuel (p ++ r) = .panic) ∧ ScanCrash r ∨ (∀ fuel, scanStruct fuel (p ++ r) = .running) ∧ ScanStuck r := by
    rcases hr with rfl | hr | hr | hr
    · rw [List.append_nil]
      obtain ⟨f, n, h⟩ := f1 hp
      exact .inl ⟨⟨n, f, h⟩, hp⟩
    · exact .inr (.inr (.inr ⟨f4 hp hr, hr⟩))
    · obtain ⟨f, n, h⟩ := f2 hp hr
      exact .inr (.inl ⟨⟨n, f, h⟩, hr⟩)
    · exact .inr (.inr (.inl ⟨f3 hp hr, hr⟩))
  refine ⟨⟨?_, f1⟩, ⟨?_, ?_⟩, ⟨?_, ?_⟩, ⟨?_, ?_⟩⟩
  · rintro ⟨f, n, h⟩
    rcases all with ⟨_, h1⟩ | ⟨⟨n', f', h1⟩, _⟩ | ⟨⟨f', h1⟩, _⟩ | ⟨h1, _⟩
    · exact h1
    · cases scan_once h h1 (by simp) (by simp)
    · cases scan_once h h1 (by simp) (by simp)
    · rw [h1] at h; cases h
  · rintro ⟨f, n, h⟩
    rcases all with ⟨⟨n', f', h1⟩, _⟩ | ⟨_, h1⟩ | ⟨⟨f', h1⟩, _⟩ | ⟨h1, _⟩
    · cases scan_once h h1 (by simp) (by simp)
    · exact ⟨p, r, rfl, hp, h1⟩
    · cases scan_once h h1 (by simp) (by simp)
    · rw [h1] at h; cases h
  · rintro ⟨p', r', e, h1, h2⟩
    rw [e]; exact f2 h1 h2
  · rintro ⟨f, h⟩
    rcases all with ⟨⟨n', f', h1⟩, _⟩ | ⟨⟨n', f', h1⟩, _⟩ | ⟨_, h1⟩ | ⟨h1, _⟩
    · cases scan_once h h1 (by simp) (by simp)
    · cases scan_once h h1 (by simp) (by simp)
    · exact ⟨p, r, rfl, hp, h1⟩
    · rw [h1] at h; cases h
  · rintro ⟨p', r', e, h1, h2⟩
    rw [e]; exact f3 h1 h2
  · intro h
    rcases all with ⟨⟨n', f', h1⟩, _⟩ | ⟨⟨n', f', h1⟩, _⟩ | ⟨⟨f', h1⟩, _⟩ | ⟨_, h1⟩
    · rw [h] at h1; cases h1
    · rw [h] at h1; cases h1
    · rw [h] at h1; cases h1
    · exact ⟨p, r, rfl, hp, h1⟩
  · rintro ⟨p', r', e, h1, h2⟩
    rw [e]; exact f4 h1 h2

/-- C58: if there is no error, all bytes are counted. -/
theorem C58_end {fuel n : Nat} {bz : Bytes} (h : scanStruct fuel bz = .ret n false) : n = bz.length := by
  obtain ⟨k, h1⟩ := scanLoop_fields ((C58_exact_partial bz).1.1 ⟨fuel, n, h⟩)
  have h2 : scanStruct (1 + k) bz = .ret (0 + bz.length) false := by
    have := h1 [] 1 0
    rw [List.append_nil] at this
    exact this
  have := scan_once h h2 (by simp) (by simp)
  simp only [Scan.ret.injEq] at this
  omega

/-! ## Examples -/

theorem number_digit {b : UInt8} (h : b.toNat < 128) : Number b.toNat [b] := by
  refine ⟨?_, by simp, by omega⟩
  simp [readVarint, h]

/-- `08 81 00 3a 01 61`: field 1 with a superfluous digit, and the string "a" in field 7. -/
example : ScanFields [0x08, 0x81, 0x00, 0x3a, 0x01, 0x61] :=
  .cons (f := [0x08] ++ [0x81, 0x00]) (.varint (v := 1) (number_digit (by decide)) (by decide) ⟨by decide, by decide, by decide⟩)
    (.cons (f := [0x3a] ++ ([0x01] ++ [0x61])) (.bytes (number_digit (by decide)) (by decide) (number_digit (b := 1) (by decide)) (by decide)) .nil)

/-- `08`, `0a 02 61`: the value is missing, the string is too short. -/
example : ScanBroken [0x08] ∧ ScanBroken [0x0a, 0x02, 0x61] :=
  ⟨.ended (number_digit (by decide)) (.inl (by decide)),
    .bytes (k := [0x0a]) (d := [0x02]) (r := [0x61]) (number_digit (by decide)) (by decide) (number_digit (b := 2) (by decide)) (by decide) (by decide)⟩

/-- `0b`, `0a 82 00 61`: wire type 3, two bytes announced and one there behind a count of two digits. -/
example : ScanCrash [0x0b] ∧ ScanCrash [0x0a, 0x82, 0x00, 0x61] :=
  ⟨.typ (k := [0x0b]) (r := []) (number_digit (by decide)) (.inl (by decide)),
    .short (v := 2) (k := [0x0a]) (d := [0x82, 0x00]) (r := [0x61]) (number_digit (by decide)) (by decide)
      ⟨by decide, by decide, by decide⟩ (by decide) (by decide)⟩

/-- `08 80`: the value does not end. -/
example : ScanStuck [0x08, 0x80] :=
  .number (k := [0x08]) (r := [0x80]) (number_digit (by decide)) (.inl (by decide)) (by decide) (by unfold Unended; decide)

end Amino
