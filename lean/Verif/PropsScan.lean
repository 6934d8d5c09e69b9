import Verif.Scan
import Verif.PrimLemmas
import Verif.SpecWire

/-!
# C53, C58, C64: aminoscan
-/

namespace Amino

/-- The input ends in the middle of a varint: its last byte has the continuation bit. -/
def Spec.EndsOpen (bz : Bytes) : Prop := ∃ p b, bz = p ++ [b] ∧ 0x80 ≤ b

/-- The scanner returns or panics. -/
def Spec.Stops (bz : Bytes) : Prop := ∃ fuel, scanStruct fuel bz ≠ .running

open Spec

theorem uvarintLoop_cases (bz : Bytes) (i : Nat) (x : UInt64) (s : Nat) :
    ((uvarintLoop bz i x s).2 = 0 ∧ (∀ b ∈ bz, 0x80 ≤ b) ∧ (uvarintLoop bz i x s).1 = 0) ∨
    ((uvarintLoop bz i x s).2 < 0 ∧ (uvarintLoop bz i x s).1 = 0 ∧ bz ≠ []) ∨
    ((i : Int) < (uvarintLoop bz i x s).2 ∧ (uvarintLoop bz i x s).2 ≤ i + bz.length) := by
  induction bz generalizing i x s with
  | nil => left; exact ⟨rfl, by simp, rfl⟩
  | cons b bs ih =>
    rw [uvarintLoop]
    split
    · split
      · right; left; exact ⟨by simp only; omega, rfl, by simp⟩
      · right; right; simp only [List.length_cons]; omega
    · rename_i hb
      rcases ih (i + 1) (x ||| shl64 (b &&& 0x7f).toUInt64 s) (s + 7) with ⟨h1, h2, h3⟩ | ⟨h1, h2, _⟩ | ⟨h1, h2⟩
      · left
        refine ⟨h1, ?_, h3⟩
        intro c hc
        rcases List.mem_cons.mp hc with rfl | hc
        · exact UInt8.not_lt.mp hb
        · exact h2 c hc
      · right; left; exact ⟨h1, h2, by simp⟩
      · right; right; simp only [List.length_cons]; omega

theorem uvarint_cases (bz : Bytes) :
    ((uvarint bz).2 = 0 ∧ (∀ b ∈ bz, 0x80 ≤ b) ∧ (uvarint bz).1 = 0) ∨
    ((uvarint bz).2 < 0 ∧ (uvarint bz).1 = 0 ∧ bz ≠ []) ∨ (0 < (uvarint bz).2 ∧ (uvarint bz).2 ≤ bz.length) := by
  have := uvarintLoop_cases bz 0 0 0
  simpa [uvarint] using this

/-- All bytes have the continuation bit: the count is 0. -/
theorem uvarint_open {bz : Bytes} (h : ∀ b ∈ bz, 0x80 ≤ b) : uvarint bz = (0, 0) := by
  have key : ∀ (bz : Bytes), (∀ b ∈ bz, 0x80 ≤ b) → ∀ i x s, uvarintLoop bz i x s = (0, 0) := by
    intro bz
    induction bz with
    | nil => intros; rfl
    | cons b bs ih =>
      intro h i x s
      rw [uvarintLoop, if_neg (UInt8.not_lt.mpr (h b (by simp)))]
      exact ih (fun c hc => h c (by simp [hc])) _ _ _
  exact key bz h 0 0 0

theorem scanVarint_cases (bz : Bytes) :
    (∃ n err, scanVarint bz = .ret n err ∧ n ≤ bz.length) := by
  unfold scanVarint
  rcases uvarint_cases bz with ⟨h, _⟩ | ⟨h, _⟩ | ⟨h, h'⟩
  · simp [h]
  · have h1 : (uvarint bz).2 ≤ 0 := by omega
    have h2 : (0 : Int) ≠ (uvarint bz).2 := by omega
    simp [h1, h2]
  · have h1 : ¬ (uvarint bz).2 ≤ 0 := by omega
    simp [h1]; omega

theorem scanAny_within (typ : Nat) (bz : Bytes) {n : Nat} {err : Bool} (h : scanAny typ bz = .ret n err) :
    n ≤ bz.length := by
  have hfix : ∀ k, scanFixed k bz = .ret n err → n ≤ bz.length := by
    intro k h
    unfold scanFixed at h
    split at h <;> simp only [Scan.ret.injEq] at h <;> omega
  unfold scanAny at h
  split at h
  · obtain ⟨n', e', h1, h2⟩ := scanVarint_cases bz
    rw [h1] at h; cases h; exact h2
  · split at h
    · exact hfix 8 h
    · split at h
      · unfold scanByteLength at h
        simp only at h
        split at h
        · cases h; exact Nat.zero_le _
        · split at h
          · cases h
          · split at h
            · cases h
            · split at h
              · cases h
              · rename_i h2
                simp only [Scan.ret.injEq] at h
                rw [List.length_drop] at h2
                rcases uvarint_cases bz with ⟨h1, _⟩ | ⟨h1, _⟩ | ⟨h1, h3⟩ <;> omega
      · split at h
        · exact hfix 4 h
        · cases h

theorem scanFieldKey_within (bz : Bytes) : (scanFieldKey bz).1 ≤ bz.length := by
  unfold scanFieldKey
  simp only
  split
  · exact Nat.zero_le _
  · rcases uvarint_cases bz with ⟨h, _⟩ | ⟨h, _⟩ | ⟨h, h'⟩
    · simp [h]
    · omega
    · simp only; omega

/-- A key that consumes nothing without an error is an open varint. -/
theorem scanFieldKey_zero {bz : Bytes} (h0 : (scanFieldKey bz).1 = 0) (he : (scanFieldKey bz).2.2 = false) :
    ∀ b ∈ bz, 0x80 ≤ b := by
  unfold scanFieldKey at h0 he
  simp only at h0 he
  split at h0
  · rename_i h; rw [if_pos h] at he; cases he
  · rename_i h
    rcases uvarint_cases bz with ⟨h1, h2, _⟩ | ⟨h1, _⟩ | ⟨h1, _⟩
    · exact h2
    · exact absurd h1 h
    · simp only at h0; omega

/-- One more round: on an open rest the loop makes no progress and reports no error. -/
theorem scanLoop_open {bz : Bytes} (hne : bz ≠ []) (h : ∀ b ∈ bz, 0x80 ≤ b) (fuel n : Nat) :
    scanLoop true fuel bz n = .running := by
  induction fuel generalizing n with
  | zero => rfl
  | succ fuel ih =>
    have hk : scanFieldKey bz = (0, 0, false) := by simp [scanFieldKey, uvarint_open h]
    have hv : scanAny 0 bz = .ret 0 false := by
      simp [scanAny, typ3Varint, scanVarint, uvarint_open h, hne]
    have he : bz.isEmpty = false := by simp [hne]
    rw [scanLoop, hk]
    simp only [he, Bool.and_false, Bool.false_eq_true, if_false, List.drop_zero, hv, Nat.add_zero]
    exact ih n

/-- If the input does not end open, no rest of it does. -/
theorem EndsOpen.of_drop {bz : Bytes} {k : Nat} (h : EndsOpen (bz.drop k)) : EndsOpen bz := by
  obtain ⟨p, b, hp, hb⟩ := h
  exact ⟨bz.take k ++ p, b, by rw [List.append_assoc, ← hp, List.take_append_drop], hb⟩

theorem endsOpen_of_all {bz : Bytes} (hne : bz ≠ []) (h : ∀ b ∈ bz, 0x80 ≤ b) : EndsOpen bz :=
  ⟨bz.dropLast, bz.getLast hne, (List.dropLast_concat_getLast hne).symm, h _ (List.getLast_mem hne)⟩

/-- C53 does not hold: on the input `80` the scanner runs forever. -/
theorem C53_refuted : ¬ Stops [0x80] := by
  rintro ⟨fuel, h⟩
  exact h (scanLoop_open (by simp) (by decide) fuel 0)

/-- C53: on every input whose last byte does not have the continuation bit the scanner stops, after at most one round
per byte.  Missing for the full statement: inputs that end in the middle of a varint, see `C53_refuted` and, for
exactly which of them it fails on, `C53_exact_partial`. -/
theorem C53_stops_partial {bz : Bytes} (h : ¬ EndsOpen bz) : scanStruct (bz.length + 1) bz ≠ .running := by
  have key : ∀ (fuel : Nat) (bz : Bytes) (n : Nat), bz.length < fuel → ¬ EndsOpen bz →
      scanLoop true fuel bz n ≠ .running := by
    intro fuel
    induction fuel with
    | zero => intro bz n hl; omega
    | succ fuel ih =>
      intro bz n hl ho
      rw [scanLoop]
      cases hb : bz.isEmpty with
      | true => simp
      | false =>
        have hne : bz ≠ [] := by intro h; rw [h] at hb; cases hb
        generalize hk : scanFieldKey bz = k
        obtain ⟨m, typ, err⟩ := k
        cases err with
        | true => simp
        | false =>
          simp only [Bool.and_false, Bool.false_eq_true, if_false]
          have hm : m ≠ 0 := by
            intro h0
            refine ho (endsOpen_of_all hne (scanFieldKey_zero (bz := bz) ?_ ?_))
            · rw [hk]; exact h0
            · rw [hk]
          have hml : m ≤ bz.length := by have := scanFieldKey_within bz; rwa [hk] at this
          split
          · intro h; cases h
          · rename_i hrun
            exfalso
            revert hrun
            unfold scanAny
            have hfix : ∀ k (bz : Bytes), scanFixed k bz ≠ .running := by
              intro k bz; unfold scanFixed; split <;> simp
            split
            · obtain ⟨_, _, h1, _⟩ := scanVarint_cases (bz.drop m); rw [h1]; simp
            · split
              · exact hfix _ _
              · split
                · unfold scanByteLength; simp only
                  repeat' split
                  all_goals simp
                · split
                  · exact hfix _ _
                  · simp
          · split
            · simp
            · refine ih _ _ ?_ (fun h => ho (EndsOpen.of_drop (EndsOpen.of_drop h)))
              rw [List.length_drop, List.length_drop]; omega
  exact key _ _ _ (Nat.lt_succ_self _) h

example : ¬ EndsOpen [0x08, 0x96, 0x01, 0x12, 0x01, 0x61] := by
  rintro ⟨p, b, h, hb⟩
  have : b = 0x61 := by
    have := congrArg List.getLast? h
    simpa using this.symm
  subst this
  exact absurd hb (by decide)

/-- The rests the scanner comes to between fields. -/
inductive Spec.Reaches : Bytes → Bytes → Prop
  | here {bz : Bytes} : Reaches bz bz
  | field {bz rest : Bytes} {m typ k : Nat} : bz ≠ [] → scanFieldKey bz = (m, typ, false) →
      scanAny typ (bz.drop m) = .ret k false → Reaches ((bz.drop m).drop k) rest → Reaches bz rest

theorem scanLoop_reaches {bz rest : Bytes} (h : Reaches bz rest) (hne : rest ≠ []) (ha : ∀ b ∈ rest, 0x80 ≤ b)
    (fuel n : Nat) : scanLoop true fuel bz n = .running := by
  induction h generalizing fuel n with
  | here => exact scanLoop_open hne ha fuel n
  | field h1 h2 h3 _ ih =>
    cases fuel with
    | zero => rfl
    | succ fuel =>
      rw [scanLoop, h2]
      simp only [List.isEmpty_iff, h1, Bool.and_eq_true, and_false, if_false, h3, Bool.false_eq_true]
      exact ih hne ha fuel _

/-- C53, exactly: the scanner runs forever precisely on the inputs on which, after some complete fields, only bytes with
the continuation bit are left. -/
theorem C53_exact_partial (bz : Bytes) :
    Stops bz ↔ ∀ rest, Reaches bz rest → rest ≠ [] → ∃ b ∈ rest, b < 0x80 := by
  constructor
  · rintro ⟨fuel, h⟩ rest hr hne
    refine Classical.byContradiction fun hno => h ?_
    exact scanLoop_reaches hr hne (fun b hb => UInt8.not_lt.mp fun hlt => hno ⟨b, hb, hlt⟩) fuel 0
  · intro h
    have key : ∀ (k : Nat) (bz : Bytes) (n : Nat), bz.length < k →
        (∀ rest, Reaches bz rest → rest ≠ [] → ∃ b ∈ rest, b < 0x80) → scanLoop true k bz n ≠ .running := by
      intro k
      induction k with
      | zero => intro bz n hl; omega
      | succ fuel ih =>
        intro bz n hl ho
        rw [scanLoop]
        cases hb : bz.isEmpty with
        | true => simp
        | false =>
          have hne : bz ≠ [] := by intro h; rw [h] at hb; cases hb
          generalize hk : scanFieldKey bz = k
          obtain ⟨m, typ, err⟩ := k
          cases err with
          | true => simp
          | false =>
            simp only [Bool.and_false, Bool.false_eq_true, if_false]
            have hm : m ≠ 0 := by
              intro h0
              obtain ⟨b, hb1, hb2⟩ := ho bz .here hne
              have := scanFieldKey_zero (bz := bz) (by rw [hk]; exact h0) (by rw [hk]) b hb1
              exact absurd hb2 (UInt8.not_lt.mpr this)
            have hml : m ≤ bz.length := by have := scanFieldKey_within bz; rwa [hk] at this
            cases hs : scanAny typ (bz.drop m) with
            | panic => simp
            | running =>
              exfalso
              revert hs
              unfold scanAny
              have hfix : ∀ k (bz : Bytes), scanFixed k bz ≠ .running := by
                intro k bz; unfold scanFixed; split <;> simp
              split
              · obtain ⟨_, _, h1, _⟩ := scanVarint_cases (bz.drop m); rw [h1]; simp
              · split
                · exact hfix _ _
                · split
                  · unfold scanByteLength; simp only
                    repeat' split
                    all_goals simp
                  · split
                    · exact hfix _ _
                    · simp
            | ret k err =>
              cases err with
              | true => simp
              | false =>
                simp only [Bool.false_eq_true, if_false]
                refine ih _ _ ?_ (fun rest hr hne' => ho rest (.field hne hk hs hr) hne')
                rw [List.length_drop, List.length_drop]; omega
    exact ⟨bz.length + 1, key _ _ _ (Nat.lt_succ_self _) h⟩

/-- C58: when the scanner returns, the count is within the input, so that main's `bz[n:]` is in bounds. -/
theorem C58_count_partial {fuel : Nat} {bz : Bytes} {n : Nat} {err : Bool} (h : scanStruct fuel bz = .ret n err) :
    n ≤ bz.length := by
  have key : ∀ (fuel : Nat) (bz : Bytes) (n0 : Nat), scanLoop true fuel bz n0 = .ret n err → n ≤ n0 + bz.length := by
    intro fuel
    induction fuel with
    | zero => intro bz n0 h; cases h
    | succ fuel ih =>
      intro bz n0 h
      rw [scanLoop] at h
      split at h
      · cases h; omega
      · simp only at h
        have hm := scanFieldKey_within bz
        split at h
        · cases h; omega
        · split at h
          · cases h
          · cases h
          · rename_i k e hs
            have hk := scanAny_within _ _ hs
            rw [List.length_drop] at hk
            split at h
            · cases h; omega
            · have := ih _ _ h
              rw [List.length_drop, List.length_drop] at this
              omega
  have := key fuel bz 0 h
  omega

/-- C58 does not hold: wire types 3, 4, 6 and 7, a length whose varint overflows, a length that does not fit an int, and
a length that is one too large all make the scanner panic. -/
theorem C58_refuted :
    scanStruct 1 [0x0b] = .panic ∧ scanStruct 1 [0x0c] = .panic ∧
    scanStruct 1 [0x0e] = .panic ∧ scanStruct 1 [0x0f] = .panic ∧
    scanStruct 1 [0x0a, 0xff, 0xff, 0xff, 0xff, 0xff, 0xff, 0xff, 0xff, 0xff, 0x02] = .panic ∧
    scanStruct 1 [0x0a, 0xff, 0xff, 0xff, 0xff, 0xff, 0xff, 0xff, 0xff, 0xff, 0x01] = .panic ∧
    scanStruct 1 [0x0a, 0x02, 0x61] = .ret 1 true ∧ scanStruct 1 [0x0a, 0x01] = .ret 1 true ∧
    scanStruct 1 [0x0a, 0x81, 0x00] = .panic := by
  decide +kernel

theorem uvarint_varint {n : Nat} (h : n < 2 ^ 64) (rest : Bytes) :
    uvarint (varint n ++ rest) = (UInt64.ofNat n, ((varint n).length : Int)) := by
  rw [uvarint_eq, readVarint_varint]
  simp only
  rw [if_pos ⟨varint_u64_length n h, h⟩]

theorem scanAny_payload {typ : Nat} {p : Bytes} (h : Payload typ p) (rest : Bytes) :
    scanAny typ (p ++ rest) = .ret p.length false := by
  cases h with
  | @varint n hn =>
    have hl := varint_length_pos n
    have hne : (varint n ++ rest).isEmpty = false := by
      cases hv : varint n with
      | nil => rw [hv] at hl; simp at hl
      | cons a as => rfl
    have h0 : ¬ ((varint n).length : Int) ≤ 0 := by omega
    simp only [scanAny, typ3Varint, if_true, scanVarint, uvarint_varint hn, if_neg h0, hne]
    simp
  | fixed64 hb => simp [scanAny, typ3Varint, typ38Byte, scanFixed, hb]
  | fixed32 hb => simp [scanAny, typ3Varint, typ38Byte, typ34Byte, typ3ByteLength, scanFixed, hb]
  | @bytes b hb =>
    have hl := varint_length_pos b.length
    have hu := uvarint_varint (n := b.length) (by omega) (b ++ rest)
    have hi : intOf (UInt64.ofNat b.length) = (b.length : Int) := by
      have : (UInt64.ofNat b.length).toNat = b.length := by
        rw [UInt64.toNat_ofNat']; omega
      rw [intOf, this, if_pos (by omega)]
    rw [List.append_assoc]
    simp only [scanAny, typ3Varint, typ38Byte, typ3ByteLength, Nat.reduceEqDiff, if_false, if_true, scanByteLength, hu, hi]
    have h1 : ¬ ((b.length : Int) ≥ ((varint b.length ++ (b ++ rest)).length : Int)) := by
      simp only [List.length_append]; omega
    have h2 : ¬ (((varint b.length).length : Int) < 0) := by omega
    have h3 : ¬ ((b.length : Int) < 0) := by omega
    have h4 : ¬ (((varint b.length ++ (b ++ rest)).drop ((varint b.length).length : Int).toNat).length
        < (b.length : Int).toNat) := by
      rw [Int.toNat_natCast, List.drop_left, List.length_append]; omega
    simp only [h1, h2, h3, h4, if_false]
    simp

theorem payload_typ {typ : Nat} {p : Bytes} (h : Payload typ p) : typ < 8 := by
  cases h <;> decide

/-- C58: a well-formed message is scanned to its end, without error or panic.  Missing for the full statement:
malformed input, see `C58_refuted`. -/
theorem C58_wellformed_partial {ws : List WField} {bz : Bytes} (h : Wire ws bz) :
    scanStruct (ws.length + 1) bz = .ret bz.length false := by
  have key : ∀ {ws : List WField} {bz : Bytes}, Wire ws bz → ∀ n,
      scanLoop true (ws.length + 1) bz n = .ret (n + bz.length) false := by
    intro ws bz h
    induction h with
    | nil => intro n; simp [scanLoop]
    | @cons w ws bz h1 h2 hp _ ih =>
      intro n
      have ht : w.typ < 8 := payload_typ hp
      have hk : scanFieldKey (varint (8 * w.num + w.typ) ++ w.payload ++ bz) =
          ((varint (8 * w.num + w.typ)).length, w.typ, false) := by
        rw [List.append_assoc, scanFieldKey, uvarint_varint (by omega)]
        have h0 : ¬ (((varint (8 * w.num + w.typ)).length : Int) < 0) := by omega
        simp only [h0, if_false, Int.toNat_natCast, Prod.mk.injEq, and_true, true_and]
        rw [UInt64.toNat_and, UInt64.toNat_ofNat', show (7 : UInt64).toNat = 2 ^ 3 - 1 by decide,
          Nat.and_two_pow_sub_one_eq_mod]
        omega
      have hne : (varint (8 * w.num + w.typ) ++ w.payload ++ bz).isEmpty = false := by
        have hl := varint_length_pos (8 * w.num + w.typ)
        cases hv : varint (8 * w.num + w.typ) with
        | nil => rw [hv] at hl; simp at hl
        | cons a as => rfl
      have hd : (varint (8 * w.num + w.typ) ++ w.payload ++ bz).drop (varint (8 * w.num + w.typ)).length
          = w.payload ++ bz := by rw [List.append_assoc, List.drop_left]
      rw [List.length_cons, scanLoop, hk]
      simp only [hne, Bool.and_false, Bool.false_eq_true, if_false, hd, scanAny_payload hp, List.drop_left]
      rw [ih]
      simp only [List.length_append, Scan.ret.injEq, and_true]
      omega
  have := key h 0
  rwa [Nat.zero_add] at this

example : Wire [⟨1, 0, varint 150⟩, ⟨2, 2, varint 1 ++ [0x61]⟩] [0x08, 0x96, 0x01, 0x12, 0x01, 0x61] := by
  have h := Wire.cons (w := ⟨1, 0, varint 150⟩) (by decide) (by decide) (.varint (by decide))
    (.cons (w := ⟨2, 2, varint 1 ++ [0x61]⟩) (by decide) (by decide) (.bytes (b := [0x61]) (by decide)) .nil)
  have e : varint 150 = [0x96, 0x01] := by simp [varint]
  have e1 : varint 1 = [1] := by simp [varint]
  have e2 : varint 8 = [8] := by simp [varint]
  have e3 : varint 18 = [18] := by simp [varint]
  simpa [e, e1, e2, e3] using h

example : scanStruct 10 [0x08, 0x96, 0x01, 0x12, 0x01, 0x61] = .ret 6 false := by decide +kernel

/-- A complete field value of the wire type at the front of a byte string, and its length. -/
inductive Spec.Body : Nat → Bytes → Nat → Prop
  | varint {bz : Bytes} {v l : Nat} : readVarint bz = some (v, l) → Body 0 bz l
  | fixed64 {bz : Bytes} : 8 ≤ bz.length → Body 1 bz 8
  | bytes {bz : Bytes} {n l : Nat} : readVarint bz = some (n, l) → l + n ≤ bz.length → Body 2 bz (l + n)
  | fixed32 {bz : Bytes} : 4 ≤ bz.length → Body 5 bz 4

/-- A whole number of complete fields: keys and values. -/
inductive Spec.Complete : Bytes → Prop
  | nil : Complete []
  | field {bz : Bytes} {key l p : Nat} : readVarint bz = some (key, l) → Body (key % 8) (bz.drop l) p →
      Complete ((bz.drop l).drop p) → Complete bz

theorem uvarint_pos {bz : Bytes} (h : 0 < (uvarint bz).2) :
    ∃ v l, readVarint bz = some (v, l) ∧ v < 2 ^ 64 ∧ uvarint bz = (UInt64.ofNat v, (l : Int)) := by
  rw [uvarint_eq] at h ⊢
  cases hr : readVarint bz with
  | none => rw [hr] at h; simp at h
  | some p =>
    obtain ⟨v, l⟩ := p
    rw [hr] at h
    simp only at h ⊢
    split at h
    · rename_i hc; exact ⟨v, l, rfl, hc.2, by rw [if_pos hc]⟩
    · simp only at h; omega

/-- A value scanned without error is complete, or nothing but continuation bytes is left. -/
theorem scanAny_body {typ : Nat} {bz : Bytes} {n : Nat} (h : scanAny typ bz = .ret n false) :
    Body typ bz n ∨ (n = 0 ∧ bz ≠ [] ∧ ∀ b ∈ bz, 0x80 ≤ b) := by
  unfold scanAny at h
  split at h
  · rename_i ht
    rw [ht, typ3Varint]
    unfold scanVarint at h
    rcases uvarint_cases bz with ⟨h1, h2, _⟩ | ⟨h1, h2, _⟩ | ⟨h1, h2⟩
    · simp [h1] at h
      exact .inr ⟨h.1.symm, h.2, h2⟩
    · have h3 : (uvarint bz).2 ≤ 0 := by omega
      have h4 : (0 : Int) ≠ (uvarint bz).2 := by omega
      simp [h3, h4] at h
    · have h3 : ¬ (uvarint bz).2 ≤ 0 := by omega
      simp [h3] at h
      obtain ⟨v, l, hr, _, hu⟩ := uvarint_pos h1
      rw [hu] at h
      simp only [Int.toNat_natCast] at h
      rw [← h.1]
      exact .inl (.varint hr)
  · split at h
    · rename_i ht
      rw [ht, typ38Byte]
      unfold scanFixed at h
      split at h
      · cases h
      · cases h; exact .inl (.fixed64 (by omega))
    · split at h
      · rename_i ht
        rw [ht, typ3ByteLength]
        unfold scanByteLength at h
        simp only at h
        split at h
        · cases h
        split at h
        · cases h
        split at h
        · cases h
        split at h
        · cases h
        rename_i h1 h2 h3 h4
        simp only [Scan.ret.injEq, and_true] at h
        rcases uvarint_cases bz with ⟨g1, g2, g3⟩ | ⟨g1, _⟩ | ⟨g1, g2⟩
        · rw [g3, show intOf 0 = 0 from rfl] at h1
          rw [g1, g3, show intOf 0 = 0 from rfl] at h
          refine .inr ⟨by simpa using h.symm, ?_, g2⟩
          rintro rfl
          simp at h1
        · exact absurd g1 h2
        · obtain ⟨v, l, hr, hv, hu⟩ := uvarint_pos g1
          have hn : (UInt64.ofNat v).toNat = v := by rw [UInt64.toNat_ofNat']; omega
          rw [hu] at h h3 h4
          simp only at h h3 h4
          unfold intOf at h h3 h4
          rw [hn] at h h3 h4
          split at h3
          · rename_i hlt
            rw [if_pos hlt] at h h4
            simp only [Int.toNat_natCast, List.length_drop] at h h4
            rw [← h]
            rw [hu] at g2
            simp only at g2
            exact .inl (.bytes hr (by omega))
          · exfalso; omega
      · split at h
        · rename_i ht
          rw [ht, typ34Byte]
          unfold scanFixed at h
          split at h
          · cases h
          · cases h; exact .inl (.fixed32 (by omega))
        · cases h

/-- C64: when the scanner returns without an error, the input was a whole number of complete fields, all of it
scanned: no truncated message goes unreported. -/
theorem C64_complete {fuel : Nat} {bz : Bytes} {n : Nat} (h : scanStruct fuel bz = .ret n false) :
    Complete bz ∧ n = bz.length := by
  have key : ∀ (fuel : Nat) (bz : Bytes) (n0 : Nat), scanLoop true fuel bz n0 = .ret n false →
      Complete bz ∧ n = n0 + bz.length := by
    intro fuel
    induction fuel with
    | zero => intro bz n0 h; cases h
    | succ fuel ih =>
      intro bz n0 h
      have h0 := h
      rw [scanLoop] at h
      split at h
      · rename_i he
        cases h
        have : bz = [] := by simpa using he
        subst this
        exact ⟨.nil, rfl⟩
      · rename_i he
        have hne : bz ≠ [] := by simpa using he
        simp only at h
        have hm := scanFieldKey_within bz
        split at h
        · cases h
        · rename_i hk
          split at h
          · cases h
          · cases h
          · rename_i k e hs
            have hw := scanAny_within _ _ hs
            split at h
            · cases h
            · rename_i he'
              have he'' : e = false := by simpa using he'
              subst he''
              have hk' : (scanFieldKey bz).2.2 = false := by simpa using hk
              by_cases hz : (scanFieldKey bz).1 = 0
              · rw [scanLoop_open hne (scanFieldKey_zero hz hk')] at h0; cases h0
              · have hpos : 0 < (uvarint bz).2 := by
                  unfold scanFieldKey at hz
                  simp only at hz
                  split at hz
                  · exact absurd rfl hz
                  · simp only at hz; omega
                obtain ⟨v, l, hr, hv, hu⟩ := uvarint_pos hpos
                have hkey : scanFieldKey bz = (l, v % 8, false) := by
                  rw [scanFieldKey, hu]
                  have h0 : ¬ ((l : Int) < 0) := by omega
                  simp only [h0, if_false, Int.toNat_natCast, Prod.mk.injEq, and_true, true_and]
                  rw [UInt64.toNat_and, UInt64.toNat_ofNat', show (7 : UInt64).toNat = 2 ^ 3 - 1 by decide,
                    Nat.and_two_pow_sub_one_eq_mod]
                  omega
                rw [hkey] at h hs hw hm
                simp only at h hs hw hm
                rcases scanAny_body hs with hb | ⟨rfl, hne', ho⟩
                · obtain ⟨hc, hn⟩ := ih _ _ h
                  refine ⟨.field hr hb hc, ?_⟩
                  rw [List.length_drop, List.length_drop] at hn
                  rw [List.length_drop] at hw
                  omega
                · rw [List.drop_zero, scanLoop_open hne' ho] at h; cases h
  have := key fuel bz 0 h
  exact ⟨this.1, by omega⟩

/-- A key without its value is reported. -/
example : scanStruct 10 [0x08] = .ret 1 true := by decide +kernel

end Amino
