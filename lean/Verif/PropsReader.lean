import Verif.SpecReader
import Verif.PropsRT
import Verif.PropsApi

/-! # Properties C19, C20, C21: UnmarshalBinaryLengthPrefixedReader -/

namespace Amino
open Spec

variable {σ τ : Type} {R : Reader σ} {rest : σ → Bytes} {Γ : Prog} {c : Codec}

/-! ## Lemmas -/

/-- The prefix loop on the byte stream. -/
def prefixOn (maxSize : Int) : Nat → Bytes → Bytes → Option Err → Bytes × Bytes × Option Err
  | 0, s, bs, e => (s, bs, e)
  | _ + 1, [], bs, _ => ([], bs, some .ioEOF)
  | k + 1, b :: s, bs, _ =>
    if b < 0x80 then (s, bs ++ [b], none)
    else prefixOn maxSize k s (bs ++ [b])
      (if ((bs.length + 1 : Nat) : Int) ≥ maxSize then some .readOverflow else none)

theorem prefixLoop_stream (hR : Streams R rest) (maxSize : Int) : ∀ (k : Nat) (s : σ) (bs : Bytes) (e : Option Err),
    ∃ s', prefixLoop R maxSize k s bs e = (s', (prefixOn maxSize k (rest s) bs e).2) ∧
      rest s' = (prefixOn maxSize k (rest s) bs e).1
  | 0, s, bs, e => ⟨s, rfl, rfl⟩
  | k + 1, s, bs, e => by
    obtain ⟨h0, h1⟩ := hR s 1 (by omega)
    cases hs : rest s with
    | nil =>
      obtain ⟨s', h, h'⟩ := h0 hs
      refine ⟨s', ?_, by rw [h']; rfl⟩
      simp only [prefixLoop, h, prefixOn]
    | cons x xs =>
      obtain ⟨b, s', h, hb, hbl, hrest⟩ := h1 (by simp [hs])
      obtain ⟨y, rfl⟩ : ∃ y, b = [y] := by
        match b, hb, hbl with
        | [y], _, _ => exact ⟨y, rfl⟩
        | _ :: _ :: _, _, hbl => simp at hbl
      rw [hs] at hrest
      simp only [List.singleton_append, List.cons.injEq] at hrest
      obtain ⟨rfl, rfl⟩ := hrest
      by_cases hx : x < 0x80
      · simp only [prefixLoop, h, prefixOn, List.headD_cons, hx, if_true]
        exact ⟨s', rfl, rfl⟩
      · simp only [prefixLoop, h, prefixOn, List.headD_cons, hx, if_false]
        exact prefixLoop_stream hR maxSize k s' _ _

/-- The error of `io.ReadFull` when `b` is what there was. -/
def endErr (b : Bytes) : Err := if b = [] then .ioEOF else .unexpectedEOF

theorem readFull_stream (hR : Streams R rest) : ∀ (f : Nat) (s : σ) (l : Nat) (acc : Bytes), l ≤ f →
    (l ≤ (rest s).length → ∃ s', readFull R f s l acc = some (s', acc ++ (rest s).take l, none) ∧
      rest s' = (rest s).drop l) ∧
    ((rest s).length < l → ∃ s' b, readFull R f s l acc =
      some (s', b, some (endErr (acc ++ rest s))) ∧ rest s' = [])
  | f, s, 0, acc, _ => by
    refine ⟨fun _ => ⟨s, ?_, by simp⟩, by simp⟩
    cases f <;> simp [readFull]
  | 0, s, l + 1, acc, h => by omega
  | f + 1, s, l + 1, acc, hf => by
    obtain ⟨h0, h1⟩ := hR s (l + 1) (by omega)
    cases hs : rest s with
    | nil =>
      obtain ⟨s', h, h'⟩ := h0 hs
      refine ⟨by simp, fun _ => ⟨s', acc, ?_, h'⟩⟩
      simp only [readFull, h]
      simp [endErr]
    | cons x xs =>
      obtain ⟨b, s', h, hb, hbl, hrest⟩ := h1 (by simp [hs])
      rw [← hs, hrest]
      have hpos : 0 < b.length := by cases b <;> simp at hb ⊢
      simp only [readFull, h]
      split
      · have hl : b.length = l + 1 := by omega
        refine ⟨fun _ => ⟨s', ?_, ?_⟩, ?_⟩
        · rw [← hl, List.take_left]
        · rw [← hl, List.drop_left]
        · simp only [List.length_append]; omega
      · obtain ⟨i1, i2⟩ := readFull_stream hR f s' (l + 1 - b.length) (acc ++ b) (by omega)
        refine ⟨fun hle => ?_, fun hlt => ?_⟩
        · simp only [List.length_append] at hle
          obtain ⟨s'', e1, e2⟩ := i1 (by omega)
          refine ⟨s'', ?_, ?_⟩
          · rw [e1, List.take_append, List.take_of_length_le (by omega : b.length ≤ l + 1)]
            simp
          · rw [e2, List.drop_append, List.drop_of_length_le (by omega : b.length ≤ l + 1)]
            simp
        · simp only [List.length_append] at hlt
          rw [← List.append_assoc]
          exact i2 (by omega)

/-- The reader's part in terms of the byte stream: bytes left, `n`, outcome. -/
def bodyOn (Γ : Prog) (c : Codec) (fuel : Nat) (maxSize : Int) (t : Ty) (p : Val) (r : Bytes × Bytes × Option Err) :
    Bytes × Nat × Res Val :=
  match r with
  | (s, bs, some e) => (s, bs.length, .err e)
  | (s, bs, none) =>
    match bodyLength maxSize bs.length (prefixValue bs) with
    | .err e => (s, bs.length, .err e)
    | .panic p => (s, bs.length, .panic p)
    | .oof => (s, bs.length, .oof)
    | .ok l => if l ≤ s.length then (s.drop l, bs.length + l, unmarshalBare Γ c fuel t p (s.take l))
      else ([], bs.length, .err (endErr s))

theorem bodyLength_le {maxSize : Int} {n l : Nat} {u : UInt64} (h : bodyLength maxSize n u = .ok l) : l ≤ maxAlloc := by
  unfold bodyLength at h
  split at h
  · cases h
  split at h
  · cases h
  split at h
  · cases h
  · rename_i hh
    cases h
    have := u.toNat_lt
    unfold intOfU64 at hh
    split at hh <;> omega

theorem unmarshalReader_stream (hR : Streams R rest) {maxSize : Int} (hm : 0 ≤ maxSize) (fuel rf : Nat) (t : Ty) (p : Val)
    (s : σ) (hrf : maxAlloc ≤ rf) :
    ∃ s', unmarshalReader R Γ c fuel rf maxSize t p s =
        ⟨s', (bodyOn Γ c fuel maxSize t p (prefixOn maxSize 10 (rest s) [] none)).2.1,
          (bodyOn Γ c fuel maxSize t p (prefixOn maxSize 10 (rest s) [] none)).2.2⟩ ∧
      rest s' = (bodyOn Γ c fuel maxSize t p (prefixOn maxSize 10 (rest s) [] none)).1 := by
  unfold unmarshalReader
  rw [if_neg (by omega)]
  obtain ⟨s1, h1, h2⟩ := prefixLoop_stream hR maxSize 10 s [] none
  rw [h1]
  generalize prefixOn maxSize 10 (rest s) [] none = P at h2 ⊢
  obtain ⟨q, bs, e⟩ := P
  simp only at h2
  subst h2
  cases e with
  | some e => exact ⟨s1, rfl, rfl⟩
  | none =>
    unfold readBody bodyOn
    simp only
    cases hb : bodyLength maxSize bs.length (prefixValue bs) with
    | err e => exact ⟨s1, rfl, rfl⟩
    | panic e => exact ⟨s1, rfl, rfl⟩
    | oof => exact ⟨s1, rfl, rfl⟩
    | ok l =>
      simp only
      obtain ⟨i1, i2⟩ := readFull_stream hR rf s1 l [] (by have := bodyLength_le hb; omega)
      by_cases hl : l ≤ (rest s1).length
      · obtain ⟨s2, e1, e2⟩ := i1 hl
        rw [if_pos hl, e1]
        exact ⟨s2, rfl, e2⟩
      · obtain ⟨s2, b, e1, e2⟩ := i2 (by omega)
        rw [if_neg hl, e1]
        exact ⟨s2, rfl, e2⟩

/-- C19: two readers that deliver the same bytes, in whatever pieces, give the same result and the same `n`, and
are left with the same bytes. -/
theorem C19_chunking {R' : Reader τ} {rest' : τ → Bytes} (hR : Streams R rest) (hR' : Streams R' rest') (maxSize : Int)
    (fuel rf : Nat) (hrf : maxAlloc ≤ rf) (t : Ty) (p : Val) (s : σ) (s' : τ) (hs : rest s = rest' s') :
    let o := unmarshalReader R Γ c fuel rf maxSize t p s
    let o' := unmarshalReader R' Γ c fuel rf maxSize t p s'
    o.n = o'.n ∧ o.out = o'.out ∧ rest o.state = rest' o'.state := by
  by_cases hm : 0 ≤ maxSize
  · obtain ⟨s1, h1, h2⟩ := unmarshalReader_stream (Γ := Γ) (c := c) hR hm fuel rf t p s hrf
    obtain ⟨s2, h3, h4⟩ := unmarshalReader_stream (Γ := Γ) (c := c) hR' hm fuel rf t p s' hrf
    simp only [h1, h3, hs]
    exact ⟨trivial, trivial, by rw [h2, h4, hs]⟩
  · unfold unmarshalReader
    simp only [if_pos (by omega : maxSize < 0)]
    exact ⟨trivial, trivial, hs⟩

theorem prefixOn_append (maxSize : Int) : ∀ (k : Nat) (ds tail bs : Bytes) (x : UInt8) (e : Option Err), ds.length < k →
    (∀ d ∈ ds, ¬ d < 0x80) → x < 0x80 →
    prefixOn maxSize k (ds ++ x :: tail) bs e = (tail, bs ++ ds ++ [x], none)
  | 0, _, _, _, _, _, hk, _, _ => by omega
  | k + 1, [], tail, bs, x, e, hk, hd, hx => by
    simp only [List.nil_append, prefixOn, if_pos hx, List.append_nil]
  | k + 1, d :: ds, tail, bs, x, e, hk, hd, hx => by
    simp only [List.cons_append, prefixOn]
    rw [if_neg (hd d (by simp)), prefixOn_append maxSize k ds tail _ x _ (by simpa using hk) (fun d h => hd d (by simp [h])) hx]
    simp

/-- A varint is digits with the continuation bit, then one without. -/
theorem varint_split (n : Nat) : ∃ ds x, varint n = ds ++ [x] ∧ (∀ d ∈ ds, ¬ d < 0x80) ∧ x < 0x80 := by
  induction n using varint.induct with
  | case1 n h =>
    refine ⟨[], UInt8.ofNat n, by unfold varint; rw [if_pos h]; rfl, by simp, ?_⟩
    rw [UInt8.lt_iff_toNat_lt]
    simp
    omega
  | case2 n h ih =>
    obtain ⟨ds, x, h1, h2, h3⟩ := ih
    refine ⟨UInt8.ofNat (n % 128 + 128) :: ds, x, by rw [varint, if_neg h, h1]; rfl, ?_, h3⟩
    intro d hd
    simp only [List.mem_cons] at hd
    rcases hd with rfl | hd
    · rw [UInt8.lt_iff_toNat_lt]
      simp
      omega
    · exact h2 d hd

theorem prefixOn_varint (maxSize : Int) {n : Nat} (h : n < 2 ^ 64) (tail : Bytes) :
    prefixOn maxSize 10 (varint n ++ tail) [] none = (tail, varint n, none) := by
  obtain ⟨ds, x, h1, h2, h3⟩ := varint_split n
  have := varint_u64_length n h
  rw [h1] at this ⊢
  simp only [List.length_append, List.length_singleton] at this
  rw [List.append_assoc, List.singleton_append, prefixOn_append maxSize 10 ds tail [] x none (by omega) h2 h3]
  rfl

theorem prefixValue_varint {n : Nat} (h : n < 2 ^ 64) : (prefixValue (varint n)).toNat = n := by
  unfold prefixValue
  rw [uvarint_eq, readVarint_varint]
  have := varint_u64_length n h
  simp only
  rw [if_pos (by omega)]
  simp
  omega

/-- C19: a well-formed message at the front of the stream is read exactly: the outcome is that of decoding its bytes,
`n` is its length, and what is left is what follows it. -/
theorem C19_exact (hR : Streams R rest) {maxSize : Int} (hm : 0 ≤ maxSize) (fuel rf : Nat) (hrf : maxAlloc ≤ rf) (t : Ty)
    (p : Val) (s : σ) {b tail : Bytes} (hs : rest s = varint b.length ++ b ++ tail) (hl : b.length ≤ maxAlloc)
    (hfit : maxSize = 0 ∨ ((varint b.length ++ b).length : Int) ≤ maxSize) :
    let o := unmarshalReader R Γ c fuel rf maxSize t p s
    o.n = (varint b.length ++ b).length ∧ o.out = unmarshalBare Γ c fuel t p b ∧ rest o.state = tail := by
  obtain ⟨s1, h1, h2⟩ := unmarshalReader_stream (Γ := Γ) (c := c) hR hm fuel rf t p s hrf
  simp only [h1, h2, hs]
  have hl' : b.length < 2 ^ 64 := by unfold maxAlloc at hl; omega
  rw [List.append_assoc, prefixOn_varint _ hl']
  have hb : bodyLength maxSize (varint b.length).length (prefixValue (varint b.length)) = .ok b.length := by
    have hv := prefixValue_varint hl'
    have hi : intOfU64 (prefixValue (varint b.length)) = b.length := by
      unfold intOfU64
      rw [hv, if_pos (by unfold maxAlloc at hl; omega)]
    unfold bodyLength
    rw [hv, hi]
    simp only [List.length_append] at hfit
    rw [if_neg (by omega), if_neg (by omega), if_neg (by omega)]
  simp only [bodyOn, hb, List.length_append]
  rw [if_pos (by omega), List.drop_left, List.take_left]
  exact ⟨rfl, rfl, rfl⟩

/-- C19: a concatenation of length-prefixed messages is read back as these messages, in order; `n` is the length of
each, and what follows stays unread. -/
theorem C19_sequence (hR : Streams R rest) {maxSize : Int} (hm : 0 ≤ maxSize) (f fuel rf : Nat) (hrf : maxAlloc ≤ rf) :
    ∀ (ms : List (Ty × Val × Bytes)) (ts : List (Ty × Val)) (s : σ) (tail : Bytes), ms.length = ts.length →
    (∀ m ∈ ms, marshalLP Γ c f m.1 m.2.1 = .ok m.2.2 ∧ m.2.2.length ≤ maxAlloc ∧
      (maxSize = 0 ∨ (m.2.2.length : Int) ≤ maxSize)) →
    rest s = (ms.map fun m => m.2.2).flatten ++ tail →
    let r := readMany R Γ c fuel rf maxSize ts s
    r.1 = (ms.zip ts).map (fun mt => (mt.1.2.2.length, unmarshalLP Γ c fuel mt.2.1 mt.2.2 mt.1.2.2)) ∧ rest r.2 = tail
  | [], [], s, tail, _, _, hs => ⟨rfl, by simpa [readMany] using hs⟩
  | [], _ :: _, _, _, h, _, _ => by simp at h
  | _ :: _, [], _, _, h, _, _ => by simp at h
  | m :: ms, (t, p) :: ts, s, tail, hlen, hm', hs => by
    obtain ⟨h1, h2, h3⟩ := hm' m (by simp)
    obtain ⟨b, hb, hbz, hu⟩ := C12_lengthPrefixed f fuel m.1 t m.2.1 p m.2.2 h1 (by unfold maxAlloc at h2; omega)
    simp only [List.map_cons, List.flatten_cons, List.append_assoc] at hs
    rw [hbz] at hs h2 h3
    obtain ⟨e1, e2, e3⟩ := C19_exact (Γ := Γ) (c := c) hR hm fuel rf hrf t p s hs
      (by simp only [List.length_append] at h2; omega) h3
    obtain ⟨i1, i2⟩ := C19_sequence hR hm f fuel rf hrf ms ts _ tail (by simpa using hlen)
      (fun m h => hm' m (by simp [h])) e3
    simp only [readMany, List.zip_cons_cons, List.map_cons]
    rw [e1, e2, ← hu, ← hbz]
    exact ⟨by rw [i1], i2⟩

/-! ## The readers of the examples deliver their streams -/

theorem memReader_streams : Streams memReader id := by
  intro s k hk
  refine ⟨fun h => ⟨[], by simp only [id] at h; simp [memReader, h], rfl⟩, fun h => ⟨s.take k, s.drop k, ?_, ?_, by simp; omega, by simp⟩⟩
  · simp only [memReader, id] at h ⊢
    rw [if_neg h]
  · cases s with
    | nil => simp at h
    | cons x xs => cases k with
      | zero => omega
      | succ k => simp

theorem byteReader_streams : Streams byteReader id := by
  intro s k hk
  cases s with
  | nil => exact ⟨fun _ => ⟨[], by simp only [byteReader]; rw [if_neg (by omega)], rfl⟩, fun h => by simp at h⟩
  | cons x xs => exact ⟨fun h => by simp at h, fun _ => ⟨[x], xs, by simp only [byteReader]; rw [if_neg (by omega)], by simp, by simp; omega, rfl⟩⟩

theorem chunkReader_streams : Streams chunkReader chunks := by
  intro s k hk
  cases s with
  | nil => exact ⟨fun _ => ⟨[], by simp only [chunkReader]; rw [if_neg (by omega)], rfl⟩, fun h => by simp [chunks] at h⟩
  | cons x xs =>
    obtain ⟨b, bs⟩ := x
    refine ⟨fun h => by simp [chunks] at h, fun _ => ?_⟩
    simp only [chunkReader]
    rw [if_neg (by omega)]
    cases hd : bs.drop (k - 1) with
    | nil =>
      have := congrArg List.length hd
      simp only [List.length_drop, List.length_nil] at this
      exact ⟨b :: bs, xs, rfl, by simp, by simp; omega, rfl⟩
    | cons b' bs' =>
      refine ⟨b :: bs.take (k - 1), (b', bs') :: xs, rfl, by simp, by simp; omega, ?_⟩
      have := List.take_append_drop (k - 1) bs
      rw [hd] at this
      simp only [chunks, List.map_cons, List.flatten_cons, List.cons_append, List.cons.injEq, true_and]
      rw [← List.cons_append, ← List.append_assoc, this]

/-- Two messages `Sub{1, true}`, `Sub{2, false}`, delivered as the pieces `[4 8] [1 16 1 2] [8] [2 7]`: both are read,
and the byte 7 stays. -/
example :
    let r := readMany chunkReader Demo.prog Demo.codecFoo 6 maxAlloc 100
      [(.base Demo.subT, .struct [.int 0, .bool false]), (.base Demo.subT, .struct [.int 0, .bool false])]
      [(4, [8]), (1, [16, 1, 2]), (8, []), (2, [7])]
    r.1 = [(5, .ok (.struct [.int 1, .bool true])), (3, .ok (.struct [.int 2, .bool false]))] ∧ chunks r.2 = [7] := by
  have := C19_sequence (Γ := Demo.prog) (c := Demo.codecFoo) chunkReader_streams (maxSize := 100) (by omega) 3 6 maxAlloc
    (Nat.le_refl _) [(.base Demo.subT, .struct [.int 1, .bool true], [4, 8, 1, 16, 1]),
      (.base Demo.subT, .struct [.int 2, .bool false], [2, 8, 2])]
    [(.base Demo.subT, .struct [.int 0, .bool false]), (.base Demo.subT, .struct [.int 0, .bool false])]
    [(4, [8]), (1, [16, 1, 2]), (8, []), (2, [7])] [7] rfl (by decide +kernel) rfl
  refine ⟨this.1.trans ?_, this.2⟩
  decide +kernel

/-! ## C20 -/

theorem counting_prefixLoop (maxSize : Int) : ∀ (k : Nat) (s : σ) (m : Nat) (bs : Bytes) (e : Option Err),
    (prefixLoop (counting R) maxSize k (s, m) bs e).1.2 ≤ m + k ∧
      ((prefixLoop (counting R) maxSize k (s, m) bs e).2.2 = none →
        (prefixLoop (counting R) maxSize k (s, m) bs e).1.2 + bs.length ≤
          m + (prefixLoop (counting R) maxSize k (s, m) bs e).2.1.length)
  | 0, s, m, bs, e => ⟨Nat.le_refl _, fun _ => Nat.le_refl _⟩
  | k + 1, s, m, bs, e => by
    have hle := R.le s 1
    cases h : R.read s 1 with
    | mk s' be =>
      obtain ⟨b, e'⟩ := be
      rw [h] at hle
      simp only at hle
      cases e' with
      | some e' =>
        simp only [prefixLoop, counting, h]
        exact ⟨by omega, by simp⟩
      | none =>
        by_cases hx : b.headD 0 < 0x80
        · simp only [prefixLoop, counting, h, hx, if_true, List.length_append, List.length_singleton]
          exact ⟨by omega, fun _ => by omega⟩
        · have := counting_prefixLoop maxSize k s' (m + b.length) (bs ++ [b.headD 0])
            (if ((bs.length + 1 : Nat) : Int) ≥ maxSize then some .readOverflow else none)
          have heq : prefixLoop (counting R) maxSize (k + 1) (s, m) bs e =
              prefixLoop (counting R) maxSize k (s', m + b.length) (bs ++ [b.headD 0])
                (if ((bs.length + 1 : Nat) : Int) ≥ maxSize then some .readOverflow else none) := by
            conv => lhs; unfold prefixLoop
            simp only [counting, h, hx, if_false]
          rw [heq]
          simp only [List.length_append, List.length_singleton] at this
          exact ⟨Nat.le_trans this.1 (by omega), fun h => by have := this.2 h; omega⟩

theorem counting_readFull : ∀ (f : Nat) (s : σ) (m l : Nat) (acc : Bytes) (r : (σ × Nat) × Bytes × Option Err),
    readFull (counting R) f (s, m) l acc = some r → r.1.2 ≤ m + l
  | f, s, m, 0, acc, r, h => by
    cases f <;> simp [readFull] at h <;> rw [← h] <;> simp
  | 0, s, m, l + 1, acc, r, h => by simp [readFull] at h
  | f + 1, s, m, l + 1, acc, r, h => by
    have hle := R.le s (l + 1)
    cases hr : R.read s (l + 1) with
    | mk s' be =>
      obtain ⟨b, e'⟩ := be
      rw [hr] at hle
      simp only at hle
      simp only [readFull, counting, hr] at h
      split at h
      · cases h; simp only; omega
      · cases e' with
        | some e' => cases h; simp only; omega
        | none =>
          have := counting_readFull f s' (m + b.length) (l + 1 - b.length) (acc ++ b) r h
          omega

theorem bodyLength_fits {maxSize : Int} {n l : Nat} {u : UInt64} (hm : 0 < maxSize) (h : bodyLength maxSize n u = .ok l) :
    ((n + l : Nat) : Int) ≤ maxSize := by
  unfold bodyLength at h
  split at h
  · cases h
  split at h
  · cases h
  split at h
  · cases h
  · rename_i h1 h2 h3
    cases h
    have : intOfU64 u = u.toNat := by
      unfold intOfU64 at h3 ⊢
      have := u.toNat_lt
      split <;> rename_i hh
      · rfl
      · rw [if_neg hh] at h3; omega
    rw [this] at h2
    omega

/-- C20: with a positive maxSize, whatever the reader does and whatever the bytes are: at most maxSize or 10 bytes are
taken from it, whichever is more. -/
theorem C20_consumed (fuel rf : Nat) {maxSize : Int} (hm : 0 < maxSize) (t : Ty) (p : Val) (s : σ) :
    ((unmarshalReader (counting R) Γ c fuel rf maxSize t p (s, 0)).state.2 : Int) ≤ max maxSize 10 := by
  have hp := counting_prefixLoop (R := R) maxSize 10 s 0 [] none
  unfold unmarshalReader
  rw [if_neg (by omega)]
  generalize prefixLoop (counting R) maxSize 10 (s, 0) [] none = P at hp ⊢
  obtain ⟨⟨s1, m⟩, bs, e⟩ := P
  simp only [List.length_nil] at hp
  obtain ⟨hp1, hp2⟩ := hp
  unfold readBody
  cases e with
  | some e => simp only; omega
  | none =>
    simp only
    have hp2 := hp2 rfl
    split
    · simp only; omega
    · simp only; omega
    · simp only; omega
    · rename_i l hb
      have hf := bodyLength_fits hm hb
      split
      · simp only; omega
      · rename_i s2 _ _ hr
        have := counting_readFull _ _ _ _ _ _ hr
        simp only at this ⊢
        omega
      · rename_i s2 _ hr
        have := counting_readFull _ _ _ _ _ _ hr
        simp only at this ⊢
        omega

/-- C20: the body buffer made is at most maxSize minus the prefix long. -/
theorem C20_allocated {maxSize : Int} (hm : 0 < maxSize) {n l : Nat} {u : UInt64} (h : bodyLength maxSize n u = .ok l) :
    ((n + l : Nat) : Int) ≤ maxSize := bodyLength_fits hm h

/-- C20: the call succeeds only if prefix and body together fit in maxSize. -/
theorem C20_accepted (fuel rf : Nat) {maxSize : Int} (hm : 0 < maxSize) (t : Ty) (p : Val) (s : σ) {v : Val}
    (h : (unmarshalReader R Γ c fuel rf maxSize t p s).out = .ok v) :
    ((unmarshalReader R Γ c fuel rf maxSize t p s).n : Int) ≤ maxSize := by
  unfold unmarshalReader at h ⊢
  rw [if_neg (by omega)] at h ⊢
  generalize prefixLoop R maxSize 10 s [] none = P at h ⊢
  obtain ⟨s1, bs, e⟩ := P
  unfold readBody at h ⊢
  cases e with
  | some e => cases h
  | none =>
    simp only at h ⊢
    cases hb : bodyLength maxSize bs.length (prefixValue bs) with
    | err | panic | oof => rw [hb] at h; cases h
    | ok l =>
      rw [hb] at h
      have hf := bodyLength_fits hm hb
      simp only at h ⊢
      cases hr : readFull R rf s1 l [] with
      | none => simp only; omega
      | some r =>
        obtain ⟨s2, b, e⟩ := r
        cases e with
        | some e => simp only; omega
        | none => exact hf

/-- A message of 3 + 1 bytes is accepted with maxSize 4 and refused with maxSize 3, without reading the body. -/
example :
    let o := unmarshalReader (counting memReader) Demo.prog Demo.codecFoo 6 10 4 (.base Demo.subT)
      (.struct [.int 0, .bool false]) ([3, 8, 129, 1, 5, 5, 5], 0)
    o.out = .ok (.struct [.int 129, .bool false]) ∧ o.state.2 = 4 ∧
    let o := unmarshalReader (counting memReader) Demo.prog Demo.codecFoo 6 10 3 (.base Demo.subT)
      (.struct [.int 0, .bool false]) ([3, 8, 129, 1, 5, 5, 5], 0)
    o.out = .err .readOverflow ∧ o.state.2 = 1 := by
  decide +kernel

/-! ## C21 -/

/-- The stream begins with a length prefix that is not a valid 64 bit uvarint: nine bytes with continuation bit, and
the tenth one goes on or does not fit. -/
def Spec.Malformed (s : Bytes) : Prop :=
  ∃ ds x tail, s = ds ++ x :: tail ∧ ds.length = 9 ∧ (∀ d ∈ ds, ¬ d < 0x80) ∧ 1 < x

theorem prefixOn_long (maxSize : Int) : ∀ (ds tail bs : Bytes) (k : Nat) (e : Option Err), (∀ d ∈ ds, ¬ d < 0x80) →
    ds ≠ [] →
    prefixOn maxSize (ds.length + k) (ds ++ tail) bs e = prefixOn maxSize k tail (bs ++ ds)
      (if ((bs.length + ds.length : Nat) : Int) ≥ maxSize then some .readOverflow else none)
  | [], _, _, _, _, _, h => absurd rfl h
  | [d], tail, bs, k, e, hd, _ => by
    simp only [List.length_singleton, Nat.add_comm 1 k, List.singleton_append, prefixOn, if_neg (hd d (by simp))]
  | d :: d' :: ds, tail, bs, k, e, hd, _ => by
    have := prefixOn_long maxSize (d' :: ds) tail (bs ++ [d]) k
      (if ((bs.length + 1 : Nat) : Int) ≥ maxSize then some .readOverflow else none) (fun d h => hd d (by simp [h])) (by simp)
    rw [show (d :: d' :: ds).length + k = ((d' :: ds).length + k) + 1 by simp; omega, List.cons_append, prefixOn,
      if_neg (hd d (by simp)), this]
    simp only [List.length_append, List.append_assoc, List.singleton_append, List.length_cons]
    rw [show bs.length + (([] : Bytes).length + 1) + (ds.length + 1) = bs.length + (ds.length + 1 + 1) by simp; omega]

theorem readVarint_long : ∀ (ds tail : Bytes), (∀ d ∈ ds, ¬ d < 0x80) →
    readVarint (ds ++ tail) = (readVarint tail).map fun p => ((readVarint (ds ++ [0])).elim 0 (·.1) + 128 ^ ds.length * p.1, p.2 + ds.length)
  | [], tail, _ => by
    rw [List.nil_append]
    cases readVarint tail with
    | none => rfl
    | some p => simp [readVarint]
  | d :: ds, tail, hd => by
    have hd0 := hd d (by simp)
    rw [UInt8.lt_iff_toNat_lt] at hd0
    simp at hd0
    have ih := readVarint_long ds tail (fun d h => hd d (by simp [h]))
    have ih0 := readVarint_long ds [0] (fun d h => hd d (by simp [h]))
    simp only [List.cons_append, readVarint, if_neg (by omega : ¬ d.toNat < 128)]
    rw [ih]
    cases readVarint tail with
    | none => simp only [Option.map_none]
    | some p =>
      simp only [Option.map_some, Option.some.injEq, Prod.mk.injEq, List.length_cons]
      refine ⟨?_, by omega⟩
      cases h0 : readVarint (ds ++ [0]) with
      | none => rw [h0] at ih0; simp [readVarint] at ih0
      | some q =>
        simp only [Option.map_some, Option.elim_some, Nat.pow_succ]
        rw [Nat.mul_add, Nat.mul_comm (128 ^ ds.length) 128, Nat.mul_assoc]
        omega

/-- The value read from a malformed prefix is 0. -/
theorem prefixValue_malformed {ds : Bytes} {x : UInt8} (hl : ds.length = 9) (hd : ∀ d ∈ ds, ¬ d < 0x80) (hx : 1 < x) :
    prefixValue (ds ++ [x]) = 0 := by
  unfold prefixValue
  rw [uvarint_eq, show 10 - (ds ++ [x]).length = 0 by simp [hl]]
  rw [List.replicate_zero, List.append_nil, readVarint_long ds [x] hd, hl]
  rw [UInt8.lt_iff_toNat_lt] at hx
  simp at hx
  by_cases hx8 : x.toNat < 128
  · simp only [readVarint, hx8, if_true, Option.map_some]
    rw [if_neg]
    intro h
    have := h.2
    omega
  · simp only [readVarint, hx8, if_false, Option.map_none]

/-- What the reader does with a malformed prefix: it is refused if maxSize is too small for ten bytes (for some
prefixes also if maxSize is 10 or 0), and otherwise taken for the length 0. -/
theorem C21_malformedIsEmpty (hR : Streams R rest) {maxSize : Int} (hm : 0 ≤ maxSize) (fuel rf : Nat) (hrf : maxAlloc ≤ rf)
    (t : Ty) (p : Val) (s : σ) {ds tail : Bytes} {x : UInt8} (hs : rest s = ds ++ x :: tail) (hl : ds.length = 9)
    (hd : ∀ d ∈ ds, ¬ d < 0x80) (hx : 1 < x) :
    let o := unmarshalReader R Γ c fuel rf maxSize t p s
    o.n = 10 ∧ rest o.state = tail ∧
    o.out = if (¬ x < 0x80 ∧ maxSize ≤ 10) ∨ (0 < maxSize ∧ maxSize < 10) then .err .readOverflow
      else unmarshalBare Γ c fuel t p [] := by
  obtain ⟨s1, h1, h2⟩ := unmarshalReader_stream (Γ := Γ) (c := c) hR hm fuel rf t p s hrf
  simp only [h1, h2, hs]
  have hp := prefixOn_long maxSize ds (x :: tail) [] 1 none hd (by intro h; rw [h] at hl; simp at hl)
  rw [hl] at hp
  simp only [List.nil_append, List.length_nil] at hp
  rw [show (10 : Nat) = 9 + 1 from rfl, hp]
  have hv := prefixValue_malformed hl hd hx
  have hlen : (ds ++ [x]).length = 10 := by simp [hl]
  by_cases hx8 : x < 0x80
  · simp only [prefixOn, if_pos hx8, bodyOn, hv, hlen]
    by_cases hsz : 0 < maxSize ∧ maxSize < 10
    · rw [if_pos (.inr hsz)]
      have : bodyLength maxSize 10 0 = .err .readOverflow := by
        have h0 : intOfU64 0 = 0 := by decide
        unfold bodyLength
        rw [if_neg (by simp; omega), h0, if_pos (by omega)]
      rw [this]
      exact ⟨rfl, rfl, rfl⟩
    · rw [if_neg (by intro h; rcases h with h | h; exact h.1 hx8; exact hsz h)]
      have : bodyLength maxSize 10 0 = .ok 0 := by
        have h0 : intOfU64 0 = 0 := by decide
        unfold bodyLength
        rw [if_neg (by simp; omega), h0, if_neg (by omega), if_neg (by omega)]
        rfl
      rw [this]
      simp
  · simp only [prefixOn, if_neg hx8]
    by_cases hsz : maxSize ≤ 10
    · rw [if_pos (by rw [hl]; omega), if_pos (.inl ⟨hx8, hsz⟩)]
      simp only [bodyOn, hlen]
      exact ⟨trivial, trivial, trivial⟩
    · rw [if_neg (by rw [hl]; omega), if_neg (by omega)]
      have : bodyLength maxSize 10 0 = .ok 0 := by
        have h0 : intOfU64 0 = 0 := by decide
        unfold bodyLength
        rw [if_neg (by simp; omega), h0, if_neg (by omega), if_neg (by omega)]
        rfl
      simp only [bodyOn, hv, hlen, this]
      simp

/-- C21 for registered concrete types (whose messages are never empty) and for tight limits: a malformed length prefix
is never accepted.

Missing for the full statement: unregistered types with a larger (or no) maxSize, where it is false
(`C21_refuted`). -/
theorem C21_rejected_partial (hR : Streams R rest) {maxSize : Int} (hm : 0 ≤ maxSize) (fuel rf : Nat) (hrf : maxAlloc ≤ rf)
    (t : Ty) (p : Val) (s : σ) (hs : Malformed (rest s)) (hc : (c.conc? t.deref).isSome = true ∨ (0 < maxSize ∧ maxSize < 10))
    (v : Val) : (unmarshalReader R Γ c fuel rf maxSize t p s).out ≠ .ok v := by
  obtain ⟨ds, x, tail, hs, hl, hd, hx⟩ := hs
  obtain ⟨_, _, h⟩ := C21_malformedIsEmpty (Γ := Γ) (c := c) hR hm fuel rf hrf t p s hs hl hd hx
  rw [h]
  split
  · simp
  · rename_i hn
    rcases hc with hc | hc
    · unfold unmarshalBare
      cases hg : getInfo Γ c t.deref with
      | err | panic | oof => simp
      | ok u =>
        obtain ⟨ci, hci⟩ := Option.isSome_iff_exists.mp hc
        simp only [Res.bind_ok, stripPrefix, hci]
        simp
    · exact absurd (.inr hc) hn

/-- C21 is false in general: twelve bytes `ff ff ff ff ff ff ff ff ff 7f` and more are accepted as an empty `Sub`. -/
theorem C21_refuted :
    Malformed [255, 255, 255, 255, 255, 255, 255, 255, 255, 127, 1, 2] ∧
    let o := unmarshalReader memReader Demo.prog Demo.codecFoo 6 maxAlloc 100 (.base Demo.subT)
      (.struct [.int 0, .bool false]) [255, 255, 255, 255, 255, 255, 255, 255, 255, 127, 1, 2]
    o.n = 10 ∧ o.out = .ok (.struct [.int 0, .bool false]) := by
  refine ⟨⟨[255, 255, 255, 255, 255, 255, 255, 255, 255], 127, [1, 2], rfl, rfl, by decide, by decide⟩, ?_⟩
  decide +kernel

/-- `Foo` is registered: the same bytes are refused. -/
example : Malformed [255, 255, 255, 255, 255, 255, 255, 255, 255, 127, 1, 2] ∧
    (Demo.codecFoo.conc? (Ty.base Demo.fooT).deref).isSome = true ∧
    (unmarshalReader memReader Demo.prog Demo.codecFoo 6 maxAlloc 100 (.base Demo.fooT) (.struct [.int 0])
      [255, 255, 255, 255, 255, 255, 255, 255, 255, 127, 1, 2]).out = .err .prefixMismatch :=
  ⟨C21_refuted.1, by decide, by decide +kernel⟩

/-! ## C56: every behaviour allowed by the io.Reader contract -/

theorem prefixLoop_eof (hR : StreamsEof R rest) (maxSize : Int) : ∀ (ds : Bytes) (k : Nat) (s : σ) (bs tail : Bytes)
    (x : UInt8) (e : Option Err), ds.length < k → (∀ d ∈ ds, ¬ d < 0x80) → x < 0x80 → tail ≠ [] → rest s = ds ++ x :: tail →
    ∃ s', prefixLoop R maxSize k s bs e = (s', bs ++ ds ++ [x], none) ∧ rest s' = tail
  | ds, 0, s, bs, tail, x, e, hk, hd, hx, ht, hs => by omega
  | ds, k + 1, s, bs, tail, x, e, hk, hd, hx, ht, hs => by
    obtain ⟨b, s', e', h, hb, hbl, hrest, he⟩ := (hR s 1 (by omega)).2 (by rw [hs]; simp)
    obtain ⟨y, rfl⟩ : ∃ y, b = [y] := by
      match b, hb, hbl with
      | [y], _, _ => exact ⟨y, rfl⟩
      | _ :: _ :: _, _, hbl => simp at hbl
    rw [hs] at hrest
    cases ds with
    | nil =>
      simp only [List.nil_append, List.singleton_append, List.cons.injEq] at hrest
      obtain ⟨rfl, rfl⟩ := hrest
      obtain rfl : e' = none := he.resolve_right ht
      refine ⟨s', ?_, rfl⟩
      simp only [prefixLoop, h, List.headD_cons, hx, if_true, List.append_nil]
    | cons d ds =>
      simp only [List.cons_append, List.cons.injEq, List.nil_append] at hrest
      obtain ⟨rfl, hr⟩ := hrest
      obtain rfl : e' = none := he.resolve_right (by rw [← hr]; simp)
      have hd0 := hd d (by simp)
      simp only [prefixLoop, h, List.headD_cons, hd0, if_false]
      obtain ⟨s'', e1, e2⟩ := prefixLoop_eof hR maxSize ds k s' (bs ++ [d]) tail x
        (if ((bs.length + 1 : Nat) : Int) ≥ maxSize then some .readOverflow else none)
        (by simpa using hk) (fun d h => hd d (by simp [h])) hx ht hr.symm
      exact ⟨s'', by rw [e1]; simp, e2⟩

theorem readFull_eof (hR : StreamsEof R rest) : ∀ (f : Nat) (s : σ) (l : Nat) (acc : Bytes), l ≤ f → l ≤ (rest s).length →
    ∃ s', readFull R f s l acc = some (s', acc ++ (rest s).take l, none) ∧ rest s' = (rest s).drop l
  | f, s, 0, acc, _, _ => ⟨s, by cases f <;> simp [readFull], by simp⟩
  | 0, s, l + 1, acc, h, _ => by omega
  | f + 1, s, l + 1, acc, hf, hl => by
    obtain ⟨b, s', e', h, hb, hbl, hrest, he⟩ := (hR s (l + 1) (by omega)).2 (by intro h; rw [h] at hl; simp at hl)
    rw [hrest]
    have hpos : 0 < b.length := by cases b <;> simp at hb ⊢
    rw [hrest] at hl
    simp only [List.length_append] at hl
    simp only [readFull, h]
    split
    · have hl : b.length = l + 1 := by omega
      refine ⟨s', ?_, ?_⟩
      · rw [← hl, List.take_left]
      · rw [← hl, List.drop_left]
    · obtain rfl : e' = none := he.resolve_right (by intro h; rw [h] at hl; simp at hl; omega)
      obtain ⟨s'', e1, e2⟩ := readFull_eof hR f s' (l + 1 - b.length) (acc ++ b) (by omega) (by omega)
      refine ⟨s'', ?_, ?_⟩
      · simp only
        rw [e1, List.take_append, List.take_of_length_le (by omega : b.length ≤ l + 1)]
        simp
      · rw [e2, List.drop_append, List.drop_of_length_le (by omega : b.length ≤ l + 1)]
        simp

/-- C56 for messages with a body: a reader may report the end of file together with the last bytes of the body.

Missing for the full statement: messages without body, where the end of file comes with the length prefix, and
reads without bytes; there the claim is false (`C56_eofWithPrefix_refuted`, `C56_emptyRead_refuted`). -/
theorem C56_exact_partial (hR : StreamsEof R rest) {maxSize : Int} (hm : 0 ≤ maxSize) (fuel rf : Nat) (hrf : maxAlloc ≤ rf)
    (t : Ty) (p : Val) (s : σ) {b tail : Bytes} (hs : rest s = varint b.length ++ b ++ tail) (hb : b ≠ [])
    (hl : b.length ≤ maxAlloc) (hfit : maxSize = 0 ∨ ((varint b.length ++ b).length : Int) ≤ maxSize) :
    let o := unmarshalReader R Γ c fuel rf maxSize t p s
    o.n = (varint b.length ++ b).length ∧ o.out = unmarshalBare Γ c fuel t p b ∧ rest o.state = tail := by
  have hl' : b.length < 2 ^ 64 := by unfold maxAlloc at hl; omega
  obtain ⟨ds, x, hv, hd, hx⟩ := varint_split b.length
  have hvl := varint_u64_length b.length hl'
  have hv10 : ds.length < 10 := by rw [hv] at hvl; simp at hvl; omega
  obtain ⟨s1, h1, h2⟩ := prefixLoop_eof hR maxSize ds 10 s [] (b ++ tail) x none hv10 hd hx (by simp [hb])
    (by rw [hs, hv]; simp)
  rw [List.nil_append, ← hv] at h1
  have hbl : bodyLength maxSize (varint b.length).length (prefixValue (varint b.length)) = .ok b.length := by
    have hv := prefixValue_varint hl'
    have hi : intOfU64 (prefixValue (varint b.length)) = b.length := by
      unfold intOfU64
      rw [hv, if_pos (by unfold maxAlloc at hl; omega)]
    unfold bodyLength
    rw [hv, hi]
    simp only [List.length_append] at hfit
    rw [if_neg (by omega), if_neg (by omega), if_neg (by omega)]
  obtain ⟨s2, h3, h4⟩ := readFull_eof hR rf s1 b.length [] (by omega) (by rw [h2]; simp)
  rw [h2, List.take_left, List.nil_append] at h3
  rw [h2, List.drop_left] at h4
  have : unmarshalReader R Γ c fuel rf maxSize t p s =
      ⟨s2, (varint b.length).length + b.length, unmarshalBare Γ c fuel t p b⟩ := by
    unfold unmarshalReader
    rw [if_neg (by omega), h1]
    simp only [readBody, hbl, h3]
  simp only [this, List.length_append]
  exact ⟨trivial, trivial, h4⟩

theorem eofReader_streams : StreamsEof eofReader id := by
  intro s k hk
  refine ⟨fun h => ⟨[], by simp only [id] at h; simp [eofReader, h], rfl⟩,
    fun h => ⟨s.take k, s.drop k, _, rfl, ?_, by simp; omega, by simp, ?_⟩⟩
  · cases s with
    | nil => simp at h
    | cons x xs => cases k with
      | zero => omega
      | succ k => simp
  · by_cases hl : s.length ≤ k
    · exact .inr (by simp [List.drop_eq_nil_of_le hl])
    · simp only [if_neg hl]
      exact .inl trivial

example :
    let o := unmarshalReader eofReader Demo.prog Demo.codecFoo 6 maxAlloc 0 (.base Demo.subT) (.struct [.int 0, .bool false])
      [2, 8, 5]
    o.n = 3 ∧ o.out = .ok (.struct [.int 5, .bool false]) := by
  have := C56_exact_partial (Γ := Demo.prog) (c := Demo.codecFoo) eofReader_streams (maxSize := 0) (by omega) 6 maxAlloc
    (Nat.le_refl _) (.base Demo.subT) (.struct [.int 0, .bool false]) [2, 8, 5] (b := [8, 5]) (tail := [])
    (by simp [varint]) (by simp) (by decide) (.inl rfl)
  refine ⟨this.1.trans (by simp [varint]), this.2.1.trans (by decide +kernel)⟩

/-- C56 is false: the message `00` (an empty `Sub`) is refused if the reader reports the end of file with it. -/
theorem C56_eofWithPrefix_refuted :
    (unmarshalReader eofReader Demo.prog Demo.codecFoo 6 maxAlloc 0 (.base Demo.subT) (.struct [.int 0, .bool false]) [0]).out =
      .err .ioEOF ∧
    (unmarshalReader memReader Demo.prog Demo.codecFoo 6 maxAlloc 0 (.base Demo.subT) (.struct [.int 0, .bool false]) [0]).out =
      .ok (.struct [.int 0, .bool false]) := by
  decide +kernel

/-- C56 is false: a Read without bytes (and without error) is taken for a length 0. -/
theorem C56_emptyRead_refuted :
    (unmarshalReader lazyReader Demo.prog Demo.codecFoo 6 maxAlloc 0 (.base Demo.subT) (.struct [.int 0, .bool false])
      [[], [2, 8, 5]]).out = .ok (.struct [.int 0, .bool false]) ∧
    (unmarshalReader lazyReader Demo.prog Demo.codecFoo 6 maxAlloc 0 (.base Demo.subT) (.struct [.int 0, .bool false])
      [[2, 8, 5]]).out = .ok (.struct [.int 5, .bool false]) := by
  decide +kernel

end Amino
