import Verif.SpecArgs
import Verif.PropsApi
import Verif.PropsReader
import Verif.JDemo

/-!
# C115: targets that cannot be written to
-/

namespace Amino
open Spec

section
variable {Γ : Prog} {c : Codec} {J : JLib} {fuel : Nat}

/-- C115: with a pointer to a variable the calls are those of all the other claims. -/
theorem C115_pointer (bz : Bytes) (t : Ty) (p : Val) : unmarshalBareArg Γ c fuel bz (.ptr t p) = unmarshalBare Γ c fuel t p bz ∧
    unmarshalLPArg Γ c fuel bz (.ptr t p) = unmarshalLP Γ c fuel t p bz ∧
    unmarshalJSONArg Γ c J fuel bz (.ptr t p) = unmarshalJSON Γ c J fuel t p bz := by
  refine ⟨rfl, rfl, ?_⟩
  unfold unmarshalJSONArg unmarshalJSON
  split <;> rfl

/-- What UnmarshalBinaryLengthPrefixed does before it looks at the pointer. -/
theorem lpArg_cases (bz : Bytes) (a : Arg) :
    (∃ n l, readVarint bz = some (n, l) ∧ l ≤ 10 ∧ bz.length = l + n ∧ n < 2 ^ 64 ∧
      unmarshalLPArg Γ c fuel bz a = unmarshalBareArg Γ c fuel (bz.drop l) a) ∨
    (¬ FramedExactly bz ∧ ∃ e, unmarshalLPArg Γ c fuel bz a = .err e) := by
  unfold unmarshalLPArg
  by_cases h0 : bz.length = 0
  · right
    rw [if_pos h0]
    refine ⟨?_, _, rfl⟩
    rintro ⟨n, l, hr, _, hl, _⟩
    have := readVarint_len hr
    omega
  rw [if_neg h0, uvarint_eq]
  cases hr : readVarint bz with
  | none =>
    right
    refine ⟨?_, .lenMismatch, ?_⟩
    · rintro ⟨n, l, hr', _⟩; rw [hr] at hr'; cases hr'
    · simp only [UInt64.toNat_zero, Int.toNat_zero]
      rw [if_neg (by omega), if_neg (by omega), if_pos (by omega)]
  | some q =>
    obtain ⟨n, l⟩ := q
    have hl := readVarint_len hr
    simp only
    by_cases hc : l ≤ 10 ∧ n < 2 ^ 64
    · rw [if_pos hc]
      simp only [UInt64.toNat_ofNat', Int.toNat_natCast, Nat.mod_eq_of_lt hc.2]
      rw [if_neg (by omega)]
      by_cases he : bz.length = l + n
      · left
        refine ⟨n, l, rfl, hc.1, he, hc.2, ?_⟩
        rw [if_neg (by omega), if_neg (by omega)]
      · right
        refine ⟨?_, .lenMismatch, ?_⟩
        · rintro ⟨n', l', hr', _, hh, _⟩
          rw [hr] at hr'; cases hr'; exact he hh
        · split
          · rfl
          · rw [if_pos (by omega)]
    · right
      rw [if_neg hc]
      refine ⟨?_, .varintOverflow, ?_⟩
      · rintro ⟨n', l', hr', h1, _, h2⟩
        rw [hr] at hr'; cases hr'; exact hc ⟨h1, h2⟩
      · rw [if_pos (by simp only; omega)]

/-- C115: something that is not a pointer is refused with an error, whatever the input. -/
theorem C115_nonpointer {a : Arg} (ha : NoPtr a) (bz : Bytes) : unmarshalBareArg Γ c fuel bz a = .err .notPointer ∧
    (∃ e, unmarshalLPArg Γ c fuel bz a = .err e) ∧ ∃ e, unmarshalJSONArg Γ c J fuel bz a = .err e := by
  have hb : ∀ bz, unmarshalBareArg Γ c fuel bz a = .err .notPointer := by intro bz; cases ha <;> rfl
  refine ⟨hb bz, ?_, ?_⟩
  · rcases lpArg_cases (Γ := Γ) (c := c) (fuel := fuel) bz a with ⟨n, l, _, _, _, _, h⟩ | ⟨_, h⟩
    · exact ⟨_, h.trans (hb _)⟩
    · exact h
  · unfold unmarshalJSONArg
    split
    · exact ⟨_, rfl⟩
    · cases ha <;> exact ⟨_, rfl⟩

/-- C115: UnmarshalBinaryBare with a nil pointer panics, as documented, whatever the input. -/
theorem C115_nil_bare (bz : Bytes) (t : Ty) : ∃ p, unmarshalBareArg Γ c fuel bz (.nilPtr t) = .panic p := ⟨_, rfl⟩

/-- C115: UnmarshalBinaryLengthPrefixed with a nil pointer panics if and only if the length is right; otherwise it returns an
error. -/
theorem C115_nil_partial (bz : Bytes) (t : Ty) :
    ((∃ p, unmarshalLPArg Γ c fuel bz (.nilPtr t) = .panic p) ↔ FramedExactly bz) ∧
    (¬ FramedExactly bz → ∃ e, unmarshalLPArg Γ c fuel bz (.nilPtr t) = .err e) := by
  rcases lpArg_cases (Γ := Γ) (c := c) (fuel := fuel) bz (.nilPtr t) with ⟨n, l, h1, h2, h3, h4, h⟩ | ⟨hn, e, h⟩
  · have hf : FramedExactly bz := ⟨n, l, h1, h2, h3, h4⟩
    exact ⟨⟨fun _ => hf, fun _ => ⟨_, h⟩⟩, fun hn => absurd hf hn⟩
  · refine ⟨⟨?_, fun hf => absurd hf hn⟩, fun _ => ⟨e, h⟩⟩
    rintro ⟨p, hp⟩
    rw [h] at hp; cases hp

/-- C115: UnmarshalJSON with a nil pointer panics if and only if the text is not empty. -/
theorem C115_nil_json_partial (bz : Bytes) (t : Ty) : (∃ p, unmarshalJSONArg Γ c J fuel bz (.nilPtr t) = .panic p) ↔ bz ≠ [] := by
  unfold unmarshalJSONArg
  by_cases h : bz = []
  · simp [h]
  · simp [h]

/-- C115: MarshalBinaryBare and MarshalBinaryLengthPrefixed panic on nil and on nil pointers; MarshalJSON writes `null` for nil. -/
theorem C115_marshal {t : Ty} {v : Val} (hd : derefVal t v = none) :
    (∃ p, marshalBareArg Γ c fuel none = .panic p) ∧ (∃ p, marshalLPArg Γ c fuel none = .panic p) ∧
    marshalJSON Γ c J fuel none = .ok [0x6e, 0x75, 0x6c, 0x6c] ∧
    (∃ p, marshalBareArg Γ c fuel (some (t, v)) = .panic p) ∧ ∃ p, marshalLPArg Γ c fuel (some (t, v)) = .panic p := by
  have h : marshalBareArg Γ c fuel (some (t, v)) = .panic .nilTop := by
    simp only [marshalBareArg, marshalBare, hd]
  refine ⟨⟨_, rfl⟩, ⟨_, rfl⟩, rfl, ⟨_, h⟩, .nilTop, ?_⟩
  unfold marshalLPArg
  rw [h]; rfl

variable {σ : Type} {R : Reader σ} {rest : σ → Bytes}

/-- C115: what is read from the reader does not depend on the target. -/
theorem C115_reader_reads (rf : Nat) (maxSize : Int) (a b : Arg) (s : σ) :
    (unmarshalReaderArg Γ c fuel R rf maxSize a s).state = (unmarshalReaderArg Γ c fuel R rf maxSize b s).state ∧
    (unmarshalReaderArg Γ c fuel R rf maxSize a s).n = (unmarshalReaderArg Γ c fuel R rf maxSize b s).n := by
  unfold unmarshalReaderArg
  split
  · exact ⟨rfl, rfl⟩
  · unfold readBodyArg
    repeat' split
    all_goals exact ⟨rfl, rfl⟩

theorem C115_reader_pointer (rf : Nat) (maxSize : Int) (t : Ty) (p : Val) (s : σ) :
    unmarshalReaderArg Γ c fuel R rf maxSize (.ptr t p) s = unmarshalReader R Γ c fuel rf maxSize t p s := rfl

theorem readerArg_out (rf : Nat) (maxSize : Int) (a : Arg) (s : σ) :
    (∃ b, (unmarshalReaderArg Γ c fuel R rf maxSize a s).out = unmarshalBareArg Γ c fuel b a) ∨
    ∀ Γ' c' fuel' t p, (unmarshalReader R Γ' c' fuel' rf maxSize t p s).out = (unmarshalReaderArg Γ c fuel R rf maxSize a s).out := by
  unfold unmarshalReaderArg unmarshalReader
  split
  · exact .inr fun _ _ _ _ _ => rfl
  · unfold readBodyArg readBody
    generalize prefixLoop R maxSize 10 s [] none = P
    obtain ⟨s1, bs, e⟩ := P
    cases e with
    | some e => exact .inr fun _ _ _ _ _ => rfl
    | none =>
      dsimp only
      cases bodyLength maxSize bs.length (prefixValue bs) with
      | ok l =>
        dsimp only
        cases readFull R rf s1 l [] with
        | none => exact .inr fun _ _ _ _ _ => rfl
        | some q =>
          obtain ⟨s2, b, e⟩ := q
          cases e with
          | some e => exact .inr fun _ _ _ _ _ => rfl
          | none => exact .inl ⟨b, rfl⟩
      | err e => exact .inr fun _ _ _ _ _ => rfl
      | panic p => exact .inr fun _ _ _ _ _ => rfl
      | oof => exact .inr fun _ _ _ _ _ => rfl

/-- A program with one type. -/
def oneType (sh : Shape) : Prog where
  shape _ := sh
  zero _ := .nil
  marsh _ := none
  unmarsh _ := none
  implements _ _ := false
  byteId := 0

theorem readerArg_message (hR : Streams R rest) {maxSize : Int} (hm : 0 ≤ maxSize) (rf : Nat) (hrf : maxAlloc ≤ rf)
    (a : Arg) (s : σ) {b tail : Bytes} (hs : rest s = varint b.length ++ b ++ tail) (hl : b.length ≤ maxAlloc)
    (hfit : maxSize = 0 ∨ ((varint b.length ++ b).length : Int) ≤ maxSize) :
    let o := unmarshalReaderArg Γ c fuel R rf maxSize a s
    (∃ b, o.out = unmarshalBareArg Γ c fuel b a) ∧ o.n = (varint b.length ++ b).length ∧ rest o.state = tail := by
  obtain ⟨h1, h2, h3⟩ := C19_exact (Γ := Γ) (c := c) hR hm fuel rf hrf (.base 0) .nil s hs hl hfit
  obtain ⟨h4, h5⟩ := C115_reader_reads (Γ := Γ) (c := c) (fuel := fuel) (R := R) rf maxSize a (.ptr (.base 0) .nil) s
  rw [C115_reader_pointer] at h4 h5
  refine ⟨?_, h5.trans h1, by rw [h4]; exact h3⟩
  rcases readerArg_out (Γ := Γ) (c := c) (fuel := fuel) (R := R) rf maxSize a s with h | h
  · exact h
  · have g1 := h (oneType (.struct [])) {} 0 (.base 0) .nil
    have g2 := h (oneType .iface) {} 0 (.base 0) .nil
    rw [(C19_exact hR hm 0 rf hrf (.base 0) .nil s hs hl hfit).2.1] at g1 g2
    rw [← g2] at g1
    have e1 : unmarshalBare (oneType (.struct [])) {} 0 (.base 0) .nil b = .oof := rfl
    have e2 : unmarshalBare (oneType .iface) {} 0 (.base 0) .nil b = .err .unregisteredIface := rfl
    rw [e1, e2] at g1
    cases g1

/-- C115: with a complete message at the front of the stream, something that is not a pointer is refused with an error and a nil
pointer panics.  But the message is taken out of the stream all the same: the next call gets what comes after it. -/
theorem C115_reader_partial (hR : Streams R rest) {maxSize : Int} (hm : 0 ≤ maxSize) (rf : Nat) (hrf : maxAlloc ≤ rf)
    {a : Arg} (s : σ) {b tail : Bytes} (hs : rest s = varint b.length ++ b ++ tail) (hl : b.length ≤ maxAlloc)
    (hfit : maxSize = 0 ∨ ((varint b.length ++ b).length : Int) ≤ maxSize) :
    let o := unmarshalReaderArg Γ c fuel R rf maxSize a s
    o.n = (varint b.length ++ b).length ∧ rest o.state = tail ∧ (NoPtr a → o.out = .err .notPointer) ∧
      ∀ t, a = .nilPtr t → ∃ p, o.out = .panic p := by
  obtain ⟨⟨x, h1⟩, h2, h3⟩ := readerArg_message (Γ := Γ) (c := c) (fuel := fuel) hR hm rf hrf a s hs hl hfit
  refine ⟨h2, h3, ?_, ?_⟩
  · intro ha
    rw [h1]; cases ha <;> rfl
  · rintro t rfl
    exact ⟨_, h1⟩

end

/-- C115 is false for UnmarshalBinaryLengthPrefixed, which by its comment panics if ptr is a nil pointer: it returns an error if
the length is wrong.  UnmarshalJSON does so for the empty text. -/
theorem C115_nil_refuted : unmarshalLPArg Demo.prog Demo.codecFoo 5 [1] (.nilPtr (.base Demo.subT)) = .err .lenMismatch ∧
    unmarshalJSONArg JDemo.prog JDemo.codec JDemo.lib 5 [] (.nilPtr (.base JDemo.recT)) = .err .emptyInput := by
  decide +kernel

/-- C115 is false for readers: two messages are in the stream, the first call gets a value instead of a pointer and returns an
error, the second gets the second message.  The first is lost. -/
theorem C115_reader_refuted :
    let s : Bytes := [2, 8, 1, 2, 8, 5]
    let o := unmarshalReaderArg Demo.prog Demo.codecFoo 6 memReader maxAlloc 100 (.value Demo.subT (.struct [.int 0, .bool false])) s
    o.out = .err .notPointer ∧ o.n = 3 ∧
    (unmarshalReader memReader Demo.prog Demo.codecFoo 6 maxAlloc 100 (.base Demo.subT) (.struct [.int 0, .bool false]) o.state).out =
      .ok (.struct [.int 5, .bool false]) := by
  decide +kernel

/-! ## The hypotheses can be met -/

example := (C115_nonpointer (Γ := Demo.prog) (c := Demo.codecFoo) (J := JDemo.lib) (fuel := 5) (.value (id := Demo.subT) (v := .nil)) [1, 2, 3]).2.1

example : ∃ p, unmarshalLPArg Demo.prog Demo.codecFoo 5 [2, 8, 1] (.nilPtr (.base Demo.subT)) = .panic p :=
  (C115_nil_partial _ _).1.2 ⟨2, 1, rfl, by decide, rfl, by decide⟩

example := C115_reader_partial (Γ := Demo.prog) (c := Demo.codecFoo) (fuel := 5) (a := .none) memReader_streams (maxSize := 100) (by decide)
  maxAlloc (Nat.le_refl _) [2, 8, 1, 2, 8, 5] (b := [8, 1]) (tail := [2, 8, 5]) (by simp [varint]) (by decide) (.inr (by simp [varint]))

example := C115_marshal (Γ := Demo.prog) (c := Demo.codecFoo) (J := JDemo.lib) (fuel := 5) (t := .ptr (.base Demo.subT)) (v := .nil) rfl

end Amino
