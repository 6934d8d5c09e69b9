import Verif.Reader

/-!
# Specification of readers
-/

namespace Amino.Spec
variable {σ : Type}

/-- `rest s` is what the reader still has to deliver in state `s`: every Read of at least one byte delivers a
non-empty piece of any size (the reader's choice) from the front, and end of file when nothing is left. -/
def Streams (R : Reader σ) (rest : σ → Bytes) : Prop :=
  ∀ s k, 0 < k →
    (rest s = [] → ∃ s', R.read s k = (s', [], some .ioEOF) ∧ rest s' = []) ∧
    (rest s ≠ [] → ∃ b s', R.read s k = (s', b, none) ∧ b ≠ [] ∧ b.length ≤ k ∧ rest s = b ++ rest s')

/-- The reader together with the number of bytes it has delivered. -/
def counting (R : Reader σ) : Reader (σ × Nat) where
  read s k := (((R.read s.1 k).1, s.2 + (R.read s.1 k).2.1.length), (R.read s.1 k).2)
  le s k := R.le s.1 k

/-- Reads a stream from memory, as much as fits (`bytes.Reader`). -/
def memReader : Reader Bytes where
  read s k := (s.drop k, s.take k, if s = [] then some .ioEOF else none)
  le s k := by simp; omega

/-- Delivers a stream byte by byte (`iotest.OneByteReader`). -/
def byteReader : Reader Bytes where
  read s k := if k = 0 then (s, [], none) else
    match s with
    | [] => ([], [], some .ioEOF)
    | b :: s => (s, [b], none)
  le s k := by
    split
    · simp
    · cases s <;> simp; omega

/-- Delivers the given non-empty pieces (first byte, other bytes), at most one piece per Read (a connection). -/
def chunkReader : Reader (List (UInt8 × Bytes)) where
  read s k := if k = 0 then (s, [], none) else
    match s with
    | [] => ([], [], some .ioEOF)
    | (b, bs) :: s =>
      match bs.drop (k - 1) with
      | [] => (s, b :: bs, none)
      | b' :: bs' => ((b', bs') :: s, b :: bs.take (k - 1), none)
  le s k := by
    split
    · simp
    · cases s with
      | nil => simp
      | cons p s =>
        simp only
        split <;> rename_i h
        · simp at h ⊢; omega
        · simp; omega

/-- What `chunkReader` delivers. -/
def chunks (s : List (UInt8 × Bytes)) : Bytes := (s.map fun p => p.1 :: p.2).flatten

/-- As `Streams`, but the reader may report the end of the file together with the last bytes, as the io.Reader
contract allows. -/
def StreamsEof (R : Reader σ) (rest : σ → Bytes) : Prop :=
  ∀ s k, 0 < k →
    (rest s = [] → ∃ s', R.read s k = (s', [], some .ioEOF) ∧ rest s' = []) ∧
    (rest s ≠ [] → ∃ b s' e, R.read s k = (s', b, e) ∧ b ≠ [] ∧ b.length ≤ k ∧ rest s = b ++ rest s' ∧
      (e = none ∨ rest s' = []))

/-- Reads a stream from memory and reports the end of file with the last bytes (`iotest.DataErrReader`). -/
def eofReader : Reader Bytes where
  read s k := (s.drop k, s.take k, if s.length ≤ k then some .ioEOF else none)
  le s k := by simp; omega

/-- Delivers the given pieces, which may be empty (a Read of no bytes without an error, discouraged but allowed by
the contract). -/
def lazyReader : Reader (List Bytes) where
  read s k :=
    match s with
    | [] => ([], [], some .ioEOF)
    | b :: s => if b.length ≤ k then (s, b, none) else (b.drop k :: s, b.take k, none)
  le s k := by
    cases s with
    | nil => simp
    | cons b s => simp only; split <;> simp <;> omega

end Amino.Spec
