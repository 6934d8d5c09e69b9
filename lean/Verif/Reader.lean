import Verif.AminoApi

/-!
# amino.go: UnmarshalBinaryLengthPrefixedReader

An `io.Reader` is a state machine: `Read(p)` with `len(p) = k` is `read s k`, giving the new state, the bytes
put into `p` and the error.  `Err.ioEOF` is `io.EOF`.
-/

namespace Amino

/-- An `io.Reader` with states `σ`. -/
structure Reader (σ : Type) where
  read : σ → Nat → σ × Bytes × Option Err
  /-- the io.Reader contract: `0 <= n <= len(p)` -/
  le : ∀ s k, (read s k).2.1.length ≤ k

section
variable {σ : Type} (R : Reader σ)

/-- amino.go:299-316: the loop over `buf[i]`; first argument: rounds left of 10.  `bs` is `buf[:i]`, so its
length is `i` and `n`.  A Read that returns no byte and no error leaves `buf[i]` 0.  The error of the size
check is overwritten by the next Read.  The result is the state, the bytes read and `err`; in both places where
the Go code returns because of `err` (lines 301-303, 318-320) it returns this `n` and `err`. -/
def prefixLoop (maxSize : Int) : Nat → σ → Bytes → Option Err → σ × Bytes × Option Err
  | 0, s, bs, err => (s, bs, err)
  | k + 1, s, bs, _ =>
    match R.read s 1 with
    | (s, _, some e) => (s, bs, some e)
    | (s, b, none) =>
      if b.headD 0 < 0x80 then (s, bs ++ [b.headD 0], none)
      else
        prefixLoop maxSize k s (bs ++ [b.headD 0])
          (if ((bs.length + 1 : Nat) : Int) ≥ maxSize then some .readOverflow else none)

/-- amino.go:317 `binary.Uvarint(buf[:])`: all of the 10 byte buffer, zeros behind the bytes read; the count is
ignored. -/
def prefixValue (bs : Bytes) : UInt64 := (uvarint (bs ++ List.replicate (10 - bs.length) 0)).1

/-- `make([]byte, l)` panics for `l` above this (linux/amd64, Go 1.12: `maxAlloc` of runtime/malloc.go). -/
def maxAlloc : Nat := 2 ^ 48

/-- amino.go:321-342: the size checks and `make([]byte, l)`, giving the `l` allocated.  The error for `l < 0` is
built but not returned, so `make` panics. -/
def bodyLength (maxSize : Int) (n : Nat) (u : UInt64) : Res Nat :=
  if maxSize > 0 ∧ maxSize < (u.toNat : Int) then .err .readOverflow
  else if maxSize > 0 ∧ maxSize - (n : Int) < intOfU64 u then .err .readOverflow
  else if intOfU64 u < 0 ∨ intOfU64 u > maxAlloc then .panic .negSize
  else .ok u.toNat

/-- `io.ReadFull(r, bz)` = `io.ReadAtLeast(r, bz, len(bz))`: `for n < min && err == nil { nn, err = r.Read(buf[n:]);
n += nn }; if n >= min { err = nil } else if n > 0 && err == EOF { err = ErrUnexpectedEOF }`.  First argument: bound on the number of Read calls (`none` if exceeded;
a reader may return nothing forever). -/
def readFull : Nat → σ → Nat → Bytes → Option (σ × Bytes × Option Err)
  | _, s, 0, acc => some (s, acc, none)
  | 0, _, _ + 1, _ => none
  | f + 1, s, l + 1, acc =>
    match R.read s (l + 1) with
    | (s, b, e) =>
      if b.length ≥ l + 1 then some (s, acc ++ b, none)
      else match e with
        | some e => some (s, acc ++ b, some (if e = .ioEOF ∧ acc ++ b ≠ [] then .unexpectedEOF else e))
        | none => readFull f s (l + 1 - b.length) (acc ++ b)

/-- State of the reader afterwards, returned `n`, outcome. -/
structure ReadOut (σ : Type) where
  state : σ
  n : Nat
  out : Res Val

variable (Γ : Prog) (c : Codec) (fuel : Nat)

/-- amino.go:318-349, after the prefix loop. -/
def readBody (rf : Nat) (maxSize : Int) (t : Ty) (prior : Val) (p : σ × Bytes × Option Err) : ReadOut σ :=
  match p with
  | (s, bs, some e) => ⟨s, bs.length, .err e⟩
  | (s, bs, none) =>
    match bodyLength maxSize bs.length (prefixValue bs) with
    | .err e => ⟨s, bs.length, .err e⟩
    | .panic p => ⟨s, bs.length, .panic p⟩
    | .oof => ⟨s, bs.length, .oof⟩
    | .ok l =>
      match readFull R rf s l [] with
      | none => ⟨s, bs.length, .oof⟩
      | some (s, _, some e) => ⟨s, bs.length, .err e⟩
      | some (s, b, none) => ⟨s, bs.length + l, unmarshalBare Γ c fuel t prior b⟩

/-- amino.go:290-350 `UnmarshalBinaryLengthPrefixedReader` into a variable of type `t` holding `prior`. -/
def unmarshalReader (rf : Nat) (maxSize : Int) (t : Ty) (prior : Val) (s : σ) : ReadOut σ :=
  if maxSize < 0 then ⟨s, 0, .panic .negSize⟩
  else readBody R Γ c fuel rf maxSize t prior (prefixLoop R maxSize 10 s [] none)

/-- Successive calls on one reader. -/
def readMany (rf : Nat) (maxSize : Int) : List (Ty × Val) → σ → List (Nat × Res Val) × σ
  | [], s => ([], s)
  | (t, p) :: ts, s =>
    let o := unmarshalReader R Γ c fuel rf maxSize t p s
    let r := readMany rf maxSize ts o.state
    ((o.n, o.out) :: r.1, r.2)

end

end Amino
