/-!
# Results of Go calls, byte strings and `slide`

Shared vocabulary of the model of tendermint/go-amino.
Source references are to files of the repository root (`/repo`).
-/

namespace Amino

/-- A Go `[]byte` (content only; capacity and aliasing are not modelled). -/
abbrev Bytes := List UInt8

/-- The error values the code can return.  Only the *reason* is kept, message texts are not
modelled.  Each constructor names the place(s) that build it. -/
inductive Err
  | bufTooSmall          -- decoder.go:68, 136 "buffer too small"
  | varintOverflow       -- decoder.go:73, 141 "EOF decoding (u)varint"
  | intRange             -- decoder.go:21, 35, 92, 103; binary-decode.go ErrOverflowInt
  | eof                  -- decoder.go: "EOF decoding int32" and friends
  | badBool              -- decoder.go:160 "invalid bool"
  | badTime              -- InvalidTimeErr, encoder.go:142, 161, decoder.go:244, 269
  | timeField            -- decoder.go:253 "expected field number 1 <Varint> or ..."
  | negLen               -- decoder.go:287 "invalid negative length"
  | insufficient         -- decoder.go:291, binary-decode.go:437
  | badFieldNum          -- binary-decode.go:973 "invalid field num"
  | unregisteredIface    -- codec.go:381
  | unregisteredConcrete -- binary-encode.go:235
  | multiDim             -- binary-encode.go:80, 106
  | floatUnsafe          -- "float support requires `amino:\"unsafe\"`"
  | nilElement           -- binary-encode.go:357
  | nonNilIface          -- binary-decode.go:330
  | noPrefix             -- binary-decode.go: EOF / expected prefix bytes
  | unknownDisfix        -- codec.go:424
  | unknownPrefix        -- codec.go:402
  | conflictingPrefix    -- codec.go:407
  | fieldNum             -- unexpected field number
  | fieldTyp             -- unexpected typ3
  | fieldOrder           -- binary-decode.go:833, 882
  | leftover             -- bytes left over
  | arrayLen             -- mismatched (byte) array length
  | badTyp3              -- binary-decode.go:917
  | prefixMismatch       -- amino.go:379
  | notPointer           -- amino.go ErrNoPointer
  | emptyInput           -- amino.go:266
  | lenMismatch          -- amino.go:274-280
  | readOverflow         -- amino.go reader limits
  | ioEOF                -- io.EOF, returned by the io.Reader
  | unexpectedEOF        -- io.ErrUnexpectedEOF of io.ReadFull
  | custom (n : Nat)     -- error returned by a user MarshalAmino/UnmarshalAmino
  | json                 -- any JSON syntax / shape error
  | unknownName          -- codec.go:441
  deriving DecidableEq, Repr

/-- The panics the code can raise. -/
inductive Pan
  | slide            -- reflect.go:51 "impossible slide"
  | index            -- Go runtime: index / slice bounds out of range
  | illTyped         -- reflect: value not of the kind the code asks for
  | badTyp3          -- binary-encode.go:483, reflect.go:221
  | badFieldNum      -- binary-encode.go:486
  | ifacePtr         -- binary-encode.go:223, binary-decode.go:38 "should not happen"
  | nilPtrInIface    -- binary-encode.go:227
  | nilTop           -- amino.go:203
  | invalidValue     -- binary-encode.go:31 "not allowed to be called with invalid / zero Value"
  | unsupported      -- binary-encode.go:197, binary-decode.go:307
  | unsafeFloat      -- reflect.go:43
  | notAssignable    -- reflect.Value.Set with a value of a non assignable type
  | sealed           -- codec.go:334
  | dupType          -- codec.go:344
  | dupDisfix        -- codec.go:355
  | dupName          -- codec.go:358
  | conflict         -- codec.go:170, 681
  | negSize          -- amino.go:293, make([]byte, negative)
  | must             -- amino.go Must* functions
  | user             -- panic raised by a user supplied method
  deriving DecidableEq, Repr

/-- Outcome of a Go call returning `(a, error)`.  `oof` means the fuel of the model's recursion
was exhausted: the model says nothing about the call. -/
inductive Res (α : Type)
  | ok (a : α)
  | err (e : Err)
  | panic (p : Pan)
  | oof
  deriving DecidableEq, Repr

namespace Res
variable {α β : Type}

def bind (r : Res α) (f : α → Res β) : Res β :=
  match r with
  | ok a => f a
  | err e => err e
  | panic p => panic p
  | oof => oof

@[simp] theorem bind_ok (a : α) (f : α → Res β) : (ok a).bind f = f a := rfl
@[simp] theorem bind_err (e : Err) (f : α → Res β) : (err e : Res α).bind f = err e := rfl
@[simp] theorem bind_panic (p : Pan) (f : α → Res β) : (panic p : Res α).bind f = panic p := rfl
@[simp] theorem bind_oof (f : α → Res β) : (oof : Res α).bind f = oof := rfl

theorem bind_eq_ok {r : Res α} {f : α → Res β} {b : β} (h : r.bind f = ok b) :
    ∃ a, r = ok a ∧ f a = ok b := by
  cases r <;> simp [bind] at h
  exact ⟨_, rfl, h⟩

end Res

/-- Outcome of a Go decoding call `(n int, err error)` that also writes a value: `n` is reported on
errors too, because callers `slide` by it before looking at the error. -/
inductive DRes (α : Type)
  | ok (n : Nat) (a : α)
  | err (n : Nat) (e : Err)
  | panic (p : Pan)
  | oof
  deriving DecidableEq, Repr

namespace DRes
variable {α β : Type}

def map (f : α → β) : DRes α → DRes β
  | ok n a => ok n (f a)
  | err n e => err n e
  | panic p => panic p
  | oof => oof

@[simp] theorem map_ok (f : α → β) (n : Nat) (a : α) : (ok n a).map f = ok n (f a) := rfl
@[simp] theorem map_err (f : α → β) (n : Nat) (e : Err) : (err n e).map f = err n e := rfl
@[simp] theorem map_panic (f : α → β) (p : Pan) : (panic p).map f = panic p := rfl
@[simp] theorem map_oof (f : α → β) : (oof : DRes α).map f = oof := rfl

/-- The idiom
```
x, _n, err = Decode...(bz)
if slide(&bz, &n, _n) && err != nil { return }
```
(`slide`: reflect.go:49-58).  `bz`, `n` are the caller's variables, `k` the rest of the caller, which
receives the value, the slid `bz` and the increased `n`. -/
def andSlide (r : DRes α) (bz : Bytes) (n : Nat) (k : α → Bytes → Nat → DRes β) : DRes β :=
  match r with
  | ok m a => if m ≤ bz.length then k a (bz.drop m) (n + m) else panic .slide
  | err m e => if m ≤ bz.length then err (n + m) e else panic .slide
  | panic p => panic p
  | oof => oof

/-- The call ends without consuming more than it was given. -/
def within (r : DRes α) (bz : Bytes) : Prop :=
  match r with
  | ok n _ => n ≤ bz.length
  | err n _ => n ≤ bz.length
  | panic _ => True
  | oof => True

end DRes

/-- `slide(&bz, &n, _n)` used as a statement (reflect.go:49-58). -/
def slideThen {β : Type} (m : Nat) (bz : Bytes) (n : Nat) (k : Bytes → Nat → DRes β) : DRes β :=
  if m ≤ bz.length then k (bz.drop m) (n + m) else .panic .slide

end Amino
