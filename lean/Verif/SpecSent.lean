import Verif.SpecBReads

/-!
# Specification: what a protobuf implementation may send

A protobuf message with the fields of a Go struct, as another implementation may serialize it: fields in the order of their numbers,
numbers possibly with superfluous digits, zero values left out or not, fields that the Go program does not know behind the others.
Not among the liberties, though protobuf has them: other orders, unknown fields in between, fields given twice, repeated numbers
that are not packed, superfluous digits in the counts of messages and packed lists and in booleans, unknown fields in timestamps.

Types that a protobuf schema can name: numbers, bool, string, bytes, timestamps, structs, pointers to these, slices.
-/

namespace Amino.Spec

/-- A timestamp: seconds and nanoseconds, each left out only if zero. -/
inductive PStamp : Int → Int → Bytes → Prop
  | none : PStamp 0 0 []
  | secs {s : Int} {key d : Bytes} : KeyText 1 0 key → Number (twos64 s) d → PStamp s 0 (key ++ d)
  | nanos {ns : Nat} {key d : Bytes} : KeyText 2 0 key → Number ns d → PStamp 0 ns (key ++ d)
  | both {s : Int} {ns : Nat} {key d key' d' : Bytes} : KeyText 1 0 key → Number (twos64 s) d → KeyText 2 0 key' → Number ns d' →
      PStamp s ns (key ++ (d ++ (key' ++ d')))

section
variable (Γ : Prog) (c : Codec)

mutual
/-- `PSent t fo v b`: `b` is what follows the key of a field with the value `v`. -/
inductive PSent : Ty → FOpts → Val → Bytes → Prop
  | ptr {t : Ty} {fo : FOpts} {v : Val} {b : Bytes} : PSent t fo v b → PSent (.ptr t) fo (.ptr v) b
  /-- sint32 -/
  | sint {id : TId} {k : IntKind} {fo : FOpts} {i : Int} {d : Bytes} : Γ.unmarsh id = none → Γ.shape id = .int k →
      k = .int8 ∨ k = .int16 → k.inRange i → Number (zig i) d → PSent (.base id) fo (.int i) d
  /-- int32, int64, uint32, uint64 -/
  | int {id : TId} {k : IntKind} {fo : FOpts} {i : Int} {d : Bytes} : Γ.unmarsh id = none → Γ.shape id = .int k →
      k ≠ .int8 → k ≠ .int16 → wireType Γ id fo = 0 → k.inRange i → Number (twos64 i) d → PSent (.base id) fo (.int i) d
  | fixed64 {id : TId} {k : IntKind} {fo : FOpts} {i : Int} : Γ.unmarsh id = none → Γ.shape id = .int k →
      wireType Γ id fo = 1 → k.inRange i → PSent (.base id) fo (.int i) (le 8 (twos64 i))
  | fixed32 {id : TId} {k : IntKind} {fo : FOpts} {i : Int} : Γ.unmarsh id = none → Γ.shape id = .int k →
      wireType Γ id fo = 5 → k.inRange i → PSent (.base id) fo (.int i) (le 4 (twos64 i % 2 ^ 32))
  | bool {id : TId} {fo : FOpts} {x : Bool} : Γ.unmarsh id = none → Γ.shape id = .bool →
      PSent (.base id) fo (.bool x) [if x then 1 else 0]
  | double {id : TId} {fo : FOpts} {x : UInt64} : Γ.unmarsh id = none → Γ.shape id = .float64 → fo.floatOk = true →
      PSent (.base id) fo (.f64 x) (le 8 x.toNat)
  | float {id : TId} {fo : FOpts} {x : UInt64} : Γ.unmarsh id = none → Γ.shape id = .float32 → fo.floatOk = true →
      x.toNat < 2 ^ 32 → PSent (.base id) fo (.f32 x) (le 4 x.toNat)
  | string {id : TId} {fo : FOpts} {d s : Bytes} : Γ.unmarsh id = none → Γ.shape id = .string → Number s.length d →
      s.length < 2 ^ 63 → PSent (.base id) fo (.str s) (d ++ s)
  | noBytes {id : TId} {fo : FOpts} {d : Bytes} : Γ.unmarsh id = none → Γ.shape id = .slice (.base Γ.byteId) → Number 0 d →
      Γ.isByteKind (.base Γ.byteId) = true → PSent (.base id) fo .nil d
  | bytes {id : TId} {fo : FOpts} {d s : Bytes} : Γ.unmarsh id = none → Γ.shape id = .slice (.base Γ.byteId) → s ≠ [] →
      Γ.isByteKind (.base Γ.byteId) = true → Number s.length d → s.length < 2 ^ 63 → PSent (.base id) fo (.bytes s) (d ++ s)
  | time {id : TId} {fo : FOpts} {s ns : Int} {b : Bytes} : Γ.unmarsh id = none → Γ.shape id = .time → PStamp s ns b →
      -62135596800 ≤ s → s < 253402300800 → ns ≤ 999999999 → PSent (.base id) fo (.time s ns) (varint b.length ++ b)
  /-- repeated numbers; no element: nil -/
  | packed {id eid : TId} {fo : FOpts} {vs : List Val} {b : Bytes} : Γ.unmarsh id = none → Γ.shape id = .slice (.base eid) →
      Γ.isByteKind (.base eid) = false → Known Γ c eid → wireType Γ eid fo ≠ 2 → SentPacked eid fo vs b → b.length < 2 ^ 63 →
      PSent (.base id) fo (if vs = [] then .nil else .list vs) (varint b.length ++ b)
  | message {id : TId} {fs : List Field} {fo : FOpts} {vs : List Val} {b : Bytes} : Γ.unmarsh id = none →
      Γ.shape id = .struct fs → SentFields 0 fs vs b → b.length < 2 ^ 63 →
      PSent (.base id) fo (.struct vs) (varint b.length ++ b)

inductive SentPacked : TId → FOpts → List Val → Bytes → Prop
  | nil {e : TId} {fo : FOpts} : SentPacked e fo [] []
  | cons {e : TId} {fo : FOpts} {v : Val} {vs : List Val} {p b : Bytes} : PSent (.base e) fo v p → SentPacked e fo vs b →
      SentPacked e fo (v :: vs) (p ++ b)

/-- The elements of a repeated field, each under the field's number. -/
inductive SentItems : Ty → FOpts → List Val → Bytes → Prop
  | nil {e : Ty} {fo : FOpts} : SentItems e fo [] []
  /-- an element of no bytes -/
  | empty {e : Ty} {fo : FOpts} {vs : List Val} {key b : Bytes} : keepEmpty Γ e fo = false → KeyText fo.fnum 2 key →
      SentItems e fo vs b → SentItems e fo (absent Γ e :: vs) (key ++ (0 :: b))
  | cons {e : Ty} {fo : FOpts} {v : Val} {vs : List Val} {key p b : Bytes} : KeyText fo.fnum 2 key →
      PSent e { fo with fnum := 1 } v p → (p.head? ≠ some 0 ∨ keepEmpty Γ e fo = true) → SentItems e fo vs b →
      SentItems e fo (v :: vs) (key ++ (p ++ b))

/-- The fields of a message behind field `num`.  Fields left out have the default value. -/
inductive SentFields : Nat → List Field → List Val → Bytes → Prop
  | unknown {num : Nat} {b : Bytes} : Unknown num b → SentFields num [] [] b
  | hidden {num : Nat} {f : Field} {fs : List Field} {vs : List Val} {b : Bytes} : f.visible = false → SentFields num fs vs b →
      SentFields num (f :: fs) (Γ.zeroTy f.ty :: vs) b
  | absent {num : Nat} {f : Field} {fs : List Field} {vs : List Val} {b : Bytes} : f.visible = true → Known Γ c f.ty.deref →
      repeated Γ f = false → SentFields (num + 1) fs vs b → SentFields num (f :: fs) (absent Γ f.ty :: vs) b
  | present {num : Nat} {f : Field} {fs : List Field} {v : Val} {vs : List Val} {key p b : Bytes} : f.visible = true →
      Known Γ c f.ty.deref → repeated Γ f = false → KeyText (num + 1) (wireType Γ f.ty.deref f.opts) key →
      PSent f.ty { f.opts with fnum := num + 1 } v p → SentFields (num + 1) fs vs b →
      SentFields num (f :: fs) (v :: vs) (key ++ (p ++ b))
  /-- no element: nil -/
  | repeated {num : Nat} {f : Field} {id : TId} {fs : List Field} {e : Ty} {us vs : List Val} {p b : Bytes} : f.visible = true →
      f.ty = .base id → Γ.unmarsh id = none → Γ.shape id = .slice e → repeated Γ f = true → Known Γ c e.deref →
      SentItems e { f.opts with fnum := num + 1 } us p → SentFields (num + 1) fs vs b →
      SentFields num (f :: fs) ((if us = [] then .nil else .list us) :: vs) (p ++ b)
end

end
end Amino.Spec
