import Verif.SpecBReads

/-!
# Specification: how a scan by aminoscan ends

In terms of the bytes alone: complete fields, and what may come behind them.
-/

namespace Amino.Spec

/-- All bytes have the continuation bit: a number that does not end. -/
def Unended (b : Bytes) : Prop := ∀ x ∈ b, 0x80 ≤ x

/-- A number to the base 128 that is too long or too big. -/
def TooLong (d : Bytes) : Prop := ∃ v, readVarint d = some (v, d.length) ∧ ¬ (d.length ≤ 10 ∧ v < 2 ^ 64)

/-- A complete field; numbers may have superfluous digits, field numbers may be anything. -/
inductive ScanField : Bytes → Prop
  | varint {u v k d} : Number u k → u % 8 = 0 → Number v d → ScanField (k ++ d)
  | fixed64 {u k p} : Number u k → u % 8 = 1 → p.length = 8 → ScanField (k ++ p)
  | bytes {u k d s} : Number u k → u % 8 = 2 → Number s.length d → s.length < 2 ^ 63 → ScanField (k ++ (d ++ s))
  | fixed32 {u k p} : Number u k → u % 8 = 5 → p.length = 4 → ScanField (k ++ p)

/-- A sequence of complete fields. -/
inductive ScanFields : Bytes → Prop
  | nil : ScanFields []
  | cons {f r} : ScanField f → ScanFields r → ScanFields (f ++ r)

/-- Where the scanner never gets on: a number that does not end as a key, as a value, or as the count of a byte string. -/
inductive ScanStuck : Bytes → Prop
  | key {r} : r ≠ [] → Unended r → ScanStuck r
  | number {u k r} : Number u k → u % 8 = 0 ∨ u % 8 = 2 → r ≠ [] → Unended r → ScanStuck (k ++ r)

/-- Where the scanner reports an error. -/
inductive ScanBroken : Bytes → Prop
  | key {d r} : TooLong d → ScanBroken (d ++ r)
  | ended {u k} : Number u k → u % 8 = 0 ∨ u % 8 = 2 → ScanBroken k
  | number {u k d r} : Number u k → u % 8 = 0 → TooLong d → ScanBroken (k ++ (d ++ r))
  | fixed64 {u k r} : Number u k → u % 8 = 1 → r.length < 8 → ScanBroken (k ++ r)
  | fixed32 {u k r} : Number u k → u % 8 = 5 → r.length < 4 → ScanBroken (k ++ r)
  | bytes {u v k d r} : Number u k → u % 8 = 2 → Number v d → v < 2 ^ 63 → d.length + r.length ≤ v → ScanBroken (k ++ (d ++ r))

/-- Where the scanner panics: unknown wire types, counts that are no 63-bit numbers, and counts that exceed what is left, but
not by more than their own length. -/
inductive ScanCrash : Bytes → Prop
  | typ {u k r} : Number u k → u % 8 = 3 ∨ u % 8 = 4 ∨ u % 8 = 6 ∨ u % 8 = 7 → ScanCrash (k ++ r)
  | long {u k d r} : Number u k → u % 8 = 2 → TooLong d → ScanCrash (k ++ (d ++ r))
  | huge {u v k d r} : Number u k → u % 8 = 2 → Number v d → 2 ^ 63 ≤ v → ScanCrash (k ++ (d ++ r))
  | short {u v k d r} : Number u k → u % 8 = 2 → Number v d → r.length < v → v < d.length + r.length → ScanCrash (k ++ (d ++ r))

end Amino.Spec
