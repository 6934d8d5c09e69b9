import Verif.SentLemmas
import Verif.DemoUniv

/-!
# C116: messages from other protobuf implementations
-/

namespace Amino
open Spec

variable {Γ : Prog} {c : Codec}

/-- The bytes that name a registered type. -/
theorem sent_reading (hZ : ZeroOk Γ) {id : TId} {fs : List Field} {vs : List Val} {b : Bytes} (hu : Γ.unmarsh id = none)
    (hs : Γ.shape id = .struct fs) (hk : Known Γ c id) (h : SentFields Γ c 0 fs vs b) :
    (c.conc? id = none → BReading Γ c (.base id) (Γ.zero id) b (.struct vs)) ∧
    (∀ ci, c.conc? id = some ci → ci.prefx.length = 4 → BReading Γ c (.base id) (Γ.zero id) (ci.prefx ++ b) (.struct vs)) := by
  have hb : BRead Γ c (.base id) { fnum := 1 } true (Γ.zero id) b b.length (.struct vs) := by
    have := fieldsRead_struct (fo := { fnum := 1 }) hZ hu hs (Framed.whole (b := b)) (((sent_all hZ).2 h).2 0 (Nat.le_refl _))
    rwa [Nat.zero_add] at this
  have hw : wrapped Γ (Ty.base id).deref = false := by
    change wrapped Γ id = false
    unfold wrapped
    rw [hs]
  exact ⟨fun hc => .plain hk hc (.struct hw hb), fun ci hc hl => .registered hk hc hl (.struct hw hb)⟩

/-- C116: UnmarshalBinaryBare reads the message, into a new variable of an unregistered struct type. -/
theorem C116_message_partial (hZ : ZeroOk Γ) {id : TId} {fs : List Field} {vs : List Val} {b : Bytes} (hu : Γ.unmarsh id = none)
    (hs : Γ.shape id = .struct fs) (hk : Known Γ c id) (hc : c.conc? id = none) (h : SentFields Γ c 0 fs vs b) :
    ∃ N, ∀ g, N ≤ g → unmarshalBare Γ c g (.base id) (Γ.zero id) b = .ok (.struct vs) :=
  C102_accepts ((sent_reading hZ hu hs hk h).1 hc)

/-- C116: if the type is registered, its prefix bytes come first. -/
theorem C116_registered_partial (hZ : ZeroOk Γ) {id : TId} {fs : List Field} {vs : List Val} {b : Bytes} {ci : ConcInfo}
    (hu : Γ.unmarsh id = none) (hs : Γ.shape id = .struct fs) (hk : Known Γ c id) (hc : c.conc? id = some ci)
    (hl : ci.prefx.length = 4) (h : SentFields Γ c 0 fs vs b) :
    ∃ N, ∀ g, N ≤ g → unmarshalBare Γ c g (.base id) (Γ.zero id) (ci.prefx ++ b) = .ok (.struct vs) :=
  C102_accepts ((sent_reading hZ hu hs hk h).2 ci hc hl)

/-- C116: UnmarshalBinaryLengthPrefixed, whose framing is protobuf's for streams. -/
theorem C116_delimited_partial (hZ : ZeroOk Γ) {id : TId} {fs : List Field} {vs : List Val} {b d : Bytes} (hu : Γ.unmarsh id = none)
    (hs : Γ.shape id = .struct fs) (hk : Known Γ c id) (hc : c.conc? id = none) (h : SentFields Γ c 0 fs vs b)
    (hd : Number b.length d) : ∃ g, unmarshalLP Γ c g (.base id) (Γ.zero id) (d ++ b) = .ok (.struct vs) :=
  C102_prefixed.mpr ⟨d, b, rfl, hd, (sent_reading hZ hu hs hk h).1 hc⟩

/-- C116: no serialization stands for two messages. -/
theorem C116_one (hZ : ZeroOk Γ) {id : TId} {fs : List Field} {vs vs' : List Val} {b : Bytes} (hu : Γ.unmarsh id = none)
    (hs : Γ.shape id = .struct fs) (hk : Known Γ c id) (hp : ∀ ci, c.conc? id = some ci → ci.prefx.length = 4)
    (h : SentFields Γ c 0 fs vs b) (h' : SentFields Γ c 0 fs vs' b) : vs = vs' := by
  have h1 := sent_reading hZ hu hs hk h
  have h2 := sent_reading hZ hu hs hk h'
  cases hc : c.conc? id with
  | none =>
    have := C102_unique (h2.1 hc) (h1.1 hc)
    injection this
  | some ci =>
    have := C102_unique (h2.2 ci hc (hp ci hc)) (h1.2 ci hc (hp ci hc))
    injection this

/-! ## The liberties that are not taken -/

/-- The fields of a message, one by one. -/
def Spec.FieldTexts (l : List Bytes) : Prop :=
  ∀ x ∈ l, ∃ num typ key p, KeyText num typ key ∧ Skippable typ p ∧ x = key ++ p

namespace Demo

theorem never {id : TId} {b : Bytes} {g : Nat} {e : Err} (h : unmarshalBare prog codecFoo g (.base id) (prog.zero id) b = .err e)
    (g' : Nat) (v : Val) : unmarshalBare prog codecFoo g' (.base id) (prog.zero id) b ≠ .ok v :=
  C102_refuses (C102_failure (g := g) (fun v h' => by rw [h] at h'; cases h') (by rw [h]; simp)) g' v

theorem key {n : UInt8} {num typ : Nat} (h : n.toNat = 8 * num + typ) (h1 : typ < 8) (h2 : n.toNat < 128) : KeyText num typ [n] := by
  refine ⟨⟨?_, by simp, by omega⟩, h1, by omega⟩
  unfold readVarint
  rw [if_pos h2, h]
  rfl

theorem digit {n : UInt8} {v : Nat} (h : n.toNat = v) (h2 : v < 128) : Number v [n] := by
  refine ⟨?_, by simp, by omega⟩
  unfold readVarint
  rw [if_pos (by omega), h]
  rfl

theorem known (id : TId) : getInfo prog codecFoo id = .ok () → Known prog codecFoo id := known_iff.mpr

/-- `X int32; Y bool`. -/
theorem sentSub : SentFields prog codecFoo 0 [{ ty := .base int32T }, { ty := .base boolT }] [.int 3, .bool true] [8, 3, 16, 1] :=
  .present (f := { ty := .base int32T }) (key := [8]) (p := [3]) (b := [16, 1]) rfl (known _ (by decide)) (by decide)
    (key (by decide) (by decide) (by decide))
    (.int (k := .int32) rfl rfl (by decide) (by decide) (by decide) (by decide) (digit (by decide) (by decide)))
    (.present (f := { ty := .base boolT }) (key := [16]) (p := [1]) (b := []) rfl (known _ (by decide)) (by decide)
      (key (by decide) (by decide) (by decide)) (.bool (x := true) rfl rfl) (.unknown .nil))

end Demo

/-- C116 is false as stated: the same fields in another order. -/
theorem C116_order_refuted : ∃ l l' : List Bytes, l.Perm l' ∧ FieldTexts l ∧
    SentFields Demo.prog Demo.codecFoo 0 [{ ty := .base Demo.int32T }, { ty := .base Demo.boolT }] [.int 3, .bool true] l.flatten ∧
    ∀ g v, unmarshalBare Demo.prog Demo.codecFoo g (.base Demo.subT) (Demo.prog.zero Demo.subT) l'.flatten ≠ .ok v := by
  refine ⟨[[8, 3], [16, 1]], [[16, 1], [8, 3]], .swap _ _ _, ?_, Demo.sentSub, Demo.never (g := 5) (e := .fieldOrder) (by decide +kernel)⟩
  intro x hx
  rcases List.mem_cons.mp hx with rfl | hx
  · exact ⟨1, 0, [8], [3], Demo.key (by decide) (by decide) (by decide), .varint (Demo.digit (v := 3) (by decide) (by decide)), rfl⟩
  · rcases List.mem_cons.mp hx with rfl | hx
    · exact ⟨2, 0, [16], [1], Demo.key (by decide) (by decide) (by decide), .varint (Demo.digit (v := 1) (by decide) (by decide)), rfl⟩
    · cases hx

/-- A field given twice: protobuf takes the last one. -/
theorem C116_twice_refuted : ∀ g v, unmarshalBare Demo.prog Demo.codecFoo g (.base Demo.subT) (Demo.prog.zero Demo.subT)
    [8, 3, 8, 4] ≠ .ok v :=
  Demo.never (g := 5) (e := .fieldOrder) (by decide +kernel)

/-- Repeated numbers that are not packed, `8, 1, 8, 2` for `10, 2, 1, 2`. -/
theorem C116_unpacked_refuted :
    unmarshalBare Demo.prog Demo.codecFoo 5 (.base Demo.int64sT) .nil [10, 2, 1, 2] = .ok (.list [.int 1, .int 2]) ∧
    ∀ g v, unmarshalBare Demo.prog Demo.codecFoo g (.base Demo.int64sT) .nil [8, 1, 8, 2] ≠ .ok v :=
  ⟨by decide +kernel, Demo.never (g := 5) (e := .fieldTyp) (by decide +kernel)⟩

/-- A superfluous digit in the count of a nested message (the last byte of its contents is then taken for a key), and in a boolean. -/
theorem C116_digits_refuted :
    (Number 2 [0x82, 0] ∧ ∃ v, unmarshalBare Demo.prog Demo.codecFoo 5 (.base Demo.msgT) (Demo.prog.zero Demo.msgT) [34, 2, 8, 5] = .ok v) ∧
    (∀ g v, unmarshalBare Demo.prog Demo.codecFoo g (.base Demo.msgT) (Demo.prog.zero Demo.msgT) [34, 0x82, 0, 8, 5] ≠ .ok v) ∧
    Number 1 [0x81, 0] ∧
    ∀ g v, unmarshalBare Demo.prog Demo.codecFoo g (.base Demo.subT) (Demo.prog.zero Demo.subT) [8, 3, 16, 0x81, 0] ≠ .ok v := by
  exact ⟨⟨⟨rfl, by decide, by decide⟩, _, rfl⟩, Demo.never (g := 5) (e := .fieldNum) (by decide +kernel), ⟨rfl, by decide, by decide⟩,
    Demo.never (g := 5) (e := .badBool) (by decide +kernel)⟩

/-! ## Cases -/

namespace Demo

/-- `A` with superfluous digits in key and value, `B` written although empty, two elements of `E`, the second empty, `T` with
seconds, and an unknown field 9. -/
def sentBytes : Bytes := [0x88, 0, 0x85, 0x80, 0, 18, 0, 42, 2, 8, 3, 42, 0, 58, 2, 8, 1, 72, 1]

def sentValues : List Val :=
  [.int 5, .str [], .nil, .nil, .list [.struct [.int 3, .bool false], .struct [.int 0, .bool false]], .nil, .time 1 0]

theorem sentMsg : SentFields prog codecFoo 0 msgFields sentValues sentBytes := by
  refine .present (f := { ty := .base int64T }) (key := [0x88, 0]) (p := [0x85, 0x80, 0])
    (b := [18, 0, 42, 2, 8, 3, 42, 0, 58, 2, 8, 1, 72, 1]) rfl (known _ (by decide)) (by decide)
    ⟨⟨rfl, by decide, by decide⟩, by decide, by decide⟩
    (.int (k := .int64) rfl rfl (by decide) (by decide) (by decide) (by decide) ⟨rfl, by decide, by decide⟩) ?_
  refine .present (f := { ty := .base stringT }) (key := [18]) (p := [0]) (b := [42, 2, 8, 3, 42, 0, 58, 2, 8, 1, 72, 1])
    rfl (known _ (by decide)) (by decide) (key (by decide) (by decide) (by decide))
    (.string (d := [0]) (s := []) rfl rfl (digit rfl (by decide)) (by decide)) ?_
  refine .absent (f := { ty := .base bytesT }) rfl (known _ (by decide)) (by decide) ?_
  refine .absent (f := { ty := .ptr (.base msgT) }) rfl (known _ (by decide)) (by decide) ?_
  have hx : SentFields prog codecFoo 0 [{ ty := .base int32T }, { ty := .base boolT }] [.int 3, .bool false] [8, 3] :=
    .present (f := { ty := .base int32T }) (key := [8]) (p := [3]) (b := []) rfl (known _ (by decide)) (by decide)
      (key (by decide) (by decide) (by decide))
      (.int (k := .int32) rfl rfl (by decide) (by decide) (by decide) (by decide) (digit (by decide) (by decide)))
      (.absent (f := { ty := .base boolT }) rfl (known _ (by decide)) (by decide) (.unknown .nil))
  have hm : PSent prog codecFoo (.base subT) { fnum := 1 } (.struct [.int 3, .bool false]) [2, 8, 3] := by
    have := PSent.message (id := subT) (fo := { fnum := 1 }) rfl rfl hx (by decide)
    rwa [show varint (List.length (α := UInt8) [8, 3]) = [2] by unfold varint; rfl] at this
  refine .repeated (f := { ty := .base subsT }) (id := subsT) (e := .base subT)
    (us := [.struct [.int 3, .bool false], .struct [.int 0, .bool false]]) (p := [42, 2, 8, 3, 42, 0]) (b := [58, 2, 8, 1, 72, 1])
    rfl rfl rfl rfl (by decide) (known _ (by decide))
    (.cons (key := [42]) (p := [2, 8, 3]) (b := [42, 0]) (key (by decide) (by decide) (by decide)) hm (.inl (by decide))
      (.empty (e := .base subT) (key := [42]) (b := []) (by decide) (key (by decide) (by decide) (by decide)) .nil)) ?_
  refine .absent (f := { ty := .base ifaceT }) rfl (known _ (by decide)) (by decide) ?_
  have ht : PSent prog codecFoo (.base timeT) { fnum := 7 } (.time 1 0) [2, 8, 1] := by
    have := PSent.time (Γ := prog) (c := codecFoo) (id := timeT) (fo := { fnum := 7 }) rfl rfl
      (PStamp.secs (s := 1) (key := [8]) (d := [1]) (key (by decide) (by decide) (by decide)) (digit (by decide) (by decide)))
      (by decide) (by decide) (by decide)
    rwa [show varint (List.length (α := UInt8) ([8] ++ [1])) = [2] by unfold varint; rfl] at this
  exact .present (f := { ty := .base timeT }) (key := [58]) (p := [2, 8, 1]) (b := [72, 1]) rfl (known _ (by decide)) (by decide)
    (key (by decide) (by decide) (by decide)) ht
    (.unknown (.cons (key := [72]) (p := [1]) (r := []) (key (num := 9) (typ := 0) (by decide) (by decide) (by decide)) (by decide)
      (.varint (v := 1) (digit (by decide) (by decide))) .nil))

end Demo

example : ∃ N, ∀ g, N ≤ g → unmarshalBare Demo.prog Demo.codecFoo g (.base Demo.msgT) (Demo.prog.zero Demo.msgT) Demo.sentBytes =
    .ok (.struct Demo.sentValues) :=
  C116_message_partial Demo.prog_zero rfl rfl (Demo.known _ (by decide)) rfl Demo.sentMsg

example : unmarshalBare Demo.prog Demo.codecFoo 6 (.base Demo.msgT) (Demo.prog.zero Demo.msgT) Demo.sentBytes =
    .ok (.struct Demo.sentValues) := by decide +kernel

/-- `Foo` is registered. -/
theorem Demo.sentFoo : SentFields prog codecFoo 0 [{ ty := .base int64T }] [.int (-1)]
    [8, 255, 255, 255, 255, 255, 255, 255, 255, 255, 1] :=
  .present (f := { ty := .base int64T }) (key := [8]) (p := [255, 255, 255, 255, 255, 255, 255, 255, 255, 1]) (b := []) rfl
    (known _ (by decide)) (by decide) (key (by decide) (by decide) (by decide))
    (.int (k := .int64) rfl rfl (by decide) (by decide) (by decide) (by decide) ⟨rfl, by decide, by decide⟩) (.unknown .nil)

example : ∃ N, ∀ g, N ≤ g → unmarshalBare Demo.prog Demo.codecFoo g (.base Demo.fooT) (Demo.prog.zero Demo.fooT)
    ([1, 2, 3, 4] ++ [8, 255, 255, 255, 255, 255, 255, 255, 255, 255, 1]) = .ok (.struct [.int (-1)]) :=
  C116_registered_partial (ci := Demo.foo) Demo.prog_zero rfl rfl (Demo.known _ (by decide)) rfl rfl Demo.sentFoo

example : ∃ g, unmarshalLP Demo.prog Demo.codecFoo g (.base Demo.subT) (Demo.prog.zero Demo.subT) ([4] ++ [8, 3, 16, 1]) =
    .ok (.struct [.int 3, .bool true]) :=
  C116_delimited_partial Demo.prog_zero rfl rfl (Demo.known _ (by decide)) rfl Demo.sentSub (Demo.digit (by decide) (by decide))

example {vs : List Val} (h : SentFields Demo.prog Demo.codecFoo 0 Demo.msgFields vs Demo.sentBytes) : vs = Demo.sentValues :=
  C116_one (id := Demo.msgT) Demo.prog_zero rfl rfl (Demo.known _ (by decide)) (fun ci h => by cases h) h Demo.sentMsg

end Amino
