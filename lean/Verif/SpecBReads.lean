import Verif.SpecWire
import Verif.SpecWrite
import Verif.SpecStale
import Verif.IntWire
import Verif.PropsKey

/-!
# Specification: which bytes the binary decoder reads as which values

`BRead Γ c t fo whole old b n v`: a variable of type `t` that holds `old` can be read from the front of `b`; `n` bytes count as read,
and the variable then holds `v`.  `whole`: the bytes are not preceded by a count but go on to the end of `b`.

The count of a nested message may be written with more digits than necessary, but only the necessary ones count as read.
-/

namespace Amino.Spec

/-- `d` is a number to the base 128, of at most ten digits, possibly with superfluous ones. -/
def Number (v : Nat) (d : Bytes) : Prop := readVarint d = some (v, d.length) ∧ d.length ≤ 10 ∧ v < 2 ^ 64

/-- A field key. -/
def KeyText (num typ : Nat) (key : Bytes) : Prop := Number (8 * num + typ) key ∧ typ < 8 ∧ num < 2 ^ 29

/-- `b` starts with the byte string `s` behind its count, `n` bytes in all. -/
def Counted (s : Bytes) (n : Nat) (b : Bytes) : Prop :=
  ∃ d r, b = d ++ (s ++ r) ∧ Number s.length d ∧ s.length < 2 ^ 63 ∧ n = d.length + s.length

/-- Where the contents of a value are, and how many bytes count as read before them. -/
inductive Framed : Bool → Bytes → Bytes → Nat → Prop
  | whole {b : Bytes} : Framed true b b 0
  | counted {d body r : Bytes} : Number body.length d → body.length < 2 ^ 63 →
      Framed false (d ++ (body ++ r)) body (varint body.length).length

/-- The contents of a field that nobody knows. -/
inductive Skippable : Nat → Bytes → Prop
  | varint {v : Nat} {d : Bytes} : Number v d → Skippable 0 d
  | eight {b : Bytes} : b.length = 8 → Skippable 1 b
  | bytes {d s : Bytes} : Number s.length d → s.length < 2 ^ 63 → Skippable 2 (d ++ s)
  | four {b : Bytes} : b.length = 4 → Skippable 5 b

/-- Unknown fields with increasing numbers. -/
inductive Unknown : Nat → Bytes → Prop
  | nil {last : Nat} : Unknown last []
  | cons {last num typ : Nat} {key p r : Bytes} : KeyText num typ key → last < num → Skippable typ p → Unknown num r →
      Unknown last (key ++ (p ++ r))

/-- Seconds of a time (from 0001 to 9999), and what is left. -/
inductive Secs : Bytes → Bytes → Int → Prop
  | none : Secs [] [] 0
  | nanosFirst {key r : Bytes} : KeyText 2 0 key → Secs (key ++ r) (key ++ r) 0
  | some {key d r : Bytes} {v : Nat} {s : Int} : KeyText 1 0 key → Number v d →
      s = (if v < 2 ^ 63 then (v : Int) else (v : Int) - 2 ^ 64) → -62135596800 ≤ s → s < 253402300800 →
      Secs (key ++ (d ++ r)) r s

/-- Nanoseconds of a time, and what is left: any other field is left, and is not looked into. -/
inductive Nanos : Bytes → Bytes → Int → Prop
  | none : Nanos [] [] 0
  | other {key r : Bytes} {num typ : Nat} : KeyText num typ key → ¬ (num = 2 ∧ typ = 0) → Nanos (key ++ r) (key ++ r) 0
  | some {key d r : Bytes} {v : Nat} : KeyText 2 0 key → Number v d → v ≤ 999999999 → Nanos (key ++ (d ++ r)) r v

/-- A time in the first `n` bytes. -/
def TimeText (b : Bytes) (n : Nat) (s ns : Int) : Prop := ∃ r r', Secs b r s ∧ Nanos r r' ns ∧ n + r'.length = b.length

/-- Elements one after the other: where each is read, and how many bytes count as read. -/
structure Step where
  text : Bytes
  used : Nat
  old : Val
  new : Val

/-- The steps lead from the start of `b` to its end. -/
def Chain : List Step → Bytes → Prop
  | [], b => b = []
  | s :: l, b => s.text = b ∧ Chain l (b.drop s.used)

/-- Elements each with a key. -/
structure Item where
  key : Bytes
  text : Bytes
  used : Nat
  old : Val
  new : Val

/-- The items, with keys of field `num`, lead from the start of `b` to `r`. -/
def Items (num : Nat) : List Item → Bytes → Bytes → Prop
  | [], b, r => r = b
  | x :: l, b, r => KeyText num 2 x.key ∧ b = x.key ++ x.text ∧ Items num l (x.text.drop x.used) r

/-- The items of field `num` are over: nothing more, or a field with a greater number. -/
def Ended (num : Nat) (r : Bytes) : Prop := r = [] ∨ ∃ num' typ key q, r = key ++ q ∧ KeyText num' typ key ∧ num < num'

/-- How a field of a struct was found. -/
inductive Found
  | hidden | absent | repeated | keyed

structure FieldStep where
  found : Found
  field : Field
  num : Nat
  text : Bytes
  used : Nat
  old : Val
  new : Val

section
variable (Γ : Prog) (c : Codec)

/-- An element of a packed list: a pointer to a default value becomes nil. -/
def elemOf (e : Ty) (v : Val) : Val :=
  if e.isPtr && (match pointee e v with | some dv => dflt (Γ.shape e.deref) dv | none => true) then .nil else v

/-- An element written as the byte 0. -/
def Zeroed (e : Ty) (fo : FOpts) (x : Item) : Prop := x.text.head? = some 0 ∧ keepEmpty Γ e fo = false

/-- The fields of a struct in the order of declaration, behind field `num`; `last` is the number of the last key.  They lead from the
start of the bytes to the last argument, with the last key there.  A field that is not found here becomes the default. -/
inductive Layout : Nat → Nat → Bytes → List FieldStep → Nat → Bytes → Prop
  | nil {num last : Nat} {b : Bytes} : Layout num last b [] last b
  | hidden {num last last' : Nat} {b r : Bytes} {s : FieldStep} {l : List FieldStep} : s.found = .hidden → s.field.visible = false →
      s.new = s.old → Layout num last b l last' r → Layout num last b (s :: l) last' r
  | absent {num last last' : Nat} {b r : Bytes} {s : FieldStep} {l : List FieldStep} : s.found = .absent → s.field.visible = true →
      Known Γ c s.field.ty.deref → s.new = absent Γ s.field.ty →
      (b = [] ∨ repeated Γ s.field = false ∧ Ended (num + 1) b) →
      Layout (num + 1) last b l last' r → Layout num last b (s :: l) last' r
  /-- the elements have the keys -/
  | repeated {num last last' : Nat} {r : Bytes} {s : FieldStep} {l : List FieldStep} : s.found = .repeated → s.field.visible = true →
      Known Γ c s.field.ty.deref → repeated Γ s.field = true → s.text ≠ [] → s.num = num + 1 →
      Layout (num + 1) last (s.text.drop s.used) l last' r → Layout num last s.text (s :: l) last' r
  | keyed {num last last' : Nat} {key r : Bytes} {s : FieldStep} {l : List FieldStep} : s.found = .keyed → s.field.visible = true →
      Known Γ c s.field.ty.deref → repeated Γ s.field = false → s.num = num + 1 →
      KeyText (num + 1) (wireType Γ s.field.ty.deref s.field.opts) key →
      Layout (num + 1) (num + 1) (s.text.drop s.used) l last' r → Layout num last (key ++ s.text) (s :: l) last' r

/-- The bytes by which a registered type is named: its prefix bytes, or its disambiguation bytes and prefix bytes behind a zero. -/
inductive Names (ii : IfaceInfo) : Bytes → ConcInfo → Prop
  | pre {p : Bytes} {ci : ConcInfo} : p.length = 4 → p.head? ≠ some 0 → ii.withPrefix p = [ci] → Names ii p ci
  | dis {d p : Bytes} {ci : ConcInfo} : d.length = 3 → p.length = 4 → c.disfix? (d ++ p) = some ci → Names ii (0 :: (d ++ p)) ci

/-- Values behind interfaces in field 1 have a key if they are not structs or the like. -/
inductive ConcText (cid : TId) (fo : FOpts) : Bytes → Bytes → Prop
  | keyed {key q : Bytes} : wrapped Γ cid = true → Γ.shape cid ≠ .iface → fo.fnum = 1 → KeyText 1 (wireType Γ cid {}) key →
      ConcText cid fo (key ++ q) q
  | plain {q : Bytes} : (wrapped Γ cid = false ∨ Γ.shape cid = .iface ∨ fo.fnum ≠ 1 ∨ q = []) → ConcText cid fo q q

/-- How a variable is read from bytes. -/
inductive BRead : Ty → FOpts → Bool → Val → Bytes → Nat → Val → Prop
  | ptr {t : Ty} {fo : FOpts} {whole : Bool} {old v : Val} {b : Bytes} {n : Nat} : Γ.shape t.deref ≠ .iface →
      BRead t fo whole (target Γ t old) b n v → BRead (.ptr t) fo whole old b n (.ptr v)
  | amino {id rid : TId} {fo : FOpts} {whole : Bool} {old r v : Val} {b : Bytes} {n : Nat} {um : Val → Val → Res Val} :
      Γ.unmarsh id = some (rid, um) → Known Γ c rid → BRead (.base rid) fo whole (Γ.zero rid) b n r → um old r = .ok v →
      BRead (.base id) fo whole old b n v
  | int {id : TId} {k : IntKind} {fo : FOpts} {whole : Bool} {old : Val} {b : Bytes} {n : Nat} {i : Int} : Γ.unmarsh id = none →
      Γ.shape id = .int k → (k = .uint32 → fo.fixed32 = true) → wireInt k fo.fixed64 fo.fixed32 b = some (i, n) → k.inRange i →
      BRead (.base id) fo whole old b n (.int i)
  /-- a `uint32` takes the lower 32 bits of any number -/
  | uint32 {id : TId} {fo : FOpts} {whole : Bool} {old : Val} {d r : Bytes} {u : Nat} : Γ.unmarsh id = none →
      Γ.shape id = .int .uint32 → fo.fixed32 = false → Number u d →
      BRead (.base id) fo whole old (d ++ r) d.length (.int (u % 2 ^ 32 : Nat))
  | false {id : TId} {fo : FOpts} {whole : Bool} {old : Val} {r : Bytes} : Γ.unmarsh id = none → Γ.shape id = .bool →
      BRead (.base id) fo whole old (0 :: r) 1 (.bool false)
  | true {id : TId} {fo : FOpts} {whole : Bool} {old : Val} {r : Bytes} : Γ.unmarsh id = none → Γ.shape id = .bool →
      BRead (.base id) fo whole old (1 :: r) 1 (.bool true)
  | float64 {id : TId} {fo : FOpts} {whole : Bool} {old : Val} {d r : Bytes} : Γ.unmarsh id = none → Γ.shape id = .float64 →
      fo.floatOk = true → d.length = 8 → BRead (.base id) fo whole old (d ++ r) 8 (.f64 (UInt64.ofNat (unle d)))
  | float32 {id : TId} {fo : FOpts} {whole : Bool} {old : Val} {d r : Bytes} : Γ.unmarsh id = none → Γ.shape id = .float32 →
      fo.floatOk = true → d.length = 4 → BRead (.base id) fo whole old (d ++ r) 4 (.f32 (UInt64.ofNat (unle d)))
  | str {id : TId} {fo : FOpts} {whole : Bool} {old : Val} {b s : Bytes} {n : Nat} : Γ.unmarsh id = none → Γ.shape id = .string →
      Counted s n b → BRead (.base id) fo whole old b n (.str s)
  | time {id : TId} {fo : FOpts} {whole : Bool} {old : Val} {b body : Bytes} {k m : Nat} {s ns : Int} : Γ.unmarsh id = none →
      Γ.shape id = .time → Framed whole b body k → TimeText body m s ns → BRead (.base id) fo whole old b (k + m) (.time s ns)
  | byteArray {id : TId} {len : Nat} {fo : FOpts} {whole : Bool} {old : Val} {b x : Bytes} {n : Nat} : Γ.unmarsh id = none →
      Γ.shape id = .array len (.base Γ.byteId) → Γ.isByteKind (.base Γ.byteId) = true → Counted x n b → x.length = len →
      BRead (.base id) fo whole old b n (.bytes x)
  | noBytes {id : TId} {e : Ty} {fo : FOpts} {whole : Bool} {old : Val} : Γ.unmarsh id = none → Γ.shape id = .slice e →
      Γ.isByteKind e = true → BRead (.base id) fo whole old [] 0 .nil
  | emptyBytes {id : TId} {e : Ty} {fo : FOpts} {whole : Bool} {old : Val} {b : Bytes} {n : Nat} : Γ.unmarsh id = none →
      Γ.shape id = .slice e → Γ.isByteKind e = true → Counted [] n b → BRead (.base id) fo whole old b n .nil
  | bytes {id : TId} {fo : FOpts} {whole : Bool} {old : Val} {b x : Bytes} {n : Nat} : Γ.unmarsh id = none →
      Γ.shape id = .slice (.base Γ.byteId) → Γ.isByteKind (.base Γ.byteId) = true → Counted x n b → x ≠ [] →
      BRead (.base id) fo whole old b n (.bytes x)
  | packed {id : TId} {e : Ty} {fo : FOpts} {whole : Bool} {old : Val} {b body : Bytes} {k : Nat} {l : List Step} :
      Γ.unmarsh id = none → Γ.shape id = .slice e → Γ.isByteKind e = false → Known Γ c e.deref → wireType Γ e.deref fo ≠ 2 →
      Framed whole b body k → Chain l body → (∀ s ∈ l, s.text ≠ []) →
      (∀ s ∈ l, BRead e fo false (Γ.zeroTy e) s.text s.used s.new) →
      BRead (.base id) fo whole old b (k + body.length) (if l = [] then .nil else .list (l.map fun s => elemOf Γ e s.new))
  | slice {id : TId} {e : Ty} {fo : FOpts} {whole : Bool} {old : Val} {b body r : Bytes} {k n : Nat} {l : List Item} :
      Γ.unmarsh id = none → Γ.shape id = .slice e → Γ.isByteKind e = false → Known Γ c e.deref → wireType Γ e.deref fo = 2 →
      Framed whole b body k → Items fo.fnum l body r → Ended fo.fnum r → n + r.length = body.length →
      (∀ x ∈ l, Zeroed Γ e fo x → x.used = 1 ∧ x.new = absent Γ e) →
      (∀ x ∈ l, ¬ Zeroed Γ e fo x → BRead e { fo with fnum := 1 } false (Γ.zeroTy e) x.text x.used x.new) →
      BRead (.base id) fo whole old b (k + n) (if l = [] then .nil else .list (l.map Item.new))
  /-- arrays are read over their old elements -/
  | packedArray {id : TId} {e : Ty} {len : Nat} {fo : FOpts} {whole : Bool} {b body : Bytes} {k : Nat} {l : List Step} :
      Γ.unmarsh id = none → Γ.shape id = .array len e → Γ.isByteKind e = false → Known Γ c e.deref → wireType Γ e.deref fo ≠ 2 →
      Framed whole b body k → Chain l body → (∀ s ∈ l, BRead e fo false s.old s.text s.used s.new) →
      BRead (.base id) fo whole (.list (l.map Step.old)) b (k + body.length) (.list (l.map fun s => elemOf Γ e s.new))
  | array {id : TId} {e : Ty} {len : Nat} {fo : FOpts} {whole : Bool} {b body r : Bytes} {k n : Nat} {l : List Item} :
      Γ.unmarsh id = none → Γ.shape id = .array len e → Γ.isByteKind e = false → Known Γ c e.deref → wireType Γ e.deref fo = 2 →
      Framed whole b body k → Items fo.fnum l body r → Ended fo.fnum r → n + r.length = body.length →
      (∀ x ∈ l, Zeroed Γ e fo x → x.used = 1 ∧ x.new = absent Γ e) →
      (∀ x ∈ l, ¬ Zeroed Γ e fo x → BRead e { fo with fnum := 1 } false x.old x.text x.used x.new) →
      BRead (.base id) fo whole (.list (l.map Item.old)) b (k + n) (.list (l.map Item.new))
  /-- fields in order, over the old ones, then unknown fields with greater numbers than the last key -/
  | struct {id : TId} {fs : List Field} {fo : FOpts} {whole : Bool} {b body r : Bytes} {k last : Nat} {l : List FieldStep} :
      Γ.unmarsh id = none → Γ.shape id = .struct fs → Framed whole b body k → fs = l.map FieldStep.field →
      Layout Γ c 0 0 body l last r → Unknown last r →
      (∀ s ∈ l, s.found = .repeated → BRead s.field.ty { s.field.opts with fnum := s.num } true s.old s.text s.used s.new) →
      (∀ s ∈ l, s.found = .keyed → BRead s.field.ty { s.field.opts with fnum := s.num } false s.old s.text s.used s.new) →
      BRead (.base id) fo whole (.struct (l.map FieldStep.old)) b (k + body.length) (.struct (l.map FieldStep.new))
  /-- only nil interfaces are read; all bytes belong to the value -/
  | iface {id : TId} {fo : FOpts} {whole : Bool} {b body hd q q' : Bytes} {k : Nat} {ii : IfaceInfo} {ci : ConcInfo} {v : Val} :
      Γ.unmarsh id = none → Γ.shape id = .iface → c.iface? id = some ii → Framed whole b body k → body = hd ++ q →
      Names c ii hd ci → ConcText Γ ci.tid fo q q' → BRead (.base ci.tid) fo true (Γ.zero ci.tid) q' q'.length v →
      Γ.implements (if ci.ptrPref then .ptr (.base ci.tid) else .base ci.tid) id = true →
      BRead (.base id) fo whole .nil b (k + body.length)
        (if ci.ptrPref then .iface (.ptr (.base ci.tid)) (.ptr v) else .iface (.base ci.tid) v)

/-- A pointer that leads to a list may not be given. -/
def OldOk (t : Ty) (old : Val) : Prop :=
  t.isPtr = true → (∀ e, Γ.shape t.deref ≠ .slice e) ∧ (∀ n e, Γ.shape t.deref ≠ .array n e) ∨ pointee t old = none

/-- UnmarshalBinaryBare behind the prefix bytes.  Values that are not structs or the like have the key of field 1, unless there
are no bytes at all; interfaces have no key. -/
inductive Contents : Ty → Val → Bytes → Val → Prop
  | struct {t : Ty} {old v : Val} {b : Bytes} : wrapped Γ t.deref = false → BRead Γ c t { fnum := 1 } true old b b.length v →
      Contents t old b v
  | keyed {t : Ty} {old v : Val} {key b : Bytes} : wrapped Γ t.deref = true → (t.isPtr = true ∨ Γ.shape t.deref ≠ .iface) →
      OldOk Γ t old → KeyText 1 (wireType Γ t.deref {}) key →
      BRead Γ c t { fnum := 1 } (wireType Γ t.deref {} != 2) old b b.length v → Contents t old (key ++ b) v
  | plain {t : Ty} {old v : Val} {b : Bytes} : wrapped Γ t.deref = true → (b = [] ∨ t.isPtr = false ∧ Γ.shape t.deref = .iface) →
      OldOk Γ t old → BRead Γ c t { fnum := 1 } true old b b.length v → Contents t old b v

/-- UnmarshalBinaryBare: registered types have their prefix bytes first. -/
inductive BReading : Ty → Val → Bytes → Val → Prop
  | plain {t : Ty} {old v : Val} {b : Bytes} : Known Γ c t.deref → c.conc? t.deref = none → Contents Γ c t old b v → BReading t old b v
  | registered {t : Ty} {old v : Val} {b : Bytes} {ci : ConcInfo} : Known Γ c t.deref → c.conc? t.deref = some ci →
      ci.prefx.length = 4 → Contents Γ c t old b v → BReading t old (ci.prefx ++ b) v

end
end Amino.Spec
