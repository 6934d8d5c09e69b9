import Verif.JsonText
import Verif.SpecNorm
import Verif.ValEq

/-!
# Specification: JSON texts, and what a JSON round trip does to a value

The grammar is that of RFC 8259 for texts without white space between tokens.  `jnorm` is the value a
reader gets back; it mentions no text.
-/

namespace Amino.Spec

/-! ## UTF-8 (RFC 3629) -/

/-- A continuation byte. -/
def Tail (c : UInt8) : Prop := 0x80 ≤ c ∧ c ≤ 0xbf

/-- One encoded character. -/
inductive Utf8Char : Bytes → Prop
  | one {a : UInt8} : a < 0x80 → Utf8Char [a]
  | two {a b : UInt8} : 0xc2 ≤ a → a ≤ 0xdf → Tail b → Utf8Char [a, b]
  | e0 {b c : UInt8} : 0xa0 ≤ b → b ≤ 0xbf → Tail c → Utf8Char [0xe0, b, c]
  | three {a b c : UInt8} : 0xe1 ≤ a → a ≤ 0xef → a ≠ 0xed → Tail b → Tail c → Utf8Char [a, b, c]
  | ed {b c : UInt8} : 0x80 ≤ b → b ≤ 0x9f → Tail c → Utf8Char [0xed, b, c]
  | f0 {b c d : UInt8} : 0x90 ≤ b → b ≤ 0xbf → Tail c → Tail d → Utf8Char [0xf0, b, c, d]
  | four {a b c d : UInt8} : 0xf1 ≤ a → a ≤ 0xf3 → Tail b → Tail c → Tail d → Utf8Char [a, b, c, d]
  | f4 {b c d : UInt8} : 0x80 ≤ b → b ≤ 0x8f → Tail c → Tail d → Utf8Char [0xf4, b, c, d]

inductive Utf8 : Bytes → Prop
  | nil : Utf8 []
  | cons {u s : Bytes} : Utf8Char u → Utf8 s → Utf8 (u ++ s)

/-! ## JSON texts -/

def HexDigit (c : UInt8) : Prop := (0x30 ≤ c ∧ c ≤ 0x39) ∨ (0x61 ≤ c ∧ c ≤ 0x66) ∨ (0x41 ≤ c ∧ c ≤ 0x46)

/-- Inside of a string literal. -/
inductive StrBody : Bytes → Prop
  | nil : StrBody []
  | plain {c : UInt8} {r : Bytes} : 0x20 ≤ c → c ≠ 0x22 → c ≠ 0x5c → StrBody r → StrBody (c :: r)
  /-- `\"`, `\\`, `\/`, `\b`, `\f`, `\n`, `\r`, `\t` -/
  | esc {c : UInt8} {r : Bytes} : c ∈ [0x22, 0x5c, 0x2f, 0x62, 0x66, 0x6e, 0x72, 0x74] → StrBody r →
      StrBody (0x5c :: c :: r)
  | uni {a b c d : UInt8} {r : Bytes} : HexDigit a → HexDigit b → HexDigit c → HexDigit d → StrBody r →
      StrBody (0x5c :: 0x75 :: a :: b :: c :: d :: r)

inductive StrText : Bytes → Prop
  | mk {b : Bytes} : StrBody b → StrText (0x22 :: (b ++ [0x22]))

def Digit (c : UInt8) : Prop := 0x30 ≤ c ∧ c ≤ 0x39

/-- Integer part of a number: no leading zeros. -/
inductive IntPart : Bytes → Prop
  | zero : IntPart [0x30]
  | pos {c : UInt8} {r : Bytes} : 0x31 ≤ c → c ≤ 0x39 → (∀ x ∈ r, Digit x) → IntPart (c :: r)

inductive FracPart : Bytes → Prop
  | none : FracPart []
  | some {r : Bytes} : r ≠ [] → (∀ x ∈ r, Digit x) → FracPart (0x2e :: r)

inductive ExpPart : Bytes → Prop
  | none : ExpPart []
  | bare {e : UInt8} {r : Bytes} : e = 0x65 ∨ e = 0x45 → r ≠ [] → (∀ x ∈ r, Digit x) → ExpPart (e :: r)
  | sign {e s : UInt8} {r : Bytes} : e = 0x65 ∨ e = 0x45 → s = 0x2b ∨ s = 0x2d → r ≠ [] →
      (∀ x ∈ r, Digit x) → ExpPart (e :: s :: r)

inductive NumText : Bytes → Prop
  | pos {i f e : Bytes} : IntPart i → FracPart f → ExpPart e → NumText (i ++ f ++ e)
  | neg {i f e : Bytes} : IntPart i → FracPart f → ExpPart e → NumText (0x2d :: (i ++ f ++ e))

/-- Texts with commas between them. -/
def commas : List Bytes → Bytes
  | [] => []
  | [b] => b
  | b :: bs => b ++ 0x2c :: commas bs

/-- A JSON value. -/
inductive JText : Bytes → Prop
  | null : JText [0x6e, 0x75, 0x6c, 0x6c]
  | true : JText [0x74, 0x72, 0x75, 0x65]
  | false : JText [0x66, 0x61, 0x6c, 0x73, 0x65]
  | num {b : Bytes} : NumText b → JText b
  | str {b : Bytes} : StrText b → JText b
  | arr {bs : List Bytes} : (∀ b ∈ bs, JText b) → JText (0x5b :: (commas bs ++ [0x5d]))
  | obj {ms : List (Bytes × Bytes)} : (∀ m ∈ ms, StrText m.1) → (∀ m ∈ ms, JText m.2) →
      JText (0x7b :: (commas (ms.map fun m => m.1 ++ 0x3a :: m.2) ++ [0x7d]))

/-! ## What comes back -/

/-- Strings come back as valid UTF-8: a byte that is not part of a well formed character becomes U+FFFD.
The first argument bounds the length. -/
def sanitizeN : Nat → Bytes → Bytes
  | 0, _ => []
  | _ + 1, [] => []
  | n + 1, c :: r =>
    if c < 0x80 then c :: sanitizeN n r
    else if utf8Len (c :: r) = 0 then [0xef, 0xbf, 0xbd] ++ sanitizeN n r
    else (c :: r).take (utf8Len (c :: r)) ++ sanitizeN n ((c :: r).drop (utf8Len (c :: r)))

def sanitize (s : Bytes) : Bytes := sanitizeN s.length s

/-- The map after assigning `v` to key `k`. -/
def assign (k : Bytes) (v : Val) : List (Bytes × Val) → List (Bytes × Val)
  | [] => [(k, v)]
  | (k', v') :: l => if k' = k then (k, v) :: l else (k', v') :: assign k v l

/-- The map after a sequence of assignments. -/
def assigns : List (Bytes × Val) → List (Bytes × Val) → List (Bytes × Val)
  | [], m => m
  | (k, v) :: l, m => assigns l (assign k v m)

section
variable (Γ : Prog)

/-- Zero value of a type. -/
def zeroOf (t : Ty) : Val :=
  match t with
  | .base id => Γ.zero id
  | .ptr _ => .nil

/-- A field tagged `omitempty` is left out if it is a nil pointer, the zero value of its (non-pointer)
type, or an empty string, slice or array, also behind pointers. -/
def leftOut (t : Ty) (v : Val) : Bool :=
  match pointee t v with
  | none => true
  | some dv =>
    (!t.isPtr && dv == Γ.zero t.deref) ||
    match Γ.shape t.deref, dv with
    | .string, .str s => s.length == 0
    | .slice _, .nil => true
    | .slice _, .bytes b | .array _ _, .bytes b => b.length == 0
    | .slice _, .list vs | .array _ _, .list vs => vs.length == 0
    | _, _ => false

/-- Values written as `null`: nil pointers, slices and interfaces, and values represented by such. -/
def isNull : Nat → Ty → Val → Bool
  | 0, _, _ => false
  | fuel + 1, t, v =>
    match pointee t v with
    | none => true
    | some dv =>
      match Γ.marsh t.deref with
      | some (rid, m) =>
        match m dv with
        | .ok r => isNull fuel (.base rid) r
        | _ => false
      | none =>
        match Γ.shape t.deref, dv with
        | .slice _, .nil | .iface, .nil => true
        | _, _ => false

variable (c : Codec) (norm : Ty → Val → Option Val)

def jnormElems (e : Ty) : List Val → Option (List Val)
  | [] => some []
  | v :: vs => (norm e v).bind fun w => (jnormElems e vs).map fun ws => w :: ws

def jnormFields : List Field → List Val → Option (List Val)
  | [], [] => some []
  | f :: fs, v :: vs =>
    if f.visible && !(f.opts.omitEmpty && leftOut Γ f.ty v) then
      (norm f.ty v).bind fun w => (jnormFields fs vs).map fun ws => w :: ws
    else (jnormFields fs vs).map fun ws => zeroOf Γ f.ty :: ws
  | _, _ => none

def jnormEntries (e : Ty) : List (Bytes × Val) → Option (List (Bytes × Val))
  | [] => some []
  | (k, v) :: kvs => (norm e v).bind fun w => (jnormEntries e kvs).map fun ws => (sanitize k, w) :: ws

/-- Values of a type without MarshalAmino. -/
def jnormShape (id : TId) (v : Val) : Option Val :=
  match Γ.shape id, v with
  | .slice _, .bytes b => some (if b.length == 0 then Γ.zero id else .bytes b)
  | .array _ _, .bytes b => some (.bytes b)
  | .slice e, .list vs => (jnormElems norm e vs).map fun ws => if ws.length == 0 then Γ.zero id else .list ws
  | .array _ e, .list vs => (jnormElems norm e vs).map .list
  | .struct fs, .struct vs => (jnormFields Γ norm fs vs).map .struct
  | .map _, .nil => some (.map [])
  | .map e, .map kvs => (jnormEntries norm e kvs).map fun l => .map (assigns l [])
  | .iface, .iface t v =>
    match pointee t v, c.conc? t.deref with
    | some dv, some ci =>
      (norm (.base t.deref) dv).map fun w =>
        if ci.ptrPref then .iface (.ptr (.base ci.tid)) (.ptr w) else .iface (.base ci.tid) w
    | _, _ => none
  | .string, .str s => some (.str (sanitize s))
  | .bool, v | .int _, v | .float32, v | .float64, v | .time, v => some v
  | _, _ => none

/-- Values of a type, dereferenced, not written as `null`. -/
def jnormBase (id : TId) (v : Val) : Option Val :=
  match Γ.marsh id with
  | some (rid, m) =>
    match m v, Γ.unmarsh id with
    | .ok r, some (_, um) =>
      (norm (.base rid) r).bind fun r' =>
        match um (Γ.zero id) r' with
        | .ok w => some w
        | _ => none
    | _, _ => none
  | none => jnormShape Γ c norm id v

end

/-- What comes back from a JSON round trip of a value of type `t`:
* what is written as `null` comes back as the zero value of its type, pointers to it as nil;
* empty slices come back nil, nil maps empty;
* fields that are not written come back as zero values;
* strings come back as valid UTF-8;
* an interface value comes back in the pointer shape under which its type was registered;
* types with MarshalAmino/UnmarshalAmino go through their representation;
* everything else comes back unchanged. -/
def jnorm (Γ : Prog) (c : Codec) : Nat → Ty → Val → Option Val
  | 0, _, _ => none
  | fuel + 1, t, v =>
    if isNull Γ (fuel + 1) t v then some (zeroOf Γ t)
    else (pointee t v).bind fun dv => (jnormBase Γ c (jnorm Γ c fuel) t.deref dv).map (refs t)

/-! ## The types for which the JSON round trip is claimed -/

/-- A name that stands for itself between quotes: valid UTF-8 without quotes, backslashes and control
characters. -/
def PlainName (n : Bytes) : Prop := n ≠ [] ∧ Utf8 n ∧ ∀ c ∈ n, 0x20 ≤ c ∧ c ≠ 0x22 ∧ c ≠ 0x5c

/-- A component type: in the universe, and not a pointer to an interface. -/
def JOk (Γ : Prog) (S : TId → Prop) (t : Ty) : Prop := S t.deref ∧ (t.isPtr = true → Γ.isIface t.deref = false)

/-- A set of types closed under components; `fl`: floats allowed. -/
structure JUniv (Γ : Prog) (c : Codec) (J : JLib) (fl : Bool) (S : TId → Prop) : Prop where
  /-- type information can be obtained: interfaces are registered, float fields tagged -/
  info : ∀ {id}, S id → getInfo Γ c id = .ok ()
  /-- no MarshalJSON/UnmarshalJSON methods -/
  methods : ∀ {id}, S id → (∀ a, J.marsh id a = none) ∧ J.unmarsh id = none
  time : ∀ {id}, S id → Γ.shape id = .time → Γ.marsh id = none
  floats : ∀ {id}, S id → Γ.shape id = .float32 ∨ Γ.shape id = .float64 → fl = true
  /-- MarshalAmino and UnmarshalAmino come together and agree on the representation type -/
  marsh : ∀ {id rid m}, S id → Γ.marsh id = some (rid, m) → (∃ um, Γ.unmarsh id = some (rid, um)) ∧ S rid
  noMarsh : ∀ {id}, S id → Γ.marsh id = none → Γ.unmarsh id = none
  slice : ∀ {id e}, S id → Γ.shape id = .slice e → Γ.isByteKind e = false → JOk Γ S e
  array : ∀ {id n e}, S id → Γ.shape id = .array n e → if Γ.isByteKind e then e = .base Γ.byteId else JOk Γ S e
  map : ∀ {id e}, S id → Γ.shape id = .map e → JOk Γ S e
  field : ∀ {id fs f}, S id → Γ.shape id = .struct fs → f ∈ fs → f.visible = true →
    JOk Γ S f.ty ∧ Utf8 f.opts.jsonName
  /-- the JSON names of the fields of a struct are distinct -/
  names : ∀ {id fs}, S id → Γ.shape id = .struct fs →
    ((fs.filter fun f => f.visible).map fun f => f.opts.jsonName).Nodup
  iface : ∀ {id t ci}, S id → Γ.shape id = .iface → Γ.implements t id = true → c.conc? t.deref = some ci →
    S ci.tid ∧ Γ.isIface ci.tid = false ∧ PlainName ci.name ∧ c.name? ci.name = some ci ∧
    Γ.implements (if ci.ptrPref then .ptr (.base ci.tid) else .base ci.tid) id = true

/-- What is assumed of the standard library functions that are not modelled: times are written as JSON
strings ending in `Z`, floats as JSON numbers, and both are read back exactly. -/
structure LibOk (J : JLib) : Prop where
  time : ∀ {s ns b}, -(2 ^ 63) ≤ s → s < 2 ^ 63 → 0 ≤ ns → ns < 1000000000 → J.timeText s ns = some b →
    StrText b ∧ b[b.length - 2]? = some 0x5a ∧ J.timeParse b = some (s, ns)
  f32 : ∀ {x b}, J.f32Text x = some b → NumText b ∧ J.f32Parse b = some x
  f64 : ∀ {x b}, J.f64Text x = some b → NumText b ∧ J.f64Parse b = some x

/-! ## Integers -/

/-- The number a string of decimal digits stands for. -/
def decVal (ds : Bytes) : Nat := ds.foldl (fun n d => 10 * n + (d.toNat - 48)) 0

/-- `b` is the decimal notation of `i`: no leading zeros, no `-0`. -/
inductive DecText : Int → Bytes → Prop
  | pos {ds : Bytes} : IntPart ds → DecText (decVal ds) ds
  | neg {ds : Bytes} : IntPart ds → 0 < decVal ds → DecText (-(decVal ds : Int)) (0x2d :: ds)

/-! ## Map iteration -/

/-- The same Go value, with the entries of its maps listed in another order. -/
inductive SameVal : Val → Val → Prop
  | refl {v : Val} : SameVal v v
  | ptr {v w : Val} : SameVal v w → SameVal (.ptr v) (.ptr w)
  | iface {t : Ty} {v w : Val} : SameVal v w → SameVal (.iface t v) (.iface t w)
  | list {vs ws : List Val} : vs.length = ws.length → (∀ p ∈ vs.zip ws, SameVal p.1 p.2) →
      SameVal (.list vs) (.list ws)
  | struct {vs ws : List Val} : vs.length = ws.length → (∀ p ∈ vs.zip ws, SameVal p.1 p.2) →
      SameVal (.struct vs) (.struct ws)
  | map {l m m' : List (Bytes × Val)} : l.length = m.length →
      (∀ p ∈ l.zip m, p.1.1 = p.2.1) → (∀ p ∈ l.zip m, SameVal p.1.2 p.2.2) → m.Perm m' → SameVal (.map l) (.map m')

/-- All maps in the value have at most one entry. -/
inductive SmallMaps : Val → Prop
  | ptr {v : Val} : SmallMaps v → SmallMaps (.ptr v)
  | iface {t : Ty} {v : Val} : SmallMaps v → SmallMaps (.iface t v)
  | list {vs : List Val} : (∀ v ∈ vs, SmallMaps v) → SmallMaps (.list vs)
  | struct {vs : List Val} : (∀ v ∈ vs, SmallMaps v) → SmallMaps (.struct vs)
  | map {l : List (Bytes × Val)} : l.length ≤ 1 → (∀ p ∈ l, SmallMaps p.2) → SmallMaps (.map l)
  | nil : SmallMaps .nil
  | bool {b : Bool} : SmallMaps (.bool b)
  | int {i : Int} : SmallMaps (.int i)
  | f32 {b : UInt64} : SmallMaps (.f32 b)
  | f64 {b : UInt64} : SmallMaps (.f64 b)
  | str {s : Bytes} : SmallMaps (.str s)
  | bytes {b : Bytes} : SmallMaps (.bytes b)
  | time {s ns : Int} : SmallMaps (.time s ns)

/-! ## Values that JSON preserves exactly -/

/-- The field comes back although it may not have been written. -/
def FieldBack (Γ : Prog) (f : Field) (v : Val) : Prop :=
  if f.visible then f.opts.omitEmpty = true → leftOut Γ f.ty v = true → v = zeroOf Γ f.ty else v = zeroOf Γ f.ty

/-- Values that JSON has an exact notation for: no empty non-nil slices, no nil maps, no pointers to nil slices or
interfaces, only valid UTF-8 strings, map keys pairwise different, interface values in the registered pointer shape,
nothing but zero values in fields that are not written; values with MarshalAmino have a representation with an exact
notation that is not `null`, and UnmarshalAmino makes the value of it again. -/
inductive Exact (Γ : Prog) (c : Codec) : Ty → Val → Prop
  | ptrNil {t : Ty} : Exact Γ c (.ptr t) .nil
  | ptr {t : Ty} {v w : Val} : t.isPtr = true → w = refs t v → Exact Γ c (.base t.deref) v →
      (Γ.shape t.deref = .iface ∨ (∃ e, Γ.shape t.deref = .slice e) → v ≠ .nil) → Exact Γ c t w
  | bool {id : TId} {b : Bool} : Γ.marsh id = none → Γ.shape id = .bool → Exact Γ c (.base id) (.bool b)
  | int {id : TId} {k : IntKind} {i : Int} : Γ.marsh id = none → Γ.shape id = .int k → Exact Γ c (.base id) (.int i)
  | f32 {id : TId} {b : UInt64} : Γ.marsh id = none → Γ.shape id = .float32 → Exact Γ c (.base id) (.f32 b)
  | f64 {id : TId} {b : UInt64} : Γ.marsh id = none → Γ.shape id = .float64 → Exact Γ c (.base id) (.f64 b)
  | time {id : TId} {s ns : Int} : Γ.marsh id = none → Γ.shape id = .time → Exact Γ c (.base id) (.time s ns)
  | str {id : TId} {s : Bytes} : Γ.marsh id = none → Γ.shape id = .string → Utf8 s → Exact Γ c (.base id) (.str s)
  | sliceNil {id : TId} {e : Ty} : Γ.marsh id = none → Γ.shape id = .slice e → Γ.zero id = .nil →
      Exact Γ c (.base id) .nil
  | sliceBytes {id : TId} {e : Ty} {b : Bytes} : Γ.marsh id = none → Γ.shape id = .slice e → b ≠ [] →
      Exact Γ c (.base id) (.bytes b)
  | slice {id : TId} {e : Ty} {vs : List Val} : Γ.marsh id = none → Γ.shape id = .slice e → vs ≠ [] →
      (∀ v ∈ vs, Exact Γ c e v) → Exact Γ c (.base id) (.list vs)
  | arrayBytes {id : TId} {n : Nat} {e : Ty} {b : Bytes} : Γ.marsh id = none → Γ.shape id = .array n e →
      Exact Γ c (.base id) (.bytes b)
  | array {id : TId} {n : Nat} {e : Ty} {vs : List Val} : Γ.marsh id = none → Γ.shape id = .array n e →
      (∀ v ∈ vs, Exact Γ c e v) → Exact Γ c (.base id) (.list vs)
  | map {id : TId} {e : Ty} {l : List (Bytes × Val)} : Γ.marsh id = none → Γ.shape id = .map e →
      (l.map (·.1)).Nodup → (∀ p ∈ l, Utf8 p.1) → (∀ p ∈ l, Exact Γ c e p.2) → Exact Γ c (.base id) (.map l)
  | ifaceNil {id : TId} : Γ.marsh id = none → Γ.shape id = .iface → Γ.zero id = .nil → Exact Γ c (.base id) .nil
  | iface {id : TId} {t : Ty} {v w : Val} {ci : ConcInfo} : Γ.marsh id = none → Γ.shape id = .iface → w = refs t v →
      c.conc? t.deref = some ci → ci.tid = t.deref → t = (if ci.ptrPref then .ptr (.base ci.tid) else .base ci.tid) →
      Exact Γ c (.base t.deref) v → Exact Γ c (.base id) (.iface t w)
  | struct {id : TId} {fs : List Field} {vs : List Val} : Γ.marsh id = none → Γ.shape id = .struct fs →
      fs.length = vs.length → (∀ p ∈ fs.zip vs, FieldBack Γ p.1 p.2) →
      (∀ p ∈ fs.zip vs, p.1.visible = true → (p.1.opts.omitEmpty && leftOut Γ p.1.ty p.2) = false →
        Exact Γ c p.1.ty p.2) → Exact Γ c (.base id) (.struct vs)
  | marsh {id rid : TId} {m : Val → Res Val} {um : Val → Val → Res Val} {v r : Val} : Γ.marsh id = some (rid, m) →
      Γ.unmarsh id = some (rid, um) → m v = .ok r → um (Γ.zero id) r = .ok v → (∀ f, isNull Γ f (.base rid) r = false) →
      Exact Γ c (.base rid) r → Exact Γ c (.base id) v

end Amino.Spec
