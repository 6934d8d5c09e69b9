import Verif.JsonSafe

/-!
# A concrete Go program for the JSON theorems

```
type Rec struct {
  A int64; B string `json:",omitempty"`; C []byte; M map[string]int64; I Iface; T time.Time; P *int64
  L []int64; R [2]int64; U Cents; Z bool; W int32 }
type Iface interface { ... }   // registered
type Foo struct { N int64 }    // registered as "f", *Foo implements Iface
type Bar struct { B string }   // does not implement Iface
type Fl struct { X float64 `amino:"unsafe"` }
type Cents struct { n int64 }  // MarshalAmino() (int64, error), UnmarshalAmino(int64) error
```
-/

namespace Amino.JDemo
open Spec

def byteT : TId := 0
def int64T : TId := 1
def stringT : TId := 2
def bytesT : TId := 3
def recT : TId := 4
def mapT : TId := 5
def ifaceT : TId := 6
def fooT : TId := 7
def timeT : TId := 8
def f64T : TId := 9
def flT : TId := 10
def int64sT : TId := 11
def centsT : TId := 12
def barT : TId := 13
def arrT : TId := 14
def int32T : TId := 15
def boolT : TId := 16

def recFields : List Field :=
  [{ ty := .base int64T, opts := { jsonName := [0x41] } },
   { ty := .base stringT, opts := { jsonName := [0x42], omitEmpty := true } },
   { ty := .base bytesT, opts := { jsonName := [0x43] } },
   { ty := .base mapT, opts := { jsonName := [0x4d] } },
   { ty := .base ifaceT, opts := { jsonName := [0x49] } },
   { ty := .base timeT, opts := { jsonName := [0x54] } },
   { ty := .ptr (.base int64T), opts := { jsonName := [0x50] } },
   { ty := .base int64sT, opts := { jsonName := [0x4c] } },
   { ty := .base arrT, opts := { jsonName := [0x52] } },
   { ty := .base centsT, opts := { jsonName := [0x55] } },
   { ty := .base boolT, opts := { jsonName := [0x5a] } },
   { ty := .base int32T, opts := { jsonName := [0x57] } }]

def flFields : List Field := [{ ty := .base f64T, opts := { jsonName := [0x58], floatOk := true } }]

def shape : TId → Shape
  | 0 => .int .uint8
  | 1 => .int .int64
  | 2 => .string
  | 3 => .slice (.base byteT)
  | 4 => .struct recFields
  | 5 => .map (.base int64T)
  | 6 => .iface
  | 7 => .struct [{ ty := .base int64T, opts := { jsonName := [0x4e] } }]
  | 8 => .time
  | 9 => .float64
  | 10 => .struct flFields
  | 11 => .slice (.base int64T)
  | 12 => .struct [{ ty := .base int64T, visible := false }]
  | 13 => .struct [{ ty := .base stringT, opts := { jsonName := [0x42] } }]
  | 14 => .array 2 (.base int64T)
  | 15 => .int .int32
  | _ => .bool

def zeroTime : Val := .time (-62135596800) 0

def zero : TId → Val
  | 0 | 1 | 15 => .int 0
  | 2 => .str []
  | 3 | 5 | 6 | 11 => .nil
  | 4 => .struct [.int 0, .str [], .nil, .nil, .nil, zeroTime, .nil, .nil, .list [.int 0, .int 0], .struct [.int 0],
      .bool false, .int 0]
  | 7 | 12 => .struct [.int 0]
  | 8 => zeroTime
  | 9 => .f64 0
  | 10 => .struct [.f64 0]
  | 13 => .struct [.str []]
  | 14 => .list [.int 0, .int 0]
  | _ => .bool false

def centsOut : Val → Res Val
  | .struct [.int i] => .ok (.int i)
  | _ => .panic .illTyped

def centsIn (_ : Val) : Val → Res Val
  | .int i => .ok (.struct [.int i])
  | _ => .panic .illTyped

def prog : Prog where
  shape := shape
  zero := zero
  marsh id := if id = centsT then some (int64T, centsOut) else none
  unmarsh id := if id = centsT then some (int64T, centsIn) else none
  implements t i := i == ifaceT && t == .ptr (.base fooT)
  byteId := byteT

def foo : ConcInfo := { tid := fooT, ptrPref := true, name := [0x66], disamb := [7, 7, 7], prefx := [1, 2, 3, 4] }
def bar : ConcInfo := { tid := barT, ptrPref := false, name := [0x62], disamb := [9, 9, 9], prefx := [5, 6, 7, 8] }
/-- `Bar` registered under the name `"`. -/
def badBar : ConcInfo := { bar with name := [0x22] }

/-- Only `Foo` registered. -/
def codec : Codec where
  ifaces := [{ tid := ifaceT, priority := [], always := false, impls := [foo] }]
  concs := [foo]
  byDisfix := [(foo.disfix, foo)]
  byName := [(foo.name, foo)]

/-- `Foo` and `Bar` registered. -/
def codec2 : Codec where
  ifaces := [{ tid := ifaceT, priority := [], always := false, impls := [foo] }]
  concs := [foo, bar]
  byDisfix := [(foo.disfix, foo), (bar.disfix, bar)]
  byName := [(foo.name, foo), (bar.name, bar)]

/-- `Bar` registered under a name with a quote. -/
def codecBad : Codec where
  concs := [badBar]
  byDisfix := [(badBar.disfix, badBar)]
  byName := [(badBar.name, badBar)]

/-- `"1970-01-01T00:00:00Z"` -/
def epochText : Bytes :=
  [0x22, 0x31, 0x39, 0x37, 0x30, 0x2d, 0x30, 0x31, 0x2d, 0x30, 0x31, 0x54, 0x30, 0x30, 0x3a, 0x30, 0x30, 0x3a, 0x30,
    0x30, 0x5a, 0x22]
/-- `"0001-01-01T00:00:00Z"` -/
def year1Text : Bytes :=
  [0x22, 0x30, 0x30, 0x30, 0x31, 0x2d, 0x30, 0x31, 0x2d, 0x30, 0x31, 0x54, 0x30, 0x30, 0x3a, 0x30, 0x30, 0x3a, 0x30,
    0x30, 0x5a, 0x22]

/-- A library that knows the float 0 and two instants. -/
def lib : JLib where
  f32Text _ := none
  f64Text x := if x = 0 then some [0x30] else none
  f32Parse _ := none
  f64Parse b := if b = [0x30] then some 0 else none
  timeText s ns :=
    if s = 0 ∧ ns = 0 then some epochText else if s = -62135596800 ∧ ns = 0 then some year1Text else none
  timeParse b := if b = epochText then some (0, 0) else if b = year1Text then some (-62135596800, 0) else none
  marsh _ _ := none
  unmarsh _ := none

theorem libOk : LibOk lib where
  time := by
    intro s ns b _ _ _ _ h
    have hp : ∀ {x : Bytes} {y : Bytes}, x = 0x22 :: (y ++ [0x22]) → (∀ c ∈ y, 0x20 ≤ c ∧ c ≠ 0x22 ∧ c ≠ 0x5c) → StrText x :=
      fun e hy => e ▸ .mk (strBody_plain hy)
    simp only [lib] at h
    split at h
    · rename_i hh
      cases h
      obtain ⟨rfl, rfl⟩ := hh
      exact ⟨hp (y := (epochText.drop 1).take 20) rfl (by decide), rfl, rfl⟩
    split at h
    · rename_i hh
      cases h
      obtain ⟨rfl, rfl⟩ := hh
      exact ⟨hp (y := (year1Text.drop 1).take 20) rfl (by decide), rfl, rfl⟩
    · cases h
  f32 := by intro x b h; cases h
  f64 := by
    intro x b h
    simp only [lib] at h
    split at h
    · cases h
      rename_i hx
      subst hx
      exact ⟨.pos (i := [0x30]) (f := []) (e := []) .zero .none .none, rfl⟩
    · cases h

theorem libTy : LibTy lib where
  f32 := by intro b x h; cases h
  time := by
    intro b s ns h
    simp only [lib] at h
    split at h
    · cases h; decide
    split at h
    · cases h; decide
    · cases h

theorem hasTy_cents {v : Val} (h : HasTy prog (.base centsT) v) :
    ∃ i, v = .struct [.int i] ∧ HasTy prog (.base int64T) (.int i) := by
  cases h with
  | struct hs hl hf =>
    rename_i fs vs
    have hs' : (Shape.struct [{ ty := .base int64T, visible := false }] : Shape) = .struct fs := hs
    cases hs'
    match vs with
    | [] => simp at hl
    | _ :: _ :: _ => simp at hl
    | [x] =>
      simp at hf
      cases hf with
      | int h1 h2 => exact ⟨_, rfl, .int h1 h2⟩
      | _ => simp_all [prog, shape, int64T]
  | _ => simp_all [prog, shape, centsT]

theorem hasTy_int64 {v : Val} (h : HasTy prog (.base int64T) v) : ∃ i, v = .int i := by
  cases h with
  | int h1 h2 => exact ⟨_, rfl⟩
  | _ => simp_all [prog, shape, int64T]

theorem typed : prog.Typed where
  zero := by
    have hi : ∀ {id k}, shape id = .int k → HasTy prog (.base id) (.int 0) := fun h => .int h (zero_inRange _)
    have hs : ∀ {id}, shape id = .string → HasTy prog (.base id) (.str []) := fun h => .str h
    have hn : ∀ {id e}, shape id = .slice e → HasTy prog (.base id) .nil := fun h => .sliceNil h
    have ht : HasTy prog (.base timeT) zeroTime :=
      .time rfl (by decide) (by decide) (by decide) (by decide)
    have ha : HasTy prog (.base arrT) (.list [.int 0, .int 0]) := by
      refine .array (e := .base int64T) rfl rfl rfl ?_
      simp
      exact hi rfl
    have h1 : ∀ {id : TId} {f : Field} {v}, shape id = .struct [f] → HasTy prog f.ty v →
        HasTy prog (.base id) (.struct [v]) := by
      intro id f v hs hv
      refine .struct (fs := [f]) hs rfl ?_
      simpa using hv
    intro id
    match id with
    | 0 | 1 | 15 => exact hi rfl
    | 2 => exact hs rfl
    | 3 | 11 => exact hn rfl
    | 5 => exact .mapNil rfl
    | 6 => exact .ifaceNil rfl
    | 4 =>
      refine .struct (fs := recFields) rfl rfl ?_
      simp [recFields]
      exact ⟨hi rfl, hs rfl, hn rfl, .mapNil rfl, .ifaceNil rfl, ht, .ptrNil, hn rfl, ha, h1 rfl (hi rfl), .bool rfl, hi rfl⟩
    | 7 | 12 => exact h1 rfl (hi rfl)
    | 8 => exact ht
    | 9 => exact .f64 rfl
    | 10 => exact h1 rfl (.f64 rfl)
    | 13 => exact h1 rfl (hs rfl)
    | 14 => exact ha
    | n + 16 => exact .bool rfl
  marsh := by
    intro id rid m v r hm hv hr
    simp only [prog] at hm
    split at hm
    · cases hm
      rename_i hid
      subst hid
      obtain ⟨i, rfl, hi⟩ := hasTy_cents hv
      cases hr
      exact hi
    · cases hm
  unmarsh := by
    intro id rid um p r v hm hp hr hv
    simp only [prog] at hm
    split at hm
    · cases hm
      rename_i hid
      subst hid
      obtain ⟨i, rfl⟩ := hasTy_int64 hr
      cases hv
      refine .struct (fs := [{ ty := .base int64T, visible := false }]) rfl rfl ?_
      simpa using hr
    · cases hm

theorem user_total : UserTotal prog := by
  intro id rid um r h hr
  simp only [prog] at h
  split at h
  · cases h
    obtain ⟨i, rfl⟩ := hasTy_int64 hr
    exact ⟨_, rfl⟩
  · cases h

theorem shape_struct {id : TId} {fs : List Field} (h : prog.shape id = .struct fs) :
    fs.any prog.badFloat = false ∧ prog.zero id = .struct (fs.map fun f => prog.zeroTy f.ty) ∧
      (fieldNames fs).Nodup ∧ (∀ f ∈ fs, (∀ c ∈ f.opts.jsonName, c < 0x80) ∧
        (f.ty.isPtr = true → prog.isIface f.ty.deref = false) ∧
        (f.visible = true → id ≠ flT → f.ty.deref ≠ f64T)) ∧ (id ≠ flT → ∀ f ∈ fs, f.ty.deref ≠ flT) := by
  match id with
  | 0 | 1 | 2 | 3 | 5 | 6 | 8 | 9 | 11 | 14 | 15 => simp [prog, shape] at h
  | 4 | 7 | 10 | 12 | 13 =>
    simp only [prog, shape, Shape.struct.injEq] at h
    subst h
    refine ⟨by decide +kernel, rfl, by decide +kernel, by decide +kernel, by decide +kernel⟩
  | n + 16 => simp [prog, shape] at h

theorem shape_slice {id : TId} {e : Ty} (h : prog.shape id = .slice e) :
    prog.zero id = .nil ∧ (prog.isByteKind e = false → e = .base int64T) := by
  match id with
  | 0 | 1 | 2 | 4 | 5 | 6 | 7 | 8 | 9 | 10 | 12 | 13 | 14 | 15 => simp [prog, shape] at h
  | 3 | 11 =>
    simp only [prog, shape, Shape.slice.injEq] at h
    subst h
    exact ⟨rfl, by decide +kernel⟩
  | n + 16 => simp [prog, shape] at h

theorem shape_array {id : TId} {n : Nat} {e : Ty} (h : prog.shape id = .array n e) :
    id = arrT ∧ n = 2 ∧ e = .base int64T := by
  match id with
  | 0 | 1 | 2 | 3 | 4 | 5 | 6 | 7 | 8 | 9 | 10 | 11 | 12 | 13 | 15 => simp [prog, shape] at h
  | 14 =>
    simp only [prog, shape, Shape.array.injEq] at h
    exact ⟨rfl, h.1.symm, h.2.symm⟩
  | n + 16 => simp [prog, shape] at h

theorem shape_map {id : TId} {e : Ty} (h : prog.shape id = .map e) : e = .base int64T := by
  match id with
  | 0 | 1 | 2 | 3 | 4 | 6 | 7 | 8 | 9 | 10 | 11 | 12 | 13 | 14 | 15 => simp [prog, shape] at h
  | 5 => simp only [prog, shape, Shape.map.injEq] at h; exact h.symm
  | n + 16 => simp [prog, shape] at h

theorem shape_iface {id : TId} (h : prog.shape id = .iface) : id = ifaceT := by
  match id with
  | 6 => rfl
  | 0 | 1 | 2 | 3 | 4 | 5 | 7 | 8 | 9 | 10 | 11 | 12 | 13 | 14 | 15 => simp [prog, shape] at h
  | n + 16 => simp [prog, shape] at h

theorem zeroOk : ZeroOk prog where
  struct h := (shape_struct h).2.1
  array h _ := by obtain ⟨rfl, rfl, rfl⟩ := shape_array h; rfl
  slice h := (shape_slice h).1
  iface h := by rw [shape_iface h]; rfl
  bool := by
    intro id h
    match id with
    | 0 | 1 | 2 | 3 | 4 | 5 | 6 | 7 | 8 | 9 | 10 | 11 | 12 | 13 | 14 | 15 => simp [prog, shape] at h
    | n + 16 => rfl
  int := by
    intro id k h
    match id with
    | 2 | 3 | 4 | 5 | 6 | 7 | 8 | 9 | 10 | 11 | 12 | 13 | 14 => simp [prog, shape] at h
    | 0 | 1 | 15 => rfl
    | n + 16 => simp [prog, shape] at h
  string := by
    intro id h
    match id with
    | 0 | 1 | 3 | 4 | 5 | 6 | 7 | 8 | 9 | 10 | 11 | 12 | 13 | 14 | 15 => simp [prog, shape] at h
    | 2 => rfl
    | n + 16 => simp [prog, shape] at h

/-- Everything but floats. -/
def S (fl : Bool) (id : TId) : Prop := fl = true ∨ (id ≠ f64T ∧ id ≠ flT)

theorem info (c : Codec) (hc : (c.iface? ifaceT).isSome = true) (id : TId) : getInfo prog c id = .ok () := by
  unfold getInfo
  cases hs : prog.shape id with
  | iface => simp only; rw [shape_iface hs, if_pos hc]
  | struct fs => simp only; rw [if_neg (by simp [(shape_struct hs).1])]
  | _ => rfl

theorem conc_foo {id : TId} {ci : ConcInfo} (h : codec.conc? id = some ci) : ci = foo ∧ id = fooT := by
  unfold Codec.conc? codec at h
  rw [List.find?_cons] at h
  split at h
  · rename_i hh
    simp only [Option.some.injEq] at h
    exact ⟨h.symm, by simp [foo] at hh; exact hh.symm⟩
  · simp at h

theorem plain_f : PlainName foo.name := ⟨by decide, utf8_ascii (by decide), by decide⟩

theorem base_ok {fl : Bool} {i : TId} (h1 : i ≠ f64T) (h2 : i ≠ flT) : JOk prog (S fl) (.base i) :=
  ⟨.inr ⟨h1, h2⟩, by simp [Ty.isPtr]⟩

theorem univ (fl : Bool) : JUniv prog codec lib fl (S fl) where
  info _ := info codec rfl _
  methods _ := ⟨fun _ => rfl, rfl⟩
  time := by
    intro id _ h
    simp only [prog]
    rw [if_neg]
    rintro rfl
    simp [prog, shape, centsT] at h
  floats := by
    intro id hS h
    rcases hS with hS | hS
    · exact hS
    · exfalso
      match id with
      | 9 => exact hS.1 rfl
      | 0 | 1 | 2 | 3 | 4 | 5 | 6 | 7 | 8 | 10 | 11 | 12 | 13 | 14 | 15 => simp [prog, shape] at h
      | n + 16 => simp [prog, shape] at h
  marsh := by
    intro id rid m _ h
    simp only [prog] at h ⊢
    split at h
    · cases h
      rename_i hid
      rw [if_pos hid]
      exact ⟨⟨_, rfl⟩, .inr (by decide)⟩
    · cases h
  noMarsh := by
    intro id _ h
    simp only [prog] at h ⊢
    split at h
    · cases h
    · rename_i hid; rw [if_neg hid]
  slice h hs hb := by rw [(shape_slice hs).2 hb]; exact base_ok (by decide) (by decide)
  array := by
    intro id n e _ hs
    obtain ⟨rfl, rfl, rfl⟩ := shape_array hs
    rw [if_neg (by decide)]
    exact base_ok (by decide) (by decide)
  map h hs := by rw [shape_map hs]; exact base_ok (by decide) (by decide)
  field := by
    intro id fs f hS hs hf hv
    obtain ⟨_, _, _, h1, h2⟩ := shape_struct hs
    refine ⟨⟨?_, (h1 f hf).2.1⟩, utf8_ascii (h1 f hf).1⟩
    rcases hS with hS | hS
    · exact .inl hS
    · exact .inr ⟨(h1 f hf).2.2 hv hS.2, h2 hS.2 f hf⟩
  names _ hs := (shape_struct hs).2.2.1
  iface := by
    intro id t ci _ hs _ hc
    rw [(conc_foo hc).1, shape_iface hs]
    exact ⟨.inr (by decide), by decide, plain_f, rfl, by decide +kernel⟩

/-- `Rec{A: -5, B: "", C: {1,2}, M: {"k": 7}, I: &Foo{9}, T: 1970, P: &3, L: []int64{}, R: {1,2}, U: 250, Z: true}` -/
def rec1 : Val :=
  .struct [.int (-5), .str [], .bytes [1, 2], .map [([0x6b], .int 7)],
    .iface (.ptr (.base fooT)) (.ptr (.struct [.int 9])), .time 0 0, .ptr (.int 3), .list [],
    .list [.int 1, .int 2], .struct [.int 250], .bool true, .int (-1)]

/-- What comes back: `L` is nil. -/
def rec1Back : Val :=
  .struct [.int (-5), .str [], .bytes [1, 2], .map [([0x6b], .int 7)],
    .iface (.ptr (.base fooT)) (.ptr (.struct [.int 9])), .time 0 0, .ptr (.int 3), .nil,
    .list [.int 1, .int 2], .struct [.int 250], .bool true, .int (-1)]

theorem rec1_typed : HasTy prog (.base recT) rec1 := by
  have h1 : ∀ {id : TId} {f : Field} {v}, shape id = .struct [f] → HasTy prog f.ty v →
      HasTy prog (.base id) (.struct [v]) := by
    intro id f v hs hv
    refine .struct (fs := [f]) hs rfl ?_
    simpa using hv
  refine .struct (fs := recFields) rfl rfl ?_
  simp [recFields]
  refine ⟨.int rfl (by decide), .str rfl, .sliceBytes rfl rfl, .map (e := .base int64T) rfl ?_, .iface rfl rfl (.ptr ?_),
    .time rfl (by decide) (by decide) (by decide) (by decide), .ptr (.int rfl (by decide)), .slice (e := .base int64T) rfl rfl (by simp),
    .array (n := 2) (e := .base int64T) rfl rfl rfl ?_, h1 rfl (.int rfl (by decide)), .bool rfl, .int rfl (by decide)⟩
  · simp; exact .int rfl (by decide)
  · exact h1 rfl (.int rfl (by decide))
  · simp; exact ⟨.int rfl (by decide), .int rfl (by decide)⟩

def rank (id : TId) : Nat := if id = centsT then 1 else 0

theorem jsafe : JSafe prog codec lib (fun _ => True) rank 1 where
  bound := by intro id _; unfold rank; split <;> omega
  info _ := info codec rfl _
  methods := by intro id um p b _ h; cases h
  unmarsh := by
    intro id rid um _ h
    simp only [prog] at h
    split at h
    · cases h
      rename_i hid
      subst hid
      refine ⟨trivial, by decide, fun p r hp hr => ?_⟩
      obtain ⟨i, rfl⟩ := hasTy_int64 hr
      refine .struct (fs := [{ ty := .base int64T, visible := false }]) rfl rfl ?_
      simpa using hr
    · cases h
  slice h hs hb := by rw [(shape_slice hs).2 hb]; exact ⟨trivial, by simp [Ty.isPtr]⟩
  array := by
    intro id n e _ hs
    obtain ⟨rfl, rfl, rfl⟩ := shape_array hs
    rw [if_neg (by decide)]
    exact ⟨trivial, by simp [Ty.isPtr]⟩
  map h hs := by rw [shape_map hs]; exact ⟨trivial, by simp [Ty.isPtr]⟩
  field := by
    intro id fs f hS hs hf hv
    obtain ⟨_, _, _, h1, h2⟩ := shape_struct hs
    exact ⟨trivial, (h1 f hf).2.1⟩
  iface := by
    intro id n ci _ hs hc
    have : ci = foo := by
      unfold Codec.name? codec at hc
      simp only [List.lookup_cons] at hc
      split at hc
      · exact (Option.some.inj hc).symm
      · simp at hc
    rw [this, shape_iface hs]
    exact ⟨trivial, by decide +kernel⟩

end Amino.JDemo
