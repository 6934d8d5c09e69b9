import Verif.EvolveExists
import Verif.PropsRT

/-!
# An example of types that change

```
type Sub struct { N int32; S string }              // became  struct { N int64; Name string; B bool }
type Iface interface {...}                         // registered
type Foo struct { N int32 }                        // became  struct { N int64; P *Sub }, implements Iface, registered
type Msg struct { L []Sub; I Iface }               // became  struct { L []Sub; I Iface; P *Sub }
```
-/

namespace Amino.EvoDemo
open Spec

def subNew : List Field := [{ ty := .base 2 }, { ty := .base 3 }, { ty := .base 4 }]
def fooNew : List Field := [{ ty := .base 2 }, { ty := .ptr (.base 6) }]
def msgNew : List Field := [{ ty := .base 8 }, { ty := .base 10 }, { ty := .ptr (.base 6) }]

def shape : TId → Shape
  | 0 => .int .uint8
  | 1 => .int .int32
  | 2 => .int .int64
  | 3 => .string
  | 4 => .bool
  | 5 => .struct [{ ty := .base 1 }, { ty := .base 3 }]
  | 6 => .struct subNew
  | 7 => .slice (.base 5)
  | 8 => .slice (.base 6)
  | 9 => .iface
  | 10 => .iface
  | 11 => .struct [{ ty := .base 1 }]
  | 12 => .struct fooNew
  | 13 => .struct [{ ty := .base 7 }, { ty := .base 9 }]
  | 14 => .struct msgNew
  | 15 => .int .int16
  | 16 => .struct [{ ty := .base 15 }]
  | 17 => .struct [{ ty := .base 1 }]
  | _ => .bool

def zero : TId → Val
  | 0 | 1 | 2 | 15 => .int 0
  | 3 => .str []
  | 5 => .struct [.int 0, .str []]
  | 6 => .struct [.int 0, .str [], .bool false]
  | 7 | 8 | 9 | 10 => .nil
  | 11 | 16 | 17 => .struct [.int 0]
  | 12 => .struct [.int 0, .nil]
  | 13 => .struct [.nil, .nil]
  | 14 => .struct [.nil, .nil, .nil]
  | _ => .bool false

def prog : Prog where
  shape := shape
  zero := zero
  marsh _ := none
  unmarsh _ := none
  implements t i := (i == 9 && t == .base 11) || (i == 10 && t == .base 12)
  byteId := 0

def fooInfo (id : TId) : ConcInfo := { tid := id, ptrPref := false, name := [102], disamb := [7, 7, 7], prefx := [1, 2, 3, 4] }

def codecWith (iface foo : TId) : Codec where
  ifaces := [{ tid := iface, priority := [], always := false, impls := [fooInfo foo] }]
  concs := [fooInfo foo]
  byDisfix := [((fooInfo foo).disfix, fooInfo foo)]
  byName := [((fooInfo foo).name, fooInfo foo)]

def codecOld : Codec := codecWith 9 11
def codecNew : Codec := codecWith 10 12

def pairs : List (TId × TId) := [(1, 1), (1, 2), (3, 3), (5, 6), (7, 8), (9, 10), (11, 12), (13, 14)]

def R (b : Bool) (id id' : TId) : Prop := b = false ∧ (id, id') ∈ pairs

theorem unsent_ptr {n : Nat} : Unsent prog codecNew n (.ptr (.base 6)) .nil := .nilPtr (by decide)

theorem conc_with {i f id : TId} {ci : ConcInfo} (h : (codecWith i f).conc? id = some ci) : ci = fooInfo f ∧ id = f := by
  unfold Codec.conc? codecWith at h
  rw [List.find?_cons] at h
  split at h
  · rename_i hh
    simp only [Option.some.injEq] at h
    exact ⟨h.symm, by simp [fooInfo] at hh; exact hh.symm⟩
  · simp at h

theorem iface_with {i f id : TId} {ii : IfaceInfo} (h : (codecWith i f).iface? id = some ii) :
    ii = { tid := i, priority := [], always := false, impls := [fooInfo f] } ∧ id = i := by
  unfold Codec.iface? codecWith at h
  rw [List.find?_cons] at h
  split at h
  · rename_i hh
    simp only [Option.some.injEq] at h
    exact ⟨h.symm, by simp at hh; exact hh.symm⟩
  · simp at h

theorem fieldTo {id id' : TId} (h : (id, id') ∈ pairs) : FieldTo R { ty := .base id } { ty := .base id' } :=
  ⟨rfl, ⟨rfl, rfl, rfl, rfl, rfl, rfl⟩, fun _ => .base ⟨rfl, h⟩⟩

theorem evolves : Evolves prog codecOld codecNew 1 R where
  shape := by
    rintro b id id' ⟨rfl, h⟩
    simp only [pairs, List.mem_cons, Prod.mk.injEq, List.not_mem_nil, or_false] at h
    rcases h with ⟨rfl, rfl⟩ | ⟨rfl, rfl⟩ | ⟨rfl, rfl⟩ | ⟨rfl, rfl⟩ | ⟨rfl, rfl⟩ | ⟨rfl, rfl⟩ | ⟨rfl, rfl⟩ | ⟨rfl, rfl⟩
    · exact .int
    · exact .widen rfl (by decide)
    · exact .string
    · refine .struct (fs' := [{ ty := .base 2 }, { ty := .base 3 }]) (gs := [{ ty := .base 4 }]) rfl ?_ (by decide) ?_
      · simp only [List.zip_cons_cons, List.zip_nil_right, List.mem_cons, List.not_mem_nil, or_false]
        rintro p (rfl | rfl) <;> exact fieldTo (by decide)
      · simp only [List.mem_cons, List.not_mem_nil, or_false]
        rintro g rfl _
        exact ⟨rfl, .bool false, .bool rfl rfl, .bool rfl⟩
    · exact .slice (.base ⟨rfl, by decide⟩)
    · exact .iface
    · refine .struct (fs' := [{ ty := .base 2 }]) (gs := [{ ty := .ptr (.base 6) }]) rfl ?_ (by decide) ?_
      · simp only [List.zip_cons_cons, List.zip_nil_right, List.mem_cons, List.not_mem_nil, or_false]
        rintro p rfl
        exact fieldTo (by decide)
      · simp only [List.mem_cons, List.not_mem_nil, or_false]
        rintro g rfl _
        exact ⟨rfl, .nil, unsent_ptr, .ptrNil⟩
    · refine .struct (fs' := [{ ty := .base 8 }, { ty := .base 10 }]) (gs := [{ ty := .ptr (.base 6) }]) rfl ?_ (by decide) ?_
      · simp only [List.zip_cons_cons, List.zip_nil_right, List.mem_cons, List.not_mem_nil, or_false]
        rintro p (rfl | rfl) <;> exact fieldTo (by decide)
      · simp only [List.mem_cons, List.not_mem_nil, or_false]
        rintro g rfl _
        exact ⟨rfl, .nil, unsent_ptr, .ptrNil⟩
  info := by
    rintro b id id' ⟨rfl, h⟩
    simp only [pairs, List.mem_cons, Prod.mk.injEq, List.not_mem_nil, or_false] at h
    rcases h with ⟨rfl, rfl⟩ | ⟨rfl, rfl⟩ | ⟨rfl, rfl⟩ | ⟨rfl, rfl⟩ | ⟨rfl, rfl⟩ | ⟨rfl, rfl⟩ | ⟨rfl, rfl⟩ | ⟨rfl, rfl⟩ <;>
      decide
  zero := by
    rintro b id id' ⟨rfl, h⟩ hk
    simp only [pairs, List.mem_cons, Prod.mk.injEq, List.not_mem_nil, or_false] at h
    rcases h with ⟨rfl, rfl⟩ | ⟨rfl, rfl⟩ | ⟨rfl, rfl⟩ | ⟨rfl, rfl⟩ | ⟨rfl, rfl⟩ | ⟨rfl, rfl⟩ | ⟨rfl, rfl⟩ | ⟨rfl, rfl⟩ <;>
      first | rfl | (revert hk; decide)
  noMarsh _ _ := rfl
  marsh := by
    intro b id id' rid m _ h
    simp [prog] at h
  conc := by
    rintro b id id' ci ⟨rfl, h⟩ hc
    obtain ⟨rfl, rfl⟩ := conc_with hc
    simp only [pairs, List.mem_cons, Prod.mk.injEq, List.not_mem_nil, or_false] at h
    have : id' = 12 := by
      rcases h with h | h | h | h | h | h | h | h <;> first | exact h.2 | exact absurd h.1 (by decide)
    subst this
    exact ⟨fooInfo 12, rfl, rfl, rfl⟩
  iface := by
    rintro b id id' ii ⟨rfl, h⟩ _ hc
    obtain ⟨rfl, rfl⟩ := iface_with hc
    simp only [pairs, List.mem_cons, Prod.mk.injEq, List.not_mem_nil, or_false] at h
    have : id' = 10 := by
      rcases h with h | h | h | h | h | h | h | h <;> first | exact h.2 | exact absurd h.1 (by decide)
    subst this
    exact ⟨_, rfl, fun i ci _ => by
      simp only [disambiguates, fooInfo, List.filter_cons, List.filter_nil]
      split <;> rfl⟩

theorem implTo : ImplTo prog R := by
  rintro b id id' t ⟨rfl, h⟩ hs hi
  simp only [pairs, List.mem_cons, Prod.mk.injEq, List.not_mem_nil, or_false] at h
  rcases h with ⟨rfl, rfl⟩ | ⟨rfl, rfl⟩ | ⟨rfl, rfl⟩ | ⟨rfl, rfl⟩ | ⟨rfl, rfl⟩ | ⟨rfl, rfl⟩ | ⟨rfl, rfl⟩ | ⟨rfl, rfl⟩ <;>
    try (simp [prog, shape] at hs; done)
  simp [prog] at hi
  subst hi
  exact ⟨.base 12, .base ⟨rfl, by decide⟩, rfl⟩

theorem typed : prog.Typed where
  zero := by
    have hi : ∀ {id k}, shape id = .int k → HasTy prog (.base id) (.int 0) := fun h =>
      .int h (by rename_i k; cases k <;> decide)
    intro id
    match id with
    | 0 | 1 | 2 | 15 => exact hi rfl
    | 3 => exact .str rfl
    | 4 => exact .bool rfl
    | 5 => refine .struct (fs := _) rfl rfl ?_; simp; exact ⟨hi rfl, .str rfl⟩
    | 6 => refine .struct (fs := _) rfl rfl ?_; simp [subNew]; exact ⟨hi rfl, .str rfl, .bool rfl⟩
    | 7 | 8 => exact .sliceNil rfl
    | 9 | 10 => exact .ifaceNil rfl
    | 11 | 16 | 17 => refine .struct (fs := _) rfl rfl ?_; simp; exact hi rfl
    | 12 => refine .struct (fs := _) rfl rfl ?_; simp [fooNew]; exact ⟨hi rfl, .ptrNil⟩
    | 13 => refine .struct (fs := _) rfl rfl ?_; simp; exact ⟨.sliceNil rfl, .ifaceNil rfl⟩
    | 14 => refine .struct (fs := _) rfl rfl ?_; simp [msgNew]; exact ⟨.sliceNil rfl, .ifaceNil rfl, .ptrNil⟩
    | n + 18 => exact .bool rfl
  marsh := by simp [prog]
  unmarsh := by simp [prog]

theorem userTotal : UserTotal prog := by intro id rid um r h; simp [prog] at h

theorem zeroOk : ZeroOk prog where
  struct := by
    intro id fs h
    match id with
    | 5 | 6 | 11 | 12 | 13 | 14 | 16 | 17 =>
      simp only [prog, shape, Shape.struct.injEq] at h
      subst h
      rfl
    | 0 | 1 | 2 | 3 | 4 | 7 | 8 | 9 | 10 | 15 => simp [prog, shape] at h
    | n + 18 => simp [prog, shape] at h
  array := by
    intro id n e h
    match id with
    | 0 | 1 | 2 | 3 | 4 | 5 | 6 | 7 | 8 | 9 | 10 | 11 | 12 | 13 | 14 | 15 | 16 | 17 => simp [prog, shape] at h
    | n + 18 => simp [prog, shape] at h
  slice := by
    intro id e h
    match id with
    | 7 | 8 => rfl
    | 0 | 1 | 2 | 3 | 4 | 5 | 6 | 9 | 10 | 11 | 12 | 13 | 14 | 15 | 16 | 17 => simp [prog, shape] at h
    | n + 18 => simp [prog, shape] at h
  iface := by
    intro id h
    match id with
    | 9 | 10 => rfl
    | 0 | 1 | 2 | 3 | 4 | 5 | 6 | 7 | 8 | 11 | 12 | 13 | 14 | 15 | 16 | 17 => simp [prog, shape] at h
    | n + 18 => simp [prog, shape] at h
  bool := by
    intro id h
    match id with
    | 4 => rfl
    | 0 | 1 | 2 | 3 | 5 | 6 | 7 | 8 | 9 | 10 | 11 | 12 | 13 | 14 | 15 | 16 | 17 => simp [prog, shape] at h
    | n + 18 => rfl
  int := by
    intro id k h
    match id with
    | 0 | 1 | 2 | 15 => rfl
    | 3 | 4 | 5 | 6 | 7 | 8 | 9 | 10 | 11 | 12 | 13 | 14 | 16 | 17 => simp [prog, shape] at h
    | n + 18 => simp [prog, shape] at h
  string := by
    intro id h
    match id with
    | 3 => rfl
    | 0 | 1 | 2 | 4 | 5 | 6 | 7 | 8 | 9 | 10 | 11 | 12 | 13 | 14 | 15 | 16 | 17 => simp [prog, shape] at h
    | n + 18 => simp [prog, shape] at h

/-- The new types. -/
def S (id : TId) (_ : FOpts) : Prop := id ∈ [2, 3, 4, 6, 8, 10, 12, 14]

theorem univ : Universe prog codecNew S where
  noMap := by
    intro id fo e hS h
    simp only [S, List.mem_cons, List.not_mem_nil, or_false] at hS
    rcases hS with rfl | rfl | rfl | rfl | rfl | rfl | rfl | rfl <;> simp [prog, shape] at h
  registered := by
    intro id fo hS h
    simp only [S, List.mem_cons, List.not_mem_nil, or_false] at hS
    rcases hS with rfl | rfl | rfl | rfl | rfl | rfl | rfl | rfl <;> simp [prog, shape] at h
    rfl
  floats := by
    intro id fo fs hS h
    simp only [S, List.mem_cons, List.not_mem_nil, or_false] at hS
    rcases hS with rfl | rfl | rfl | rfl | rfl | rfl | rfl | rfl <;> simp [prog, shape] at h <;> subst h <;> decide +kernel
  marsh _ h := by simp [prog] at h
  noMarsh _ _ := rfl
  slice := by
    intro id fo e hS h _
    simp only [S, List.mem_cons, List.not_mem_nil, or_false] at hS
    rcases hS with rfl | rfl | rfl | rfl | rfl | rfl | rfl | rfl <;> simp [prog, shape] at h
    subst h
    unfold ListOk
    rw [if_neg (by decide)]
    exact ⟨by decide, by simp [noIfacePtr, Ty.isPtr], by simp [S, Ty.deref]⟩
  array := by
    intro id fo n e hS h _
    simp only [S, List.mem_cons, List.not_mem_nil, or_false] at hS
    rcases hS with rfl | rfl | rfl | rfl | rfl | rfl | rfl | rfl <;> simp [prog, shape] at h
  struct := by
    intro id fo fs hS h _
    simp only [S, List.mem_cons, List.not_mem_nil, or_false] at hS
    have hf : ∀ {t : Ty} {n : Nat}, t ∈ [.base 2, .base 3, .base 4, .base 10, .ptr (.base 6)] →
        FieldOk prog S { ty := t } n := by
      intro t n h1
      simp only [List.mem_cons, List.not_mem_nil, or_false] at h1
      rcases h1 with rfl | rfl | rfl | rfl | rfl <;>
        exact ⟨fun _ => by first | rfl | (simp_all [Ty.isPtr]; done), fun h => absurd h (by decide),
          fun _ => ⟨by simp [S, Ty.deref], fun _ => rfl⟩⟩
    have hl : FieldOk prog S { ty := .base 8 } 1 :=
      ⟨by simp [noIfacePtr, Ty.isPtr], fun _ => ⟨rfl, rfl, fun e he => by
        simp [prog, shape, Ty.deref, Shape.elem?] at he
        subst he
        exact ⟨by simp [noIfacePtr, Ty.isPtr], by simp [S, Ty.deref]⟩⟩, fun h => absurd h (by decide)⟩
    rcases hS with rfl | rfl | rfl | rfl | rfl | rfl | rfl | rfl <;> simp [prog, shape] at h <;> subst h
    · exact ⟨hf (by decide), hf (by decide), hf (by decide), trivial⟩
    · exact ⟨hf (by decide), hf (by decide), trivial⟩
    · exact ⟨hl, hf (by decide), hf (by decide), trivial⟩
  iface := by
    intro id fo ii hS h hii
    obtain ⟨rfl, rfl⟩ := iface_with hii
    refine ⟨?_, ?_⟩
    · intro t ci _ hci
      obtain ⟨rfl, _⟩ := conc_with hci
      simp
    · intro ci hci
      simp only [List.mem_cons, List.not_mem_nil, or_false] at hci
      subst hci
      exact ⟨by simp [S, fooInfo], rfl, fun _ => rfl, by decide, by decide, by decide, by decide, by decide +kernel⟩

theorem prefix4 : Prefix4 codecNew := by
  intro id ci h
  obtain ⟨rfl, _⟩ := conc_with h
  rfl

/-- `Msg{L: []Sub{{7, "x"}}, I: Foo{5}}` -/
def old : Val := .struct [.list [.struct [.int 7, .str [0x78]]], .iface (.base 11) (.struct [.int 5])]

def bz : Bytes := [10, 5, 8, 7, 18, 1, 0x78, 18, 6, 1, 2, 3, 4, 8, 5]

end Amino.EvoDemo
