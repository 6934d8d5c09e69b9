import Verif.AminoApi
import Verif.DecFuel
import Verif.DecTyped
import Verif.ValEq

/-!
# A concrete Go program

Used to show that the hypotheses of the theorems can be met, and as witness where the code violates a
property.  In Go:
```
type Msg struct { A int64; B string; C []byte; D *Msg; E []Sub; I Iface; T time.Time }
type Sub struct { X int32; Y bool }
type Iface interface { ... }           // registered
type Foo struct { N int64 }            // registered, implements Iface
type Bar struct { S string }           // registered, does not implement Iface
type Str string                        // registered, implements Iface
type U   struct { V uint32 }
type Outer struct { In Inner };  type Inner struct { T time.Time }
type Lists struct { L [][]byte; I []Iface; S []string; P []*Sub }
```
-/

namespace Amino.Demo

def byteT : TId := 0
def int64T : TId := 1
def stringT : TId := 2
def bytesT : TId := 3
def msgT : TId := 4
def subT : TId := 5
def subsT : TId := 6
def ifaceT : TId := 7
def fooT : TId := 8
def barT : TId := 9
def timeT : TId := 10
def uint32T : TId := 11
def uT : TId := 12
def int32T : TId := 13
def boolT : TId := 14
def int64sT : TId := 15
def strT : TId := 16
def outerT : TId := 17
def innerT : TId := 18
def bytessT : TId := 19
def listsT : TId := 20
def ifacesT : TId := 21
def stringsT : TId := 22
def subptrsT : TId := 23
def arrT : TId := 24
/-- `Sub` after a later version of the program appended a string field -/
def sub2T : TId := 25

def msgFields : List Field :=
  [{ ty := .base int64T }, { ty := .base stringT }, { ty := .base bytesT },
   { ty := .ptr (.base msgT) }, { ty := .base subsT }, { ty := .base ifaceT }, { ty := .base timeT }]

def shape : TId → Shape
  | 0 => .int .uint8
  | 1 => .int .int64
  | 2 => .string
  | 3 => .slice (.base byteT)
  | 4 => .struct msgFields
  | 5 => .struct [{ ty := .base int32T }, { ty := .base boolT }]
  | 6 => .slice (.base subT)
  | 7 => .iface
  | 8 => .struct [{ ty := .base int64T }]
  | 9 => .struct [{ ty := .base stringT }]
  | 10 => .time
  | 11 => .int .uint32
  | 12 => .struct [{ ty := .base uint32T }]
  | 13 => .int .int32
  | 14 => .bool
  | 15 => .slice (.base int64T)
  | 16 => .string
  | 17 => .struct [{ ty := .base innerT }]
  | 18 => .struct [{ ty := .base timeT }]
  | 19 => .slice (.base bytesT)
  | 20 => .struct [{ ty := .base bytessT }, { ty := .base ifacesT }, { ty := .base stringsT },
      { ty := .base subptrsT }]
  | 21 => .slice (.base ifaceT)
  | 22 => .slice (.base stringT)
  | 23 => .slice (.ptr (.base subT))
  | 24 => .array 2 (.base int64T)
  | 25 => .struct [{ ty := .base int32T }, { ty := .base boolT }, { ty := .base stringT }]
  | _ => .bool

/-- `time.Time{}` is year 1. -/
def zeroTime : Val := .time (-62135596800) 0

def zero : TId → Val
  | 0 | 1 | 11 | 13 => .int 0
  | 2 | 16 => .str []
  | 3 | 6 | 7 | 15 | 19 | 21 | 22 | 23 => .nil
  | 4 => .struct [.int 0, .str [], .nil, .nil, .nil, .nil, zeroTime]
  | 5 => .struct [.int 0, .bool false]
  | 8 => .struct [.int 0]
  | 9 => .struct [.str []]
  | 10 => zeroTime
  | 12 => .struct [.int 0]
  | 17 => .struct [.struct [zeroTime]]
  | 18 => .struct [zeroTime]
  | 20 => .struct [.nil, .nil, .nil, .nil]
  | 24 => .list [.int 0, .int 0]
  | 25 => .struct [.int 0, .bool false, .str []]
  | _ => .bool false

def prog : Prog where
  shape := shape
  zero := zero
  marsh _ := none
  unmarsh _ := none
  implements t i := i == ifaceT && (t.deref == fooT || t.deref == strT)
  byteId := byteT

def foo : ConcInfo := { tid := fooT, ptrPref := true, name := [102], disamb := [7, 7, 7], prefx := [1, 2, 3, 4] }
def bar : ConcInfo := { tid := barT, ptrPref := false, name := [98], disamb := [9, 9, 9], prefx := [5, 6, 7, 8] }
def str : ConcInfo := { tid := strT, ptrPref := false, name := [115], disamb := [6, 6, 6], prefx := [11, 12, 13, 14] }

/-- All three concretes registered. -/
def codec : Codec where
  ifaces := [{ tid := ifaceT, priority := [], always := false, impls := [foo, str] }]
  concs := [foo, bar, str]
  byDisfix := [(foo.disfix, foo), (bar.disfix, bar), (str.disfix, str)]
  byName := [(foo.name, foo), (bar.name, bar), (str.name, str)]

/-- Only `Foo` registered. -/
def codecFoo : Codec where
  ifaces := [{ tid := ifaceT, priority := [], always := false, impls := [foo] }]
  concs := [foo]
  byDisfix := [(foo.disfix, foo)]
  byName := [(foo.name, foo)]

theorem prog_typed : prog.Typed where
  zero := by
    have hi : ∀ {id k}, shape id = .int k → HasTy prog (.base id) (.int 0) := fun h =>
      .int h (by rename_i k; cases k <;> decide)
    have hs : ∀ {id}, shape id = .string → HasTy prog (.base id) (.str []) := fun h => .str h
    have hn : ∀ {id e}, shape id = .slice e → HasTy prog (.base id) .nil := fun h => .sliceNil h
    have ht : HasTy prog (.base timeT) zeroTime :=
      .time rfl (by decide) (by decide) (by decide) (by decide)
    have hinner : HasTy prog (.base innerT) (.struct [zeroTime]) := by
      refine .struct (fs := _) rfl rfl ?_
      simpa using ht
    intro id
    match id with
    | 0 | 1 | 11 | 13 => exact hi rfl
    | 2 | 16 => exact hs rfl
    | 3 | 6 | 15 | 19 | 21 | 22 | 23 => exact hn rfl
    | 7 => exact .ifaceNil rfl
    | 4 =>
      refine .struct (fs := msgFields) rfl rfl ?_
      simp [msgFields]
      exact ⟨hi rfl, hs rfl, hn rfl, .ptrNil, hn rfl, .ifaceNil rfl, ht⟩
    | 5 =>
      refine .struct (fs := _) rfl rfl ?_
      simp
      exact ⟨hi rfl, .bool rfl⟩
    | 8 =>
      refine .struct (fs := _) rfl rfl ?_
      simp
      exact hi rfl
    | 9 =>
      refine .struct (fs := _) rfl rfl ?_
      simp
      exact hs rfl
    | 10 => exact ht
    | 12 =>
      refine .struct (fs := _) rfl rfl ?_
      simp
      exact hi rfl
    | 17 =>
      refine .struct (fs := _) rfl rfl ?_
      simp
      exact hinner
    | 18 => exact hinner
    | 20 =>
      refine .struct (fs := _) rfl rfl ?_
      simp
      exact ⟨hn rfl, hn rfl, hn rfl, hn rfl⟩
    | 24 =>
      refine .array (e := .base int64T) rfl rfl rfl ?_
      simp
      exact hi rfl
    | 25 =>
      refine .struct (fs := _) rfl rfl ?_
      simp
      exact ⟨hi rfl, .bool rfl, hs rfl⟩
    | 14 => exact .bool rfl
    | n + 26 => exact .bool rfl
  marsh := by simp [prog]
  unmarsh := by simp [prog]

theorem prog_user : prog.UserOk := by
  constructor <;> simp [prog]

end Amino.Demo
