import Verif.Sha256
import Verif.AminoApi
import Verif.StructInfo
import Verif.JsonDecode
import Verif.JsonEncode
import Verif.ValEq

/-!
# The tests of /repo, replayed on the model

Not theorems about the code: a check that the model computes what the repository's own tests expect of the Go code,
with the types declared as there (through `parseFieldOptions`, from the tags), registered through the model's registry with
the real SHA-256.  Every `example` cites the test.
-/

namespace Amino.Vec
open Sha256

def field (name : String) (ty : Ty) (tags : List (String × String) := []) : Field :=
  SDecl.field { name := ascii name, ty := ty, upper := (name.toList.headD 'a').isUpper,
                tag := fun k => ((tags.map fun p => (ascii p.1, ascii p.2)).lookup k).getD [] }

/-- Type descriptors and zero values; the position is the type id. -/
def table : List (Shape × Val) :=
  let b (i : Nat) : Ty := .base i
  let p (i : Nat) : Ty := .ptr (.base i)
  [(.int .uint8, .int 0),                                               -- 0 byte
   (.int .int, .int 0),                                                 -- 1 int
   (.string, .str []),                                                  -- 2 string
   (.slice (b 0), .nil),                                                -- 3 []byte
   (.int .int32, .int 0),                                               -- 4 int32
   (.struct [field "Val" (b 1)], .struct [.int 0]),                     -- 5 Inner
   (.struct [field "Inner" (b 5)], .struct [.struct [.int 0]]),         -- 6 SomeStruct
   (.struct [field "ValIn" (b 4) [("amino", "write_empty"), ("binary", "fixed32")]], .struct [.int 0]), -- 7 InnerWriteEmpty
   (.struct [field "In" (b 7) [("amino", "write_empty")],
             field "Val" (b 1) [("amino", "write_empty"), ("binary", "fixed32")]],
      .struct [.struct [.int 0], .int 0]),                              -- 8 OuterWriteEmpty
   (.struct [field "A" (b 1), field "B" (b 1)], .struct [.int 0, .int 0]), -- 9 Foo
   (.slice (b 9), .nil),                                                -- 10 []Foo
   (.struct [field "Fs" (b 10)], .struct [.nil]),                       -- 11 Foos
   (.struct [field "A" (b 2), field "B" (b 1), field "C" (b 13), field "D" (b 2)],
      .struct [.str [], .int 0, .nil, .str []]),                        -- 12 Foo of TestStructPointerSlice1
   (.slice (p 12), .nil),                                               -- 13 []*Foo
   (.struct [field "A" (b 2), field "B" (b 1), field "C" (b 15) [("amino", "empty_elements")], field "D" (b 2)],
      .struct [.str [], .int 0, .nil, .str []]),                        -- 14 Foo of TestStructPointerSlice2
   (.slice (p 14), .nil),                                               -- 15
   (.slice (b 1), .nil),                                                -- 16 []int
   (.slice (b 3), .nil),                                                -- 17 [][]byte
   (.slice (b 16), .nil),                                               -- 18 [][]int
   (.slice (p 3), .nil),                                                -- 19 []*[]byte
   (.slice (p 16), .nil),                                               -- 20 []*[]int
   (.struct [field "A" (b 3), field "B" (b 16), field "C" (b 17), field "D" (b 18), field "E" (b 19),
             field "F" (b 20)], .struct [.nil, .nil, .nil, .nil, .nil, .nil]), -- 21 TestStruct
   (.struct [field "String" (b 2), field "String2" (b 2)], .struct [.str [], .str []]), -- 22 V1
   (.struct [field "String" (b 2), field "String2" (b 2), field "Time" (b 26), field "Int" (b 1)],
      .struct [.str [], .str [], .time (-62135596800) 0, .int 0]),      -- 23 V2
   (.struct [field "String" (b 2), field "Int" (b 1), field "Some" (b 25)],
      .struct [.str [], .int 0, .struct [.int 0]]),                     -- 24 V3
   (.struct [field "Sth" (b 1)], .struct [.int 0]),                     -- 25 SomeStruct of V3
   (.time, .time (-62135596800) 0),                                     -- 26 time.Time
   (.struct [], .struct []),                                            -- 27 Concrete1
   (.struct [], .struct []),                                            -- 28 Concrete2
   (.iface, .nil),                                                      -- 29 Interface1
   (.struct [field "Interface1" (b 29)], .struct [.nil]),               -- 30 struct{ Interface1 }
   (.array 4 (b 0), .bytes [0, 0, 0, 0]),                               -- 31 ConcreteTypeDef
   (.struct [field "Value" (b 3)], .struct [.nil]),                     -- 32 ConcreteWrappedBytes
   (.map (b 1), .nil),                                                  -- 33 map[string]int
   (.int .uint64, .int 0),                                              -- 34 uint64
   (.struct [field "T" (p 26)], .struct [.nil]),                        -- 35 goAminoGotTime
   (.int .int8, .int 0),                                                -- 36 int8
   (.slice (b 36), .nil),                                               -- 37 []int8
   (.slice (b 37), .nil),                                               -- 38 [][]int8
   (.array 2 (b 36), .list [.int 0, .int 0]),                           -- 39 [2]int8
   (.array 2 (b 39), .list [.list [.int 0, .int 0], .list [.int 0, .int 0]]), -- 40 [2][2]int8
   (.array 2 (b 0), .bytes [0, 0]),                                     -- 41 [2]byte
   (.array 2 (b 41), .list [.bytes [0, 0], .bytes [0, 0]]),             -- 42 [2][2]byte
   (.slice (b 17), .nil),                                               -- 43 [][][]byte
   (.struct [field "Message" (b 2), field "Height" (b 1)], .struct [.str [], .int 0]), -- 44 bcMessage
   (.iface, .nil),                                                      -- 45 Message
   (.iface, .nil),                                                      -- 46 Vehicle
   (.iface, .nil),                                                      -- 47 Asset
   (.struct [field "Vehicle" (b 46), field "Capacity" (b 1)], .struct [.nil, .int 0]), -- 48 Transport
   (.string, .str []),                                                  -- 49 Car
   (.string, .str []),                                                  -- 50 Boat
   (.struct [field "Name" (b 2), field "MaxAltitude" (b 72)], .struct [.str [], .int 0]), -- 51 Plane
   (.int .int, .int 0),                                                 -- 52 insurancePlan
   (.struct [field "Assets" (b 54) [("json", "assets")]], .struct [.nil]), -- 53 BalanceSheet
   (.slice (b 47), .nil),                                               -- 54 []Asset
   (.struct [], .struct []),                                            -- 55 noFields
   (.struct [field "a" (b 1), field "b" (b 2)], .struct [.int 0, .str []]), -- 56 noExportedFields
   (.struct [field "A" (b 2)], .struct [.str []]),                      -- 57 oneExportedField
   (.slice (b 2), .nil),                                                -- 58 []string
   (.iface, .nil),                                                      -- 59 interface{}
   (.slice (b 59), .nil),                                               -- 60 []interface{}
   (.struct [field "Foo" (p 1), field "Name" (b 2) [("json", "nm,omitempty")]], .struct [.nil, .str []]), -- 61 aPointerField
   (.struct [field "Foo" (p 1), field "Name" (b 2) [("json", "nm,omitempty")], field "oneExportedField" (p 57),
             field "B" (p 57) [("json", "bz,omitempty")]],
      .struct [.nil, .str [], .nil, .nil]),                             -- 62 aPointerFieldAndEmbeddedField
   (.struct [field "Inner" (p 62), field "Year" (b 4) [("json", "year")]], .struct [.nil, .int 0]), -- 63 doublyEmbedded
   (.struct [field "A" (b 1)], .struct [.int 0]),                       -- 64 struct{ A int }
   (.int .int, .int 0),                                                 -- 65 customJSONMarshaler
   (.struct [field "F" (b 65) [("json", "fx")], field "A" (p 61)], .struct [.int 0, .nil]), -- 66 withCustomMarshaler
   (.struct [field "Name" (b 2), field "Version" (b 1)], .struct [.str [], .int 0]), -- 67 fp
   (.struct [field "FP" (p 67), field "Package" (b 2)], .struct [.nil, .str []]), -- 68
   (.float64, .f64 0),                                                  -- 69 float64
   (.struct [field "PC" (b 34), field "FP" (p 67)], .struct [.int 0, .nil]), -- 70 innerFP
   (.struct [field "Int64" (b 34) [("binary", "fixed64")]], .struct [.int 0]), -- 71 testFixed64Uint
   (.int .int64, .int 0),                                               -- 72 int64
   (.struct [field "Int32" (b 4) [("binary", "fixed32")]], .struct [.int 0]), -- 73 testi32
   (.bool, .bool false),                                                -- 74 bool
   (.struct [field "BoolPtrTrue" (p 74), field "BoolPtrFalse" (p 74)], .struct [.nil, .nil]), -- 75
   (.slice (b 0), .nil),                                                -- 76 byteAlias
   (.struct [field "F1" (b 29), field "F2" (b 29)], .struct [.nil, .nil]), -- 77 InterfaceFieldsStruct
   (.struct [field "S" (b 2)], .struct [.str []]),                      -- 78 stringWrapper
   (.struct [field "Int32" (b 4), field "Int64" (b 72)], .struct [.int 0, .int 0]), -- 79 TestInts
   (.struct [field "Time" (b 26)], .struct [.time (-62135596800) 0]),   -- 80 testTime
   (.struct [field "Emb" (p 55)], .struct [.nil]),                      -- 81 SomeStruct of proto3
   (.map (b 2), .nil),                                                  -- 82 map[string]string
   (.struct [field "Foo" (b 1), field "Bar" (b 3)], .struct [.int 0, .nil]), -- 83 SimpleStruct
   (.map (b 83), .nil),                                                 -- 84
   (.map (p 83), .nil),                                                 -- 85
   (.struct [field "Map1" (b 82), field "Map2" (b 84), field "Map3" (b 85)], .struct [.nil, .nil, .nil]), -- 86
   (.struct [field "a" (b 2), field "b" (b 1), field "c" (b 90), field "D" (b 2)],
      .struct [.str [], .int 0, .nil, .str []]),                        -- 87 Foo of repr_test.go
   (.struct [field "Key" (b 2), field "Value" (b 59)], .struct [.str [], .nil]), -- 88 pair
   (.slice (b 88), .nil),                                               -- 89 []pair
   (.slice (p 87), .nil)]                                               -- 90 []*Foo

/-- repr_test.go:27-34 `Foo.MarshalAmino` -/
def fooOut : Val → Res Val
  | .struct [a, i, c, d] =>
    .ok (.list [.struct [.str (ascii "a"), .iface (.base 2) a], .struct [.str (ascii "b"), .iface (.base 1) i],
                .struct [.str (ascii "c"), .iface (.base 90) c], .struct [.str (ascii "D"), .iface (.base 2) d]])
  | _ => .panic .illTyped

/-- repr_test.go:36-42 `(*Foo).UnmarshalAmino` (which panics on other keys or types) -/
def fooIn (_ : Val) : Val → Res Val
  | .list [.struct [k1, .iface t1 a], .struct [k2, .iface t2 i], .struct [k3, .iface t3 c], .struct [k4, .iface t4 d]] =>
    if [k1, k2, k3, k4] = [.str (ascii "a"), .str (ascii "b"), .str (ascii "c"), .str (ascii "D")] ∧
        [t1, t2, t3, t4] = [.base 2, .base 1, .base 90, .base 2] then .ok (.struct [a, i, c, d]) else .panic .user
  | _ => .panic .user

def prog : Prog where
  shape id := (table[id]?.getD (.bool, .bool false)).1
  zero id := (table[id]?.getD (.bool, .bool false)).2
  marsh id := if id = 87 then some (89, fooOut) else none
  unmarsh id := if id = 87 then some (89, fooIn) else none
  implements t i :=
    match i with
    | 29 => [27, 28, 31, 32, 77].contains t.deref
    | 45 | 59 => true
    | 46 => [49, 50, 51].contains t.deref
    | 47 => [49, 52].contains t.deref
    | _ => false
  byteId := 0

/-- `<FP-MARSHALJSON>` -/
def fpText : Bytes := ascii "<FP-MARSHALJSON>"

/-- json_test.go:154-165, 405-409: the JSON methods of the test types. -/
def lib : JLib where
  f32Text _ := none
  f64Text _ := none
  f32Parse _ := none
  f64Parse _ := none
  timeText _ _ := none
  timeParse _ := none
  marsh id addr :=
    if id = 65 then some fun _ => .ok (ascii "\"Tendermint\"")
    else if id = 67 && addr then some fun _ => .ok fpText else none
  unmarsh id :=
    if id = 67 then some fun v b => match v with
      | .struct [_, x] => .ok (.struct [.str b, x])
      | _ => .panic .illTyped
    else none

def run (ops : List Op) : Codec := (({} : Codec).run prog sha256 ops).getD {}
def panics (ops : List Op) : Bool := (({} : Codec).run prog sha256 ops).isNone

def bare (c : Codec) (t : Ty) (v : Val) : Res Bytes := marshalBare prog c 20 t v
def lp (c : Codec) (t : Ty) (v : Val) : Res Bytes := marshalLP prog c 20 t v
def unbare (c : Codec) (t : Ty) (bz : Bytes) : Res Val := unmarshalBare prog c 20 t (prog.zeroTy t) bz
def unlp (c : Codec) (t : Ty) (bz : Bytes) : Res Val := unmarshalLP prog c 20 t (prog.zeroTy t) bz

def isErr {α : Type} : Res α → Bool
  | .err _ => true
  | _ => false
def isPanic {α : Type} : Res α → Bool
  | .panic _ => true
  | _ => false

def b (i : Nat) : Ty := .base i
def p (i : Nat) : Ty := .ptr (.base i)
def s (x : String) : Val := .str (ascii x)

/-! ## Names (reflect_test.go, example_test.go) -/

example : nameToDisfix sha256 (ascii "Concrete1") = .ok ([0x12, 0xb5, 0x86], [0xe3, 0xda, 0xb8, 0x33]) := by
  decide +kernel
example : (nameToDisfix sha256 (ascii "Concrete2")).bind (fun x => .ok x.2) = .ok [0x6a, 0x09, 0xca, 0x01] := by
  decide +kernel
example : (nameToDisfix sha256 (ascii "ConcreteTypeDef")).bind (fun x => .ok x.2) = .ok [0x11, 0x1e, 0x93, 0x82] := by
  decide +kernel
example : (nameToDisfix sha256 (ascii "ConcreteWrappedBytes")).bind (fun x => .ok x.2) =
    .ok [0x49, 0x3f, 0xa0, 0x4b] := by decide +kernel
example : (nameToDisfix sha256 (ascii "bcMessage")).bind (fun x => .ok x.2) = .ok [0x74, 0x06, 0x13, 0x65] := by
  decide +kernel

/-! ## binary_test.go -/

/-- TestNilSliceEmptySlice, lines 14-59: the three values have one encoding. -/
def nilSlices (nnb nni : Val) (e f : Val) : Val :=
  .struct [nnb, nni, .list [nnb], .list [nni], .list [e], .list [f]]
example : (lp {} (b 21) (nilSlices .nil .nil .nil .nil)).bind (fun x => .ok (x.length != 0)) = .ok true ∧
    lp {} (b 21) (nilSlices .nil .nil .nil .nil) =
      lp {} (b 21) (nilSlices (.bytes []) (.list []) (.ptr .nil) (.ptr .nil)) ∧
    lp {} (b 21) (nilSlices .nil .nil .nil .nil) =
      lp {} (b 21) (nilSlices (.bytes []) (.list []) (.ptr (.bytes [])) (.ptr (.list []))) := by decide +kernel

/-- TestNewFieldBackwardsCompatibility, lines 61-109 (1934-11-09 is -1740009600; the value left in `v1` by the call
that fails is not part of the model). -/
example : (bare {} (b 23) (.struct [s "hi", s "cosmos", .time (-1740009600) 0, .int 4])).bind (unbare {} (b 22)) =
    .ok (.struct [s "hi", s "cosmos"]) := by decide +kernel
example : isErr ((bare {} (b 24) (.struct [s "tender", .int 2014, .struct [.int 84]])).bind (unbare {} (b 22))) = true := by
  decide +kernel

/-- TestWriteEmpty, lines 111-136 -/
example : bare {} (b 5) (.struct [.int 0]) = .ok [] ∧ unbare {} (b 5) [] = .ok (.struct [.int 0]) ∧
    bare {} (b 6) (.struct [.struct [.int 0]]) = .ok [] ∧ unbare {} (b 6) [] = .ok (.struct [.struct [.int 0]]) := by
  decide +kernel

/-- TestForceWriteEmpty, lines 138-158 -/
example : bare {} (b 8) (.struct [.struct [.int 0], .int 0]) = .ok [10, 5, 13, 0, 0, 0, 0, 16, 0] ∧
    bare {} (b 7) (.struct [.int 0]) = .ok [13, 0, 0, 0, 0] := by decide +kernel

/-- TestStructSlice, lines 160-182 -/
def foos : Val := .struct [.list [.struct [.int 100, .int 101], .struct [.int 102, .int 103]]]
def foosText : Bytes := [0x0A, 0x04, 0x08, 0x64, 0x10, 0x65, 0x0A, 0x04, 0x08, 0x66, 0x10, 0x67]
example : bare {} (b 11) foos = .ok foosText ∧ unbare {} (b 11) foosText = .ok foos := by decide +kernel

/-- TestStructPointerSlice1, lines 184-219 -/
def pslice (xs : List Val) : Val := .struct [s "k", .int 2, .list xs, s "j"]
example : (lp {} (b 12) (pslice [.nil, .nil, .nil])).bind (unlp {} (b 12)) = .ok (pslice [.nil, .nil, .nil]) ∧
    lp {} (b 12) (pslice [.nil, .nil, .nil]) =
      lp {} (b 12) (pslice (List.replicate 3 (.ptr (.struct [s "", .int 0, .nil, s ""])))) := by decide +kernel

/-- TestStructPointerSlice2, lines 222-251 -/
example : isErr (lp {} (b 14) (pslice [.nil, .nil, .nil])) = true ∧
    (let x := pslice (List.replicate 3 (.ptr (.struct [s "", .int 0, .nil, s ""])));
      (lp {} (b 14) x).bind (unlp {} (b 14)) = .ok x) := by decide +kernel

/-- TestBasicTypes, lines 253-268 -/
example : (lp {} (b 76) (.bytes (ascii "this should work"))).bind (unlp {} (b 76)) = .ok (.bytes (ascii "this should work")) := by
  decide +kernel

/-- TestUnmarshalMapBinary, lines 270-291 -/
example : isPanic (unmarshalBare prog {} 20 (p 33) (.ptr .nil) (ascii "dontcare")) = true ∧
    isPanic (unbare {} (b 33) (ascii "dontcare")) = true ∧ isPanic (bare {} (p 33) (.ptr .nil)) = true := by
  decide +kernel

/-! ## amino_test.go -/

/-- TestUnmarshalBinaryReaderSize, lines 67-82: frame length, key, string length, 3 bytes. -/
example : (lp {} (b 78) (.struct [s "foo"])).bind (fun x => .ok x.length) = .ok 6 := by decide +kernel

/-- TestBoolPointers, lines 157-182 -/
example : (bare {} (b 75) (.struct [.ptr (.bool true), .ptr (.bool false)])).bind (unbare {} (b 75)) =
    .ok (.struct [.ptr (.bool true), .ptr (.bool false)]) := by decide +kernel

/-! ## reflect_test.go -/

def i1 : Op := .iface 29 [] false
def conc1 : Op := .conc (p 27) (ascii "Concrete1")
def conc2 : Op := .conc (p 28) (ascii "Concrete2")
def holds (id : TId) : Val := .struct [.iface (b id) (.struct [])]

/-- lines 146-162 -/
example : isErr (bare (run [conc1]) (b 30) (holds 27)) = true ∧ isErr (bare (run [i1]) (b 30) (holds 27)) = true := by
  decide +kernel
/-- lines 164-184 -/
example : bare (run [i1, conc1]) (b 30) (holds 27) = .ok [0xa, 0x4, 0xe3, 0xda, 0xb8, 0x33] ∧
    bare (run [conc1, i1]) (b 30) (holds 27) = .ok [0xa, 0x4, 0xe3, 0xda, 0xb8, 0x33] := by decide +kernel
/-- lines 186-197 -/
example : bare (run [conc1, .iface 29 [] true]) (b 30) (holds 27) =
    .ok [0xa, 0x8, 0x0, 0x12, 0xb5, 0x86, 0xe3, 0xda, 0xb8, 0x33] := by decide +kernel
/-- lines 199-207 -/
example : panics [i1, conc1] = false ∧ panics [i1, conc1, .conc (p 28) (ascii "Concrete1")] = true := by decide +kernel
/-- lines 209-228 -/
example : bare (run [i1, conc1, conc2]) (b 30) (holds 27) = .ok [0xa, 0x4, 0xe3, 0xda, 0xb8, 0x33] ∧
    bare (run [i1, conc1, conc2]) (b 30) (holds 28) = .ok [0xa, 0x4, 0x6a, 0x9, 0xca, 0x1] := by decide +kernel
/-- lines 231-253, 301-342 -/
def tdCodec : Codec := run [i1, .conc (b 31) (ascii "ConcreteTypeDef")]
def tdBytes : Bytes := [0x11, 0x1e, 0x93, 0x82, 0xa, 0x4, 0x30, 0x31, 0x32, 0x33]
example : bare tdCodec (b 31) (.bytes (ascii "0123")) = .ok tdBytes ∧
    unbare tdCodec (b 29) tdBytes = .ok (.iface (b 31) (.bytes (ascii "0123"))) ∧
    unbare tdCodec (b 31) tdBytes = .ok (.bytes (ascii "0123")) ∧
    panics [i1, .conc (b 31) (ascii "ConcreteTypeDef"), .conc (b 28) (ascii "ConcreteTypeDef")] = true := by
  decide +kernel
/-- lines 256-276 -/
def wbCodec : Codec := run [i1, .conc (b 32) (ascii "ConcreteWrappedBytes")]
def wbBytes : Bytes := [0x49, 0x3f, 0xa0, 0x4b, 0xa, 0x4, 0x30, 0x31, 0x32, 0x33]
example : bare wbCodec (b 32) (.struct [.bytes (ascii "0123")]) = .ok wbBytes ∧
    unbare wbCodec (b 29) wbBytes = .ok (.iface (b 32) (.struct [.bytes (ascii "0123")])) := by
  decide +kernel
/-- lines 279-299 -/
example : marshalJSON prog tdCodec lib 20 (some (b 31, .bytes (ascii "0123"))) =
      .ok (ascii "{\"type\":\"ConcreteTypeDef\",\"value\":\"MDEyMw==\"}") ∧
    unmarshalJSON prog tdCodec lib 20 (b 29) .nil (ascii "{\"type\":\"ConcreteTypeDef\",\"value\":\"MDEyMw==\"}") =
      .ok (.iface (b 31) (.bytes (ascii "0123"))) := by decide +kernel
/-- lines 344-357 -/
def ifs : Val := .struct [.iface (p 77) (.ptr (.struct [.nil, .nil])), .nil]
def ifsCodec : Codec := run [i1, .conc (p 77) (ascii "interfaceFields")]
example : (lp ifsCodec (p 77) (.ptr ifs)).bind (unlp ifsCodec (b 77)) = .ok ifs := by decide +kernel

/-! ## codec_test.go -/

/-- TestCodecSeal, lines 241-252 -/
example : panics [.iface 59 [] false, .doSeal] = false ∧ panics [.iface 59 [] false, .doSeal, .iface 45 [] false] = true ∧
    panics [.iface 59 [] false, .doSeal, .conc (b 1) (ascii "int")] = true := by decide +kernel

/-- TestDecodeInt8, lines 102-147, TestDecodeInt16, lines 149-195 -/
def dok {α : Type} : DRes α → Option α
  | .ok _ a => some a
  | _ => none
def put (i : Int) : Bytes := match encodeVarint i with | .ok x => x | _ => []
example : ([0x7F, -0x7F, -0x80, 0x10, -0xFF, 0xFF, 0x100, -0x100].map fun i => dok (decodeInt8 (put i))) =
    [some 0x7F, some (-0x7F), some (-0x80), some 0x10, none, none, none, none] := by decide +kernel
example : ([-0x8000, -0x7FFF, -0x7F, -0x80, 0x10, -0xFFFF, 0xFFFF, 0x10000, -0x10000].map fun i => dok (decodeInt16 (put i))) =
    [some (-0x8000), some (-0x7FFF), some (-0x7F), some (-0x80), some 0x10, none, none, none, none] := by decide +kernel

/-! ## encoder_test.go:9-31, example_test.go:25-70, time2_test.go:20-96 -/

example : (([0, 1, 2 ^ 5, 2 ^ 6, 2 ^ 7, 2 ^ 61, 2 ^ 62, 2 ^ 63] : List UInt64).map uvarintSize) = [1, 1, 1, 1, 2, 9, 9, 10] := by
  decide +kernel

def bcCodec : Codec := run [.iface 45 [] false, .conc (p 44) (ascii "bcMessage")]
def bcBytes : Bytes := [0x0B, 0x74, 0x06, 0x13, 0x65, 0x0A, 0x03, 0x41, 0x42, 0x43, 0x10, 0x64]
example : lp bcCodec (p 44) (.ptr (.struct [s "ABC", .int 100])) = .ok bcBytes ∧
    unlp bcCodec (b 45) bcBytes = .ok (.iface (p 44) (.ptr (.struct [s "ABC", .int 100]))) := by decide +kernel

example : ([(0, 0), (1, 978131102), (11, 577968799), (3424779898, 406865636)].map fun x : Int × Int =>
      (lp {} (b 80) (.struct [.time x.1 x.2])).bind (unlp {} (b 80))) =
    [.ok (.struct [.time 0 0]), .ok (.struct [.time 1 978131102]), .ok (.struct [.time 11 577968799]),
     .ok (.struct [.time 3424779898 406865636])] := by decide +kernel
example : isErr (bare {} (b 80) (.struct [.time (-62135596800) 0])) = false ∧
    isErr (bare {} (b 26) (.time (-62135596801) 0)) = true ∧ isErr (bare {} (b 26) (.time 253402300800 0)) = true ∧
    isErr (bare {} (b 26) (.time 0 999999999)) = false ∧ isErr (bare {} (b 26) (.time 253402300801 0)) = true := by
  decide +kernel

/-! ## tests/proto3/proto3_compat_test.go (bytes as protobuf encodes them) -/

/-- lines 36-58, 86-111: fixed32 and fixed64 150 -/
example : bare {} (b 73) (.struct [.int 150]) = .ok [0x0d, 150, 0, 0, 0] ∧
    bare {} (b 71) (.struct [.int 150]) = .ok [0x09, 150, 0, 0, 0, 0, 0, 0, 0] := by decide +kernel
/-- lines 113-152 -/
example : isErr (bare {} (b 38) (.list [.list [.int 1, .int 2], .list [.int 3, .int 4, .int 5]])) = true ∧
    isErr (bare {} (b 40) (.list [.list [.int 1, .int 2], .list [.int 3, .int 4]])) = true ∧
    isErr (bare {} (b 42) (.list [.bytes [1, 2], .bytes [3, 4]])) = false ∧
    isErr (bare {} (b 17) (.list [.bytes [1, 2], .bytes [3, 4, 5]])) = false ∧
    isErr (bare {} (b 43) (.list [.list [.bytes [1, 2], .bytes [3, 4, 5]]])) = false := by decide +kernel
/-- lines 154-199: a nil and an empty embedded message -/
example : bare {} (b 81) (.struct [.nil]) = .ok [] ∧ bare {} (b 81) (.struct [.ptr (.struct [])]) = .ok [0x0a, 0x00] := by
  decide +kernel
/-- lines 210-231: no bytes decode to 1970 -/
example : unbare {} (b 35) [] = .ok (.struct [.ptr (.time 0 0)]) := by decide +kernel
/-- lines 278-296 -/
example : (bare {} (b 35) (.struct [.ptr (.time (-62135596800) 0)])).bind (unbare {} (b 35)) =
    .ok (.struct [.ptr (.time (-62135596800) 0)]) := by decide +kernel
/-- lines 298-329: negative numbers take ten bytes -/
example : bare {} (b 79) (.struct [.int (-1), .int (-1)]) =
    .ok ([0x08, 0xff, 0xff, 0xff, 0xff, 0xff, 0xff, 0xff, 0xff, 0xff, 0x01] ++
         [0x10, 0xff, 0xff, 0xff, 0xff, 0xff, 0xff, 0xff, 0xff, 0xff, 0x01]) := by decide +kernel
example : ([(1, 1), (-1, -1), (2, 2), (1000, 1000), (2147483647, 9223372036854775807),
      (-2147483648, -9223372036854775808)].map fun x : Int × Int =>
        (bare {} (b 79) (.struct [.int x.1, .int x.2])).bind (unbare {} (b 79))) =
    [.ok (.struct [.int 1, .int 1]), .ok (.struct [.int (-1), .int (-1)]), .ok (.struct [.int 2, .int 2]),
     .ok (.struct [.int 1000, .int 1000]), .ok (.struct [.int 2147483647, .int 9223372036854775807]),
     .ok (.struct [.int (-2147483648), .int (-9223372036854775808)])] := by decide +kernel

/-! ## json_test.go -/

/-- lines 17-26 `registerTransports` -/
def tr : Codec :=
  run [.conc (p 48) (ascii "our/transport"), .iface 46 [] true, .iface 47 [] true, .conc (b 49) (ascii "car"),
    .conc (b 52) (ascii "insuranceplan"), .conc (b 50) (ascii "boat"), .conc (b 51) (ascii "plane")]
def mj (t : Ty) (v : Val) : Res Bytes := marshalJSON prog tr lib 20 (some (t, v))
def uj (t : Ty) (x : String) : Res Val := unmarshalJSON prog tr lib 20 t (prog.zeroTy t) (ascii x)

/-- TestMarshalJSON, lines 28-125: cases 0-23 -/
example : mj (p 55) (.ptr (.struct [])) = .ok (ascii "{}") := by decide +kernel
example : mj (p 56) (.ptr (.struct [.int 10, s "foo"])) = .ok (ascii "{}") := by decide +kernel
example : marshalJSON prog tr lib 20 none = .ok (ascii "null") := by decide +kernel
example : mj (p 57) (.ptr (.struct [s ""])) = .ok (ascii "{\"A\":\"\"}") := by decide +kernel
example : mj (b 49) (s "Tesla") = .ok (ascii "{\"type\":\"car\",\"value\":\"Tesla\"}") := by decide +kernel
example : mj (p 57) (.ptr (.struct [s "Z"])) = .ok (ascii "{\"A\":\"Z\"}") := by decide +kernel
example : mj (b 58) (.list [s "a", s "bc"]) = .ok (ascii "[\"a\",\"bc\"]") := by decide +kernel
example : mj (b 60) (.list [.iface (b 2) (s "a"), .iface (b 1) (.int 10)]) = .err .unregisteredIface := by
  decide +kernel
example : mj (b 61) (.struct [.ptr (.int 0), s "name"]) = .ok (ascii "{\"Foo\":\"0\",\"nm\":\"name\"}") := by
  decide +kernel
example : mj (b 62) (.struct [.ptr (.int 11), s "ap", .nil, .ptr (.struct [s "foo"])]) =
    .ok (ascii "{\"Foo\":\"11\",\"nm\":\"ap\",\"bz\":{\"A\":\"foo\"}}") := by decide +kernel
example : mj (b 63) (.struct [.ptr (.struct [.ptr (.int 11), s "ap", .nil, .ptr (.struct [s "foo"])]), .int 0]) =
    .ok (ascii "{\"Inner\":{\"Foo\":\"11\",\"nm\":\"ap\",\"bz\":{\"A\":\"foo\"}},\"year\":0}") := by decide +kernel
example : mj (b 55) (.struct []) = .ok (ascii "{}") := by decide +kernel
example : mj (b 64) (.struct [.int 10]) = .ok (ascii "{\"A\":\"10\"}") := by decide +kernel
example : mj (b 48) (.struct [.nil, .int 0]) =
    .ok (ascii "{\"type\":\"our/transport\",\"value\":{\"Vehicle\":null,\"Capacity\":\"0\"}}") := by decide +kernel
example : mj (b 48) (.struct [.iface (b 49) (s "Bugatti"), .int 0]) =
    .ok (ascii "{\"type\":\"our/transport\",\"value\":{\"Vehicle\":{\"type\":\"car\",\"value\":\"Bugatti\"},\"Capacity\":\"0\"}}") := by
  decide +kernel
example : mj (b 53) (.struct [.list [.iface (b 49) (s "Corolla"), .iface (b 52) (.int 10000000)]]) =
    .ok (ascii "{\"assets\":[{\"type\":\"car\",\"value\":\"Corolla\"},{\"type\":\"insuranceplan\",\"value\":\"10000000\"}]}") := by
  decide +kernel
example : mj (b 48) (.struct [.iface (b 50) (s "Poseidon"), .int 1789]) =
    .ok (ascii "{\"type\":\"our/transport\",\"value\":{\"Vehicle\":{\"type\":\"boat\",\"value\":\"Poseidon\"},\"Capacity\":\"1789\"}}") := by
  decide +kernel
example : mj (b 66) (.struct [.int 10, .ptr (.struct [.ptr (.int 12), s ""])]) =
    .ok (ascii "{\"fx\":\"Tendermint\",\"A\":{\"Foo\":\"12\"}}") := by decide +kernel
example : mj (p 65) (.ptr (.int 10)) = .ok (ascii "\"Tendermint\"") := by decide +kernel
example : mj (p 59) (.ptr (.iface (b 2) (s "a"))) = .err .unregisteredIface := by decide +kernel
example : mj (p 67) (.ptr (.struct [s "Foo", .int 10])) = .ok (ascii "<FP-MARSHALJSON>") := by decide +kernel
example : mj (p 67) .nil = .ok (ascii "null") := by decide +kernel
example : mj (b 68) (.struct [.ptr (.struct [s "Foo", .int 10]), s "bytes"]) =
    .ok (ascii "{\"FP\":<FP-MARSHALJSON>,\"Package\":\"bytes\"}") := by decide +kernel

/-- TestUnmarshalMap, lines 174-186 -/
example : isErr (uj (b 33) "{\"some_key\": 2}") = true ∧
    uj (b 33) "{\"some_key\": \"2\"}" = .ok (.map [(ascii "some_key", .int 2)]) := by decide +kernel

/-- TestUnmarshalJSON, lines 214-304: cases 1-14 -/
example : uj (b 1) "null" = .ok (.int 0) := by decide +kernel
example : uj (b 1) "\"2\"" = .ok (.int 2) := by decide +kernel
example : isErr (uj (b 1) "{\"null\"}") = true := by decide +kernel
example : uj (b 48) "{\"type\":\"our/transport\",\"value\":{\"Vehicle\":null,\"Capacity\":\"0\"}}" =
    .ok (.struct [.nil, .int 0]) := by decide +kernel
example : uj (b 48) "{\"type\":\"our/transport\",\"value\":{\"Vehicle\":{\"type\":\"car\",\"value\":\"Bugatti\"},\"Capacity\":\"10\"}}" =
    .ok (.struct [.iface (b 49) (s "Bugatti"), .int 10]) := by decide +kernel
example : uj (b 49) "{\"type\":\"car\",\"value\":\"Bugatti\"}" = .ok (s "Bugatti") := by decide +kernel
example : uj (b 16) "[\"1\", \"2\", \"3\"]" = .ok (.list [.int 1, .int 2, .int 3]) := by decide +kernel
example : uj (b 58) "[\"1\", \"2\", \"3\"]" = .ok (.list [s "1", s "2", s "3"]) := by decide +kernel
example : uj (b 60) "[1, \"2\", [\"foo\", \"bar\"]]" = .err .unregisteredIface := by decide +kernel
example : uj (b 69) "2.34" = .err .floatUnsafe := by decide +kernel
example : uj (b 67) "<FooBar>" = .ok (.struct [s "<FooBar>", .int 0]) := by decide +kernel
example : uj (b 67) "10" = .ok (.struct [s "10", .int 0]) := by decide +kernel
example : uj (b 70) "{\"PC\":\"125\",\"FP\":\"10\"}" =
    .ok (.struct [.int 125, .ptr (.struct [s "\"10\"", .int 0])]) := by decide +kernel
example : uj (b 70) "{\"PC\":\"125\",\"FP\":\"<FP-FOO>\"}" =
    .ok (.struct [.int 125, .ptr (.struct [s "\"<FP-FOO>\"", .int 0])]) := by decide +kernel

/-- TestJSONCodecRoundTrip, lines 306-377: case 1 -/
def plane : Val := .struct [.iface (b 51) (.struct [s "G6", .int 51000]), .int 18]
example : (mj (b 48) plane).bind (fun x => unmarshalJSON prog tr lib 20 (b 48) (prog.zero 48) x) = .ok plane := by
  decide +kernel

/-- TestMarshalJSONMap, lines 497-574: nil maps come back empty -/
def maps (v2 v3 : Val) : Val := .struct [.map [(ascii "foo", s "bar")], v2, v3]
def simple : Val := .struct [.int 1, .bytes (ascii "bar")]
example : (mj (b 86) (maps (.map [(ascii "foo", simple)]) (.map [(ascii "foo", .ptr simple)]))).bind
      (fun x => unmarshalJSON prog tr lib 20 (b 86) (prog.zero 86) x) =
        .ok (maps (.map [(ascii "foo", simple)]) (.map [(ascii "foo", .ptr simple)])) ∧
    (mj (b 86) (maps .nil .nil)).bind (fun x => unmarshalJSON prog tr lib 20 (b 86) (prog.zero 86) x) =
        .ok (maps (.map []) (.map [])) ∧
    (mj (b 86) (maps (.map []) (.map []))).bind (fun x => unmarshalJSON prog tr lib 20 (b 86) (prog.zero 86) x) =
        .ok (maps (.map []) (.map [])) := by decide +kernel

/-! ## repr_test.go -/

def reprCodec : Codec :=
  run [.iface 59 [] false, .conc (b 2) (ascii "string"), .conc (b 1) (ascii "int"), .conc (b 90) (ascii "[]*Foo")]
def reprFoo : Val := .struct [s "K", .int 2, .list [.nil, .nil, .nil], s "J"]

/-- TestMarshalAminoBinary, lines 46-72 -/
example : (lp reprCodec (b 87) reprFoo).bind (unlp reprCodec (b 87)) = .ok reprFoo := by decide +kernel

/-- TestMarshalAminoJSON, lines 74-100 -/
example : (marshalJSON prog reprCodec lib 20 (some (b 87, reprFoo))).bind
    (fun x => unmarshalJSON prog reprCodec lib 20 (b 87) (prog.zero 87) x) = .ok reprFoo := by decide +kernel

end Amino.Vec
