import Verif.Types

/-!
# DeepCopy

Aliasing matters here, so values live in a heap.  A heap is a list of cells, an address is an index into it, and
allocation appends.  Simplifications: pointers point to whole variables (no pointers into structs or arrays); map
entries are kept in a list, `MapKeys` returns them in that order; a copied cell is written once, when its content is
complete (the Go code allocates first and fills in afterwards, the new memory being unreachable until then); the
allocation callAminoCopy makes for a pointer before it finds that there are no methods (deep_copy.go:189) is left out
because nothing refers to it afterwards.
-/

namespace Amino

abbrev Addr := Nat

/-- A Go value with references.  `prim` is a bool, number, string or `time.Time`.  `nil` is the nil pointer, slice, map
or interface.  `slice a off len` is the window of `len` elements from `off` in the backing array at `a`. -/
inductive HVal
  | prim (v : Val)
  | nil
  | ptr (a : Addr)
  | slice (a : Addr) (off len : Nat)
  | map (a : Addr)
  | arr (vs : List HVal)
  | struct (vs : List HVal)
  | iface (t : Ty) (v : HVal)
  deriving Repr

/-- reflect.go:166-173 `isNil`. -/
def HVal.isNil : HVal → Bool
  | .nil => true
  | _ => false

inductive Cell
  | var (v : HVal)
  | array (vs : List HVal)
  | map (kvs : List (Bytes × HVal))
  deriving Repr

abbrev Heap := List Cell

/-- The program, and what else DeepCopy asks `reflect` for. -/
structure DProg extends Prog where
  /-- `isExported` of field `i` of a struct type. -/
  exported : TId → Nat → Bool
  /-- The zero value of a type. -/
  zeroH : Ty → HVal
  /-- A method `DeepCopy() T` in the method set of the type: `T` and its effect. -/
  deepCopyM : Ty → Option (Ty × (Heap → HVal → Res (HVal × Heap)))
  /-- For a pointer type with a matching pair of MarshalAmino and UnmarshalAmino (canAminoCopy,
  deep_copy.go:219-253): calling the first on the pointer and the second on a pointer to a new zero value. -/
  aminoCopyM : Ty → Option (Heap → HVal → Res (HVal × Heap))

/-- The element kinds that are copied in bulk (deep_copy.go:58-62, 77-81). -/
def Prog.bulk (Γ : Prog) (e : Ty) : Bool :=
  match e with
  | .ptr _ => false
  | .base id =>
    match Γ.shape id with
    | .int _ | .bool | .float32 | .float64 | .string => true
    | _ => false

section
variable (Γ : DProg)

/-- deep_copy.go:151-178 `callDeepCopy`, `none` for false. -/
def callDeepCopy (t : Ty) (v : HVal) (h : Heap) : Option (Res (HVal × Heap)) :=
  match Γ.deepCopyM t with
  | none => none
  | some (ot, f) =>
    if t = .ptr ot then
      some ((f h v).bind fun (w, h) => .ok (.ptr h.length, h ++ [.var w]))
    else if t = ot then some (f h v)
    else none

/-- deep_copy.go:180-217 `callAminoCopy`, `none` for false.  For an addressable value that is not a pointer, the
destination is replaced by its address (line 196), on which `dst.Set` panics (line 205). -/
def callAminoCopy (addr : Bool) (t : Ty) (v : HVal) (h : Heap) : Option (Res (HVal × Heap)) :=
  match t with
  | .ptr _ =>
    match Γ.aminoCopyM t with
    | none => none
    | some f => some (f h v)
  | .base _ =>
    if addr then
      match Γ.aminoCopyM (.ptr t) with
      | none => none
      | some _ => some (.panic .notAssignable)
    else none

variable (rec : Bool → Bool → Ty → HVal → Heap → Res (HVal × Heap))

/-- deep_copy.go:66-70, 86-90: the loop over elements. -/
def copyElems (addr : Bool) (e : Ty) : List HVal → Heap → Res (List HVal × Heap)
  | [], h => .ok ([], h)
  | v :: vs, h =>
    (rec true addr e v h).bind fun (v', h) =>
    (copyElems addr e vs h).bind fun (vs', h) => .ok (v' :: vs', h)

/-- deep_copy.go:102-109: the loop over fields; `i` is the index.  Unexported fields keep the zero value. -/
def copyFields (addr : Bool) (id : TId) : Nat → List Field → List HVal → Heap → Res (List HVal × Heap)
  | _, [], [], h => .ok ([], h)
  | i, f :: fs, v :: vs, h =>
    if !Γ.exported id i then
      (copyFields addr id (i + 1) fs vs h).bind fun (vs', h) => .ok (Γ.zeroH f.ty :: vs', h)
    else
      (rec true addr f.ty v h).bind fun (v', h) =>
      (copyFields addr id (i + 1) fs vs h).bind fun (vs', h) => .ok (v' :: vs', h)
  | _, _, _, _ => .panic .illTyped

/-- deep_copy.go:41-145 `_deepCopy` on a value of type `t`; `addr` is `src.CanAddr()`.  `rec top addr` is deepCopy if
`top`, else `_deepCopy`. -/
def copyKind (addr : Bool) (t : Ty) (v : HVal) (h : Heap) : Res (HVal × Heap) :=
  match t with
  | .ptr t' =>
    match v with
    | .ptr a =>
      match h[a]? with
      | some (.var w) => (rec false true t' w h).bind fun (w', h) => .ok (.ptr h.length, h ++ [.var w'])
      | _ => .panic .illTyped
    | .nil => .panic .unsupported   -- src.Elem() is the invalid value: line 139
    | _ => .panic .illTyped
  | .base id =>
    match Γ.shape id with
    | .iface =>
      match v with
      | .iface ct cv => (rec true false ct cv h).bind fun (cv', h) => .ok (.iface ct cv', h)
      | .nil => .panic .invalidValue  -- src.Elem().Type(): line 51
      | _ => .panic .illTyped
    | .array _ e =>
      match v with
      | .arr vs =>
        if Γ.bulk e then .ok (.arr vs, h)
        else (copyElems rec addr e vs h).bind fun (vs', h) => .ok (.arr vs', h)
      | _ => .panic .illTyped
    | .slice e =>
      match v with
      | .nil => .ok (.nil, h)
      | .slice a off len =>
        if Γ.bulk e then .ok (.slice a off len, h)   -- line 85: dst.Set(src)
        else
          match h[a]? with
          | some (.array ws) =>
            (copyElems rec true e ((ws.drop off).take len) h).bind fun (ws', h) =>
            .ok (.slice a off len, h ++ [.array ws'])   -- line 95: dst.Set(src)
          | _ => .panic .illTyped
      | _ => .panic .illTyped
    | .struct fs =>
      match v with
      | .struct vs => (copyFields Γ rec addr id 0 fs vs h).bind fun (vs', h) => .ok (.struct vs', h)
      | _ => .panic .illTyped
    | .map _ =>
      match v with
      | .nil => .ok (.map h.length, h ++ [.map []])
      | .map a =>
        match h[a]? with
        | some (.map kvs) => .ok (.map h.length, h ++ [.map kvs])
        | _ => .panic .illTyped
      | _ => .panic .illTyped
    | _ =>
      match v with
      | .prim p => .ok (.prim p, h)
      | _ => .panic .illTyped

end

/-- deep_copy.go:28-39 `deepCopy` (`top`) and deep_copy.go:41 `_deepCopy` (not `top`), on an initial zero `dst`. -/
def copyVal (Γ : DProg) : Nat → Bool → Bool → Ty → HVal → Heap → Res (HVal × Heap)
  | 0, _, _, _, _, _ => .oof
  | fuel + 1, top, addr, t, v, h =>
    if top then
      if v.isNil then .ok (.nil, h)     -- dst keeps its zero value
      else
        match callDeepCopy Γ t v h with
        | some r => r
        | none =>
          match callAminoCopy Γ addr t v h with
          | some r => r
          | none => copyKind Γ (copyVal Γ fuel) addr t v h
    else copyKind Γ (copyVal Γ fuel) addr t v h

/-- deep_copy.go:18-26 `DeepCopy`: the argument is an interface holding a value of type `t`. -/
def deepCopyTop (Γ : DProg) (fuel : Nat) (t : Ty) (v : HVal) (h : Heap) : Res (HVal × Heap) :=
  copyVal Γ fuel true false t v h

end Amino
