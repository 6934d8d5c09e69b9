import Verif.DeepCopy

/-!
# Specification for DeepCopy: structural content and reachable memory
-/

namespace Amino.Spec

/-- The content of a value, with all references followed. -/
inductive Tree
  | prim (v : Val)
  | nil
  | ptr (t : Tree)
  | slice (ts : List Tree)
  | map (kvs : List (Bytes × Tree))
  | arr (ts : List Tree)
  | struct (ts : List Tree)
  | iface (ty : Ty) (t : Tree)

/-- All or nothing. -/
def allSome {α : Type} : List (Option α) → Option (List α)
  | [] => some []
  | none :: _ => none
  | some a :: l => (allSome l).map (a :: ·)

/-- The content of a value, if it has depth at most `n` and no dangling references. -/
def tree (h : Heap) : Nat → HVal → Option Tree
  | 0, _ => none
  | n + 1, v =>
    match v with
    | .prim p => some (.prim p)
    | .nil => some .nil
    | .ptr a => match h[a]? with | some (.var w) => (tree h n w).map .ptr | _ => none
    | .slice a off len =>
      match h[a]? with
      | some (.array ws) =>
        if off + len ≤ ws.length then (allSome (((ws.drop off).take len).map (tree h n))).map .slice else none
      | _ => none
    | .map a =>
      match h[a]? with
      | some (.map kvs) => (allSome (kvs.map fun kv => (tree h n kv.2).map fun t => (kv.1, t))).map .map
      | _ => none
    | .arr vs => (allSome (vs.map (tree h n))).map .arr
    | .struct vs => (allSome (vs.map (tree h n))).map .struct
    | .iface ty w => (tree h n w).map (.iface ty)

/-- The addresses that occur in a value. -/
inductive Refs : HVal → Addr → Prop
  | ptr {a : Addr} : Refs (.ptr a) a
  | slice {a : Addr} {off len : Nat} : Refs (.slice a off len) a
  | map {a : Addr} : Refs (.map a) a
  | arr {vs : List HVal} {v : HVal} {a : Addr} : v ∈ vs → Refs v a → Refs (.arr vs) a
  | struct {vs : List HVal} {v : HVal} {a : Addr} : v ∈ vs → Refs v a → Refs (.struct vs) a
  | iface {t : Ty} {v : HVal} {a : Addr} : Refs v a → Refs (.iface t v) a

/-- The values stored in a cell. -/
def Holds : Cell → HVal → Prop
  | .var w, v => v = w
  | .array ws, v => v ∈ ws
  | .map kvs, v => ∃ k, (k, v) ∈ kvs

/-- Address `a` can be reached from `v`. -/
inductive Reach (h : Heap) : HVal → Addr → Prop
  | here {v : HVal} {a : Addr} : Refs v a → Reach h v a
  | there {v w : HVal} {a b : Addr} {c : Cell} : Refs v a → h[a]? = some c → Holds c w → Reach h w b → Reach h v b

variable (Γ : DProg)

/-- The type has no method that DeepCopy would use. -/
def NoMethods (t : Ty) : Prop := Γ.deepCopyM t = none ∧ Γ.aminoCopyM t = none ∧ Γ.aminoCopyM (.ptr t) = none

/-- Types of numbers, bools and strings (also named ones). -/
def plainElem (e : Ty) : Bool :=
  !e.isPtr && match Γ.shape e.deref with
    | .bool | .string | .int _ | .float32 | .float64 => true
    | .iface | .array _ _ | .slice _ | .struct _ | .map _ | .time => false

/-- A value of type `t` (of depth at most `n`) made of exported fields and types without methods, in which no pointer
points to a nil pointer, nil interface or nil map.  `top`: the value is not directly behind a pointer. -/
def Copyable (h : Heap) : Nat → Bool → Ty → HVal → Prop
  | 0, _, _, _ => False
  | n + 1, top, t, v =>
    (top = true → NoMethods Γ t) ∧
    match t with
    | .ptr t' =>
      match v with
      | .nil => top = true
      | .ptr a => ∃ w, h[a]? = some (.var w) ∧ Copyable h n false t' w
      | _ => False
    | .base id =>
      match Γ.shape id, v with
      | .iface, .nil => top = true
      | .iface, .iface ct cv => Copyable h n true ct cv
      | .array _ e, .arr vs =>
        if plainElem Γ e then ∀ v ∈ vs, ∃ p, v = .prim p else ∀ v ∈ vs, Copyable h n true e v
      | .slice _, .nil => True
      | .slice e, .slice a off len =>
        plainElem Γ e = true ∨ ∃ ws, h[a]? = some (.array ws) ∧ ∀ v ∈ (ws.drop off).take len, Copyable h n true e v
      | .struct fs, .struct vs => vs.length = fs.length ∧ (∀ i < fs.length, Γ.exported id i = true) ∧
          ∀ p ∈ fs.zip vs, Copyable h n true p.1.ty p.2
      | .map _, .nil => top = true
      | .map _, .map a => ∃ kvs, h[a]? = some (.map kvs)
      | .bool, .prim _ => True
      | .int _, .prim _ => True
      | .float32, .prim _ => True
      | .float64, .prim _ => True
      | .string, .prim _ => True
      | .time, .prim _ => True
      | _, _ => False

/-- A value (of depth at most `n`) that holds no slices other than nil, and whose maps hold no references. -/
def Detached (h : Heap) : Nat → HVal → Prop
  | 0, _ => False
  | n + 1, v =>
    match v with
    | .prim _ => True
    | .nil => True
    | .ptr a => ∃ w, h[a]? = some (.var w) ∧ Detached h n w
    | .slice _ _ _ => False
    | .map a => ∃ kvs, h[a]? = some (.map kvs) ∧ ∀ k w, (k, w) ∈ kvs → ∀ b, ¬ Refs w b
    | .arr vs => ∀ v ∈ vs, Detached h n v
    | .struct vs => ∀ v ∈ vs, Detached h n v
    | .iface _ w => Detached h n w

end Amino.Spec
