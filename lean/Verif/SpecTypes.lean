import Verif.Types

/-!
# Specification: which values a Go type has

Independent of the encoder and decoder.  `HasTy Γ t v`: `v` is a value of the Go type `t` in the
program `Γ`.
-/

namespace Amino

inductive HasTy (Γ : Prog) : Ty → Val → Prop
  | ptrNil {t : Ty} : HasTy Γ (.ptr t) .nil
  | ptr {t : Ty} {v : Val} : HasTy Γ t v → HasTy Γ (.ptr t) (.ptr v)
  | bool {id : TId} {b : Bool} : Γ.shape id = .bool → HasTy Γ (.base id) (.bool b)
  | int {id : TId} {k : IntKind} {i : Int} : Γ.shape id = .int k → k.inRange i →
      HasTy Γ (.base id) (.int i)
  | f32 {id : TId} {b : UInt64} : Γ.shape id = .float32 → b.toNat < 2 ^ 32 → HasTy Γ (.base id) (.f32 b)
  | f64 {id : TId} {b : UInt64} : Γ.shape id = .float64 → HasTy Γ (.base id) (.f64 b)
  | str {id : TId} {s : Bytes} : Γ.shape id = .string → HasTy Γ (.base id) (.str s)
  | time {id : TId} {s ns : Int} : Γ.shape id = .time → -(2 ^ 63) ≤ s → s < 2 ^ 63 → 0 ≤ ns →
      ns < 1000000000 → HasTy Γ (.base id) (.time s ns)
  | sliceNil {id : TId} {e : Ty} : Γ.shape id = .slice e → HasTy Γ (.base id) .nil
  | sliceBytes {id : TId} {e : Ty} {b : Bytes} : Γ.shape id = .slice e → Γ.isByteKind e = true →
      HasTy Γ (.base id) (.bytes b)
  | slice {id : TId} {e : Ty} {vs : List Val} : Γ.shape id = .slice e → Γ.isByteKind e = false →
      (∀ v ∈ vs, HasTy Γ e v) → HasTy Γ (.base id) (.list vs)
  | arrayBytes {id : TId} {n : Nat} {e : Ty} {b : Bytes} : Γ.shape id = .array n e →
      Γ.isByteKind e = true → b.length = n → HasTy Γ (.base id) (.bytes b)
  | array {id : TId} {n : Nat} {e : Ty} {vs : List Val} : Γ.shape id = .array n e →
      Γ.isByteKind e = false → vs.length = n → (∀ v ∈ vs, HasTy Γ e v) → HasTy Γ (.base id) (.list vs)
  | mapNil {id : TId} {e : Ty} : Γ.shape id = .map e → HasTy Γ (.base id) .nil
  | map {id : TId} {e : Ty} {kvs : List (Bytes × Val)} : Γ.shape id = .map e →
      (∀ kv ∈ kvs, HasTy Γ e kv.2) → HasTy Γ (.base id) (.map kvs)
  | ifaceNil {id : TId} : Γ.shape id = .iface → HasTy Γ (.base id) .nil
  | iface {id : TId} {t : Ty} {v : Val} : Γ.shape id = .iface → Γ.implements t id = true →
      HasTy Γ t v → HasTy Γ (.base id) (.iface t v)
  | struct {id : TId} {fs : List Field} {vs : List Val} : Γ.shape id = .struct fs →
      fs.length = vs.length → (∀ p ∈ fs.zip vs, HasTy Γ p.1.ty p.2) → HasTy Γ (.base id) (.struct vs)

/-- `vs` are values for the fields `fs`. -/
def FieldsTy (Γ : Prog) (fs : List Field) (vs : List Val) : Prop :=
  fs.length = vs.length ∧ ∀ p ∈ fs.zip vs, HasTy Γ p.1.ty p.2

/-- What Go's type checker guarantees about a program: zero values have their types, interfaces have
no `MarshalAmino` representation, methods respect their signatures. -/
structure Prog.Typed (Γ : Prog) : Prop where
  zero : ∀ id, HasTy Γ (.base id) (Γ.zero id)
  marsh : ∀ {id rid m v r}, Γ.marsh id = some (rid, m) → HasTy Γ (.base id) v → m v = .ok r →
    HasTy Γ (.base rid) r
  unmarsh : ∀ {id rid um p r v}, Γ.unmarsh id = some (rid, um) → HasTy Γ (.base id) p →
    HasTy Γ (.base rid) r → um p r = .ok v → HasTy Γ (.base id) v

/-- A type the binary decoder accepts as a component: its descriptor is in `S`, and it is not a pointer
to an interface. -/
def OkTy (Γ : Prog) (S : TId → Prop) (t : Ty) : Prop :=
  S t.deref ∧ (t.isPtr && Γ.isIface t.deref) = false

/-- A set of types closed under components, free of the constructions amino documents as unsupported:
maps, pointers to interfaces, untagged floats, named byte elements. -/
structure DecUniv (Γ : Prog) (c : Codec) (S : TId → Prop) : Prop where
  noMap : ∀ {id e}, S id → Γ.shape id ≠ .map e
  slice : ∀ {id e}, S id → Γ.shape id = .slice e →
    if Γ.isByteKind e then e = .base Γ.byteId else OkTy Γ S e
  array : ∀ {id n e}, S id → Γ.shape id = .array n e →
    if Γ.isByteKind e then e = .base Γ.byteId else OkTy Γ S e
  struct : ∀ {id fs}, S id → Γ.shape id = .struct fs →
    ∀ f ∈ fs, Γ.badFloat f = false ∧ (f.visible = true → OkTy Γ S f.ty)
  unmarsh : ∀ {id rid um}, S id → Γ.unmarsh id = some (rid, um) → S rid
  disfix : ∀ {df ci}, c.disfix? df = some ci → S ci.tid
  impls : ∀ {id ii ci}, c.iface? id = some ii → ci ∈ ii.impls → S ci.tid

end Amino
