import Verif.SpecUniv

/-!
# Specification: how types may change

The old and the new types live in one program `Γ` (type ids are only names); the old ones are registered in the codec
`c`, the new ones in `c'`.
-/

namespace Amino.Spec

/-- Kinds of integers that are written alike and can be widened from the first to the second: `int8` and `int16` are
written zig-zag, all others as plain varints.  (`uint8` is left out: it is special as an element of lists.) -/
def widens : IntKind → IntKind → Bool
  | .int8, .int16 => true
  | .int32, .int64 | .int32, .int | .int64, .int | .int, .int64 => true
  | .uint16, .uint32 | .uint16, .uint64 | .uint16, .uint | .uint32, .uint64 | .uint32, .uint => true
  | .uint64, .uint | .uint, .uint64 => true
  | _, _ => false

/-- The same pointers over related types. -/
inductive SamePtrs (R : TId → TId → Prop) : Ty → Ty → Prop
  | base {id id' : TId} : R id id' → SamePtrs R (.base id) (.base id')
  | ptr {t t' : Ty} : SamePtrs R t t' → SamePtrs R (.ptr t) (.ptr t')

/-- The field is tagged `fixed32` or `fixed64`. -/
def fixedTag (f : Field) : Bool := f.opts.fixed32 || f.opts.fixed64

/-- Tags that matter for the binary coding are the same: all but the JSON ones. -/
structure SameOpts (fo fo' : FOpts) : Prop where
  fixed64 : fo'.fixed64 = fo.fixed64
  fixed32 : fo'.fixed32 = fo.fixed32
  fnum : fo'.fnum = fo.fnum
  floatOk : fo'.floatOk = fo.floatOk
  writeEmpty : fo'.writeEmpty = fo.writeEmpty
  emptyElements : fo'.emptyElements = fo.emptyElements

section
variable (Γ : Prog) (c c' : Codec) (D : Nat) (R : Bool → TId → TId → Prop)

/-- A field and its new version: another name, a related type. -/
structure FieldTo (f f' : Field) : Prop where
  visible : f'.visible = f.visible
  opts : SameOpts { f.opts with fnum := 0 } { f'.opts with fnum := 0 }
  type : f.visible = true → SamePtrs (R (fixedTag f)) f.ty f'.ty

/-- A value that a field of the type does not write: nil pointers, zero numbers, `false`, empty strings and lists, nil
interfaces, the 1970 time, structs of such values (`n` bounds how deep they are nested). -/
inductive Unsent : Nat → Ty → Val → Prop
  | nilPtr {n : Nat} {t : Ty} : getInfo Γ c' t.deref = .ok () → Unsent n (.ptr t) .nil
  | zero {n : Nat} {id : TId} {v : Val} : getInfo Γ c' id = .ok () → dflt (Γ.shape id) v = true → Unsent n (.base id) v
  | bool {n : Nat} {id : TId} : Γ.marsh id = none → Γ.shape id = .bool → Unsent (n + 1) (.base id) (.bool false)
  | time {n : Nat} {id : TId} : Γ.marsh id = none → Γ.shape id = .time → Unsent (n + 1) (.base id) (.time 0 0)
  | struct {n : Nat} {id : TId} {fs : List Field} {vs : List Val} : Γ.marsh id = none → Γ.shape id = .struct fs →
      getInfo Γ c' id = .ok () → fs.length < 2 ^ 29 → fs.length = vs.length →
      (∀ p ∈ fs.zip vs, p.1.visible = true → p.1.opts.writeEmpty = false) →
      (∀ p ∈ fs.zip vs, p.1.visible = true → Unsent n p.1.ty p.2) → Unsent (n + 1) (.base id) (.struct vs)

/-- A shape and its new version: integers may be widened unless tagged (`b`), structs may have fields appended that can
be left unsent. -/
inductive ShapeTo (b : Bool) : Shape → Shape → Prop
  | bool : ShapeTo b .bool .bool
  | float32 : ShapeTo b .float32 .float32
  | float64 : ShapeTo b .float64 .float64
  | string : ShapeTo b .string .string
  | time : ShapeTo b .time .time
  | iface : ShapeTo b .iface .iface
  | int {k : IntKind} : ShapeTo b (.int k) (.int k)
  | widen {k k' : IntKind} : b = false → widens k k' = true → ShapeTo b (.int k) (.int k')
  | slice {e e' : Ty} : SamePtrs (R b) e e' → ShapeTo b (.slice e) (.slice e')
  | array {n : Nat} {e e' : Ty} : SamePtrs (R b) e e' → ShapeTo b (.array n e) (.array n e')
  | struct {fs fs' gs : List Field} : fs.length = fs'.length → (∀ p ∈ fs.zip fs', FieldTo R p.1 p.2) →
      (fs' ++ gs).length < 2 ^ 29 →
      (∀ g ∈ gs, g.visible = true → g.opts.writeEmpty = false ∧ ∃ u, Unsent Γ c' D g.ty u ∧ HasTy Γ g.ty u) →
      ShapeTo b (.struct fs) (.struct (fs' ++ gs))

/-- A value of an old type as a value of the new type: appended fields are unsent. -/
inductive ValTo : Bool → Ty → Ty → Val → Val → Prop
  | ptrNil {b : Bool} {t t' : Ty} : ValTo b (.ptr t) (.ptr t') .nil .nil
  | ptr {b : Bool} {t t' : Ty} {v v' : Val} : ValTo b t t' v v' → ValTo b (.ptr t) (.ptr t') (.ptr v) (.ptr v')
  | same {b : Bool} {id id' : TId} {v : Val} : (∀ vs, v ≠ .list vs) → (∀ vs, v ≠ .struct vs) → (∀ t w, v ≠ .iface t w) →
      ValTo b (.base id) (.base id') v v
  | list {b : Bool} {id id' : TId} {e e' : Ty} {vs vs' : List Val} : (Γ.shape id).elem? = some e →
      (Γ.shape id').elem? = some e' → vs.length = vs'.length → (∀ p ∈ vs.zip vs', ValTo b e e' p.1 p.2) →
      ValTo b (.base id) (.base id') (.list vs) (.list vs')
  | iface {b : Bool} {id id' : TId} {t t' : Ty} {v v' : Val} : SamePtrs (R b) t t' → ValTo b t t' v v' →
      ValTo b (.base id) (.base id') (.iface t v) (.iface t' v')
  | struct {b : Bool} {id id' : TId} {fs fs' gs : List Field} {vs vs' us : List Val} : Γ.shape id = .struct fs →
      Γ.shape id' = .struct (fs' ++ gs) → fs.length = fs'.length → fs.length = vs.length → fs'.length = vs'.length →
      gs.length = us.length →
      (∀ p ∈ (fs.zip fs').zip (vs.zip vs'), p.1.1.visible = true →
        ValTo (fixedTag p.1.1) p.1.1.ty p.1.2.ty p.2.1 p.2.2) →
      (∀ p ∈ gs.zip us, p.1.visible = true → Unsent Γ c' D p.1.ty p.2) →
      ValTo b (.base id) (.base id') (.struct vs) (.struct (vs' ++ us))

/-- Do values of an implementation with these prefix bytes need disambiguation bytes? -/
def disambiguates (ii : IfaceInfo) (p : Bytes) : Bool := ii.always || decide (1 < (ii.impls.filter fun ci => ci.prefx == p).length)

/-- `R b id id'`: the type `id` has become `id'` (`b`: as used in a field with a fixed-width tag).  Unsent values of appended
fields are nested at most `D` deep. -/
structure Evolves : Prop where
  shape : ∀ {b id id'}, R b id id' → ShapeTo Γ c' D R b (Γ.shape id) (Γ.shape id')
  info : ∀ {b id id'}, R b id id' → getInfo Γ c' id' = .ok ()
  /-- the zero values of numbers and bools -/
  zero : ∀ {b id id'}, R b id id' → lenKind Γ id = false → Γ.zero id' = Γ.zero id
  noMarsh : ∀ {b id id'}, R b id id' → Γ.marsh id = none → Γ.marsh id' = none
  marsh : ∀ {b id id' rid m}, R b id id' → Γ.marsh id = some (rid, m) → ∃ rid' m', Γ.marsh id' = some (rid', m') ∧
    R b rid rid' ∧ ∀ v v' r, ValTo Γ c' D R b (.base id) (.base id') v v' → m v = .ok r →
      ∃ r', m' v' = .ok r' ∧ ValTo Γ c' D R b (.base rid) (.base rid') r r'
  /-- registered types have the same prefix and disambiguation bytes (which follow from their names) -/
  conc : ∀ {b id id' ci}, R b id id' → c.conc? id = some ci → ∃ ci', c'.conc? id' = some ci' ∧ ci'.prefx = ci.prefx ∧
    ci'.disamb = ci.disamb
  /-- new registrations do not make old implementations ambiguous -/
  iface : ∀ {b id id' ii}, R b id id' → Γ.shape id = .iface → c.iface? id = some ii → ∃ ii', c'.iface? id' = some ii' ∧
    ∀ i ci, c.conc? i = some ci → disambiguates ii' ci.prefx = disambiguates ii ci.prefx

/-- Implementations of interfaces have become implementations. -/
def ImplTo : Prop := ∀ {b id id' t}, R b id id' → Γ.shape id = .iface → Γ.implements t id = true →
  ∃ t', SamePtrs (R b) t t' ∧ Γ.implements t' id' = true

end
end Amino.Spec
