import Verif.SpecTypes

/-!
# Specification: what a binary round trip does to a value

`norm` is the value a reader gets back.  It mentions no bytes.  In words:

* an empty slice becomes nil;
* an omitted struct field becomes the default of its type: 1970 for a time, nil for pointers, slices and
  interfaces, Go's zero value otherwise;
* in lists: a pointer to a default value becomes nil, a blank element becomes the default of its type;
* an interface value comes back in the pointer shape under which its type was registered;
* types with MarshalAmino/UnmarshalAmino go through their representation;
* fields that are not encoded (unexported, `json:"-"`) come back as Go's zero value;
* everything else comes back unchanged.

`fuel` bounds the depth of the traversal (representations may grow, so there is no structural bound).
The definitions here do not use the model of the encoder or decoder.
-/

namespace Amino.Spec

/-- Is this the default of its kind?  Zero integers, empty strings, empty or nil lists, nil interfaces; not
`false`, not zero floats, arrays or structs. -/
def dflt : Shape → Val → Bool
  | .int _, .int i => i == 0
  | .string, .str s => s == []
  | .slice _, .nil | .map _, .nil | .iface, .nil => true
  | .slice _, .bytes b => b == []
  | .slice _, .list vs => vs.length == 0
  | .map _, .map kvs => kvs.length == 0
  | _, _ => false

/-- The pointee at the end of the pointer chain, if no pointer on the way is nil. -/
def pointee : Ty → Val → Option Val
  | .base _, v => some v
  | .ptr t, .ptr v => pointee t v
  | .ptr _, _ => none

/-- Reference with the pointer shape of the type. -/
def refs : Ty → Val → Val
  | .base _, v => v
  | .ptr t, v => .ptr (refs t v)

section
variable (Γ : Prog)

/-- Length delimited kinds. -/
def lenKind (id : TId) : Bool :=
  match Γ.shape id with
  | .iface | .array _ _ | .slice _ | .string | .struct _ | .time | .map _ => true
  | _ => false

/-- The value of a field or list element that is not on the wire. -/
def absent (t : Ty) : Val :=
  match Γ.shape t.deref with
  | .time => refs t (.time 0 0)
  | _ => match t with
    | .base id => Γ.zero id
    | .ptr _ => .nil

/-- A list field whose elements are repeated under the field's own key: a slice or array (not behind a
pointer) of length delimited elements, except byte strings. -/
def repeated (f : Field) : Bool :=
  match f.ty with
  | .ptr _ => false
  | .base id =>
    match Γ.shape id with
    | .slice e | .array _ e => lenKind Γ e.deref
    | _ => false

/-- Elements that are pointers to structs, in a field tagged `empty_elements`. -/
def keepEmpty (e : Ty) (fo : FOpts) : Bool := fo.emptyElements && e.isPtr && Γ.isStruct e.deref

variable (blank : TId → Val → FOpts → Bool)

/-- A field that contributes no bytes: a nil pointer; a default value, unless tagged `write_empty`; an
empty repeated list; a blank value, unless tagged `write_empty` or behind a pointer. -/
def omits (f : Field) (num : Nat) (v : Val) : Bool :=
  match pointee f.ty v with
  | none => true
  | some dv =>
    (dflt (Γ.shape f.ty.deref) dv && !f.opts.writeEmpty) ||
    (if repeated Γ f then
      match dv with
      | .list vs => vs.length == 0
      | .nil => true
      | _ => false
     else !f.opts.writeEmpty && !f.ty.isPtr && blank f.ty.deref dv { f.opts with fnum := num })

/-- All encoded fields are omitted. -/
def allOmitted : Nat → List Field → List Val → Bool
  | num, f :: fs, v :: vs =>
    if f.visible then omits Γ blank f (num + 1) v && allOmitted (num + 1) fs vs else allOmitted num fs vs
  | _, _, _ => true

/-- Blank values of a type without MarshalAmino. -/
def blankShape (id : TId) (v : Val) (fo : FOpts) : Bool :=
  match Γ.shape id, v with
  | .int .int64, .int i | .int .uint64, .int i => !fo.fixed64 && i == 0
  | .int .int32, .int i | .int .uint32, .int i => !fo.fixed32 && i == 0
  | .int _, .int i => i == 0
  | .bool, .bool b => !b
  | .string, .str s => s == []
  | .time, .time s ns => s == 0 && ns == 0
  | .slice _, .nil => true
  | .slice _, .bytes b | .array _ _, .bytes b => b == []
  | .slice _, .list vs | .array _ _, .list vs => vs.length == 0
  | .iface, .nil => true
  | .struct fs, .struct vs => allOmitted Γ blank 0 fs vs
  | _, _ => false

end

/-- A value that would be written as a lone zero byte: zero numbers, `false`, empty strings and lists, the
1970 time, nil interfaces, structs all of whose fields are omitted. -/
def blank (Γ : Prog) : Nat → TId → Val → FOpts → Bool
  | 0, _, _, _ => false
  | fuel + 1, id, v, fo =>
    match Γ.marsh id with
    | some (rid, m) =>
      match m v with
      | .ok r => blank Γ fuel rid r fo
      | _ => false
    | none => blankShape Γ (blank Γ fuel) id v fo

section
variable (Γ : Prog) (c : Codec) (blank : TId → Val → FOpts → Bool) (norm : TId → Val → FOpts → Option Val)

/-- An element of a list of numbers or bools (written back to back). -/
def normPackedElem (e : Ty) (fo : FOpts) (v : Val) : Option Val :=
  (norm e.deref ((pointee e v).getD (Γ.zero e.deref)) fo).map fun w =>
    if e.isPtr && dflt (Γ.shape e.deref) w then .nil else refs e w

/-- An element of a list of length delimited values. -/
def normElem (e : Ty) (fo : FOpts) (v : Val) : Option Val :=
  match pointee e v with
  | none => some (absent Γ e)
  | some dv =>
    if dflt (Γ.shape e.deref) dv || (blank e.deref dv { fo with fnum := 1 } && !keepEmpty Γ e fo) then
      some (absent Γ e)
    else (norm e.deref dv { fo with fnum := 1 }).map (refs e)

/-- The elements of a list with element type `e`. -/
def normElems (e : Ty) (fo : FOpts) : List Val → Option (List Val)
  | [] => some []
  | v :: vs =>
    (if lenKind Γ e.deref then normElem Γ blank norm e fo v else normPackedElem Γ norm e fo v).bind fun w =>
    (normElems e fo vs).map fun ws => w :: ws

/-- A list value (of a type whose elements are not bytes). -/
def normList (s : Shape) (fo : FOpts) (v : Val) : Option Val :=
  match s, v with
  | .slice e, .list vs =>
    (normElems Γ blank norm e fo vs).map fun ws => if ws.length == 0 then .nil else .list ws
  | .slice _, .nil => some .nil
  | .array _ e, .list vs => (normElems Γ blank norm e fo vs).map .list
  | _, _ => none

/-- One encoded field. -/
def normField (f : Field) (num : Nat) (v : Val) : Option Val :=
  if omits Γ blank f num v then some (absent Γ f.ty)
  else
    (pointee f.ty v).bind fun dv =>
      if repeated Γ f then normList Γ blank norm (Γ.shape f.ty.deref) { f.opts with fnum := num } dv
      else (norm f.ty.deref dv { f.opts with fnum := num }).map (refs f.ty)

def normFields : Nat → List Field → List Val → Option (List Val)
  | _, [], [] => some []
  | num, f :: fs, v :: vs =>
    if f.visible then
      (normField Γ blank norm f (num + 1) v).bind fun w => (normFields (num + 1) fs vs).map fun ws => w :: ws
    else
      (normFields num fs vs).map fun ws => (match f.ty with | .base id => Γ.zero id | .ptr _ => .nil) :: ws
  | _, _, _ => none

/-- Values of a type without MarshalAmino. -/
def normShape (id : TId) (v : Val) (fo : FOpts) : Option Val :=
  match Γ.shape id, v with
  | .slice _, .bytes b => some (if b == [] then .nil else .bytes b)
  | .array _ _, .bytes b => some (.bytes b)
  | .slice e, v => normList Γ blank norm (.slice e) fo v
  | .array n e, v => normList Γ blank norm (.array n e) fo v
  | .struct fs, .struct vs => (normFields Γ blank norm 0 fs vs).map .struct
  | .iface, .iface t v =>
    match pointee t v, c.conc? t.deref with
    | some dv, some ci =>
      (norm t.deref dv fo).map fun w =>
        if ci.ptrPref then .iface (.ptr (.base ci.tid)) (.ptr w) else .iface (.base ci.tid) w
    | _, _ => none
  | .bool, v | .int _, v | .float32, v | .float64, v | .string, v | .time, v => some v
  | _, _ => none

end

/-- What comes back from a binary round trip of a value of type `id` with field options `fo`; `none` if a
user method fails, the traversal is deeper than `fuel`, or the value cannot be encoded. -/
def norm (Γ : Prog) (c : Codec) : Nat → TId → Val → FOpts → Option Val
  | 0, _, _, _ => none
  | fuel + 1, id, v, fo =>
    match Γ.marsh id with
    | some (rid, m) =>
      match m v, Γ.unmarsh id with
      | .ok r, some (_, um) =>
        (norm Γ c fuel rid r fo).bind fun r' =>
          match um (Γ.zero id) r' with
          | .ok w => some w
          | _ => none
      | _, _ => none
    | none => normShape Γ c (blank Γ fuel) (norm Γ c fuel) id v fo

end Amino.Spec
