import Verif.BinDecode

/-!
# codec.go: the registry

Every operation is a function of the codec to the codec afterwards and the panic raised, if any; a panic does not
undo what was done before.  `H` is SHA-256 on names: an arbitrary function here.  The mutex is the subject of
`Lock.lean`; here operations are atomic.
-/

namespace Amino

/-- codec.go:757-759, 762-764: `for bz[0] == 0x00 { bz = bz[1:] }`; indexing an empty slice panics. -/
def skipZeros : Bytes → Res Bytes
  | [] => .panic .index
  | b :: bz => if b = 0 then skipZeros bz else .ok (b :: bz)

/-- codec.go:751-767 `nameToDisfix` (and `NameToDisfix`, line 48): disambiguation and prefix bytes.  The slice
returned by `hasher.Sum(nil)` has no spare capacity, so `bz[0:3]`, `bz[0:4]` of a shorter rest panic. -/
def nameToDisfix (H : Bytes → Bytes) (name : Bytes) : Res (Bytes × Bytes) :=
  (skipZeros (H name)).bind fun bz =>
  if bz.length < 3 then .panic .index
  else
    (skipZeros (bz.drop 3)).bind fun bz' =>
    if bz'.length < 4 then .panic .index else .ok (bz.take 3, bz'.take 4)

section
variable (Γ : Prog) (H : Bytes → Bytes)

/-- `_, ok := cdc.typeInfos[rt]` (codec.go:343, 377). -/
def Codec.known (c : Codec) (id : TId) : Bool :=
  (c.iface? id).isSome || (c.conc? id).isSome || c.plain.contains id

/-- codec.go:636-656 `checkConflictsInPrioNolock`: true if there is no error. -/
def IfaceInfo.prioOk (i : IfaceInfo) : Bool :=
  i.impls.all fun ci => decide ((i.withPrefix ci.prefx).length < 2) || i.priority.contains ci.disfix

/-- codec.go:663-680: the loop of `addCheckConflictsWithConcreteNolock` over the interfaces; the interface with
the conflict gets its old implementers back, those before it keep the new one. -/
def addToIfaces (ci : ConcInfo) : List IfaceInfo → List IfaceInfo × Bool
  | [] => ([], true)
  | i :: is =>
    if Γ.implements (.ptr (.base ci.tid)) i.tid then
      let i' := { i with impls := i.impls ++ [ci] }
      if i'.prioOk then (i' :: (addToIfaces ci is).1, (addToIfaces ci is).2) else (i :: is, false)
    else (i :: (addToIfaces ci is).1, (addToIfaces ci is).2)

/-- codec.go:338-349 `setTypeInfoNolock` for an interface. -/
def Codec.setIface (c : Codec) (i : IfaceInfo) : Codec × Option Pan :=
  if c.known i.tid then (c, some .dupType) else ({ c with ifaces := c.ifaces ++ [i] }, none)

/-- codec.go:338-363 `setTypeInfoNolock` for a registered concrete type: the type is entered before the checks for
duplicate disfix and name. -/
def Codec.setConc (c : Codec) (ci : ConcInfo) : Codec × Option Pan :=
  if c.known ci.tid then (c, some .dupType)
  else
    let c := { c with concs := c.concs ++ [ci] }
    if (c.disfix? ci.disfix).isSome then (c, some .dupDisfix)
    else if (c.name? ci.name).isSome then (c, some .dupName)
    else ({ c with byDisfix := c.byDisfix ++ [(ci.disfix, ci)], byName := c.byName ++ [(ci.name, ci)] }, none)

/-- codec.go:593-597: the priority list as disfix bytes. -/
def prioDisfixes : List Bytes → Res (List Bytes)
  | [] => .ok []
  | n :: ns =>
    (nameToDisfix H n).bind fun dp =>
    (prioDisfixes ns).bind fun ds => .ok ((dp.1 ++ dp.2) :: ds)

/-- codec.go:624-631 `collectImplementersNolock`. -/
def collect (c : Codec) (id : TId) : List ConcInfo :=
  c.concs.filter fun ci => Γ.implements (.ptr (.base ci.tid)) id

/-- codec.go:157-177: `RegisterInterface` after the check of the seal. -/
def addInterface (c : Codec) (id : TId) (prio : List Bytes) (always : Bool) : Codec × Option Pan :=
  if !Γ.isIface id then (c, some .illTyped)
  else
    match prioDisfixes H prio with
    | .ok ds =>
      let i : IfaceInfo := { tid := id, priority := ds, always := always, impls := collect Γ c id }
      if i.prioOk then c.setIface i else (c, some .conflict)
    | .panic p => (c, some p)
    | _ => (c, some .index)

/-- codec.go:154-203 `RegisterInterface` of the interface type `id`, with `Priority` and `AlwaysDisambiguate` (no
options: the empty list and false).  The check of the seal and the rest are two critical sections, see
`Lock.lean`. -/
def registerInterface (c : Codec) (id : TId) (prio : List Bytes) (always : Bool) : Codec × Option Pan :=
  if c.sealed then (c, some .sealed) else addInterface Γ H c id prio always

/-- codec.go:212-242: `RegisterConcrete` after the check of the seal. -/
def addConcrete (c : Codec) (t : Ty) (name : Bytes) : Codec × Option Pan :=
  match t with
  | .ptr (.ptr _) => (c, some .illTyped)
  | _ =>
    if Γ.isIface t.deref then (c, some .illTyped)
    else
      match getInfo Γ c t.deref with
      | .ok _ =>
        match nameToDisfix H name with
        | .ok dp =>
          let ci : ConcInfo := { tid := t.deref, ptrPref := t.isPtr, name := name, disamb := dp.1, prefx := dp.2 }
          let r := addToIfaces Γ ci c.ifaces
          if r.2 then { c with ifaces := r.1 }.setConc ci else ({ c with ifaces := r.1 }, some .conflict)
        | .panic p => (c, some p)
        | _ => (c, some .index)
      | .panic p => (c, some p)
      | _ => (c, some .illTyped)

/-- codec.go:209-243 `RegisterConcrete(o, name, copts)` where `o` has the dynamic type `t`
(`newTypeInfoUnregistered` panics on untagged floats, codec.go:609, 565). -/
def registerConcrete (c : Codec) (t : Ty) (name : Bytes) : Codec × Option Pan :=
  if c.sealed then (c, some .sealed) else addConcrete Γ H c t name

/-- codec.go:245-251 `Seal`. -/
def Codec.seal (c : Codec) : Codec := { c with sealed := true }

/-- codec.go:366-390 `getTypeInfoWlock`, as called for every type Marshal and Unmarshal come across: its effect on
the codec (an unregistered interface is an ordinary error, without effect). -/
def useType (c : Codec) (id : TId) : Codec × Option Pan :=
  if c.known id || Γ.isIface id then (c, none)
  else
    match getInfo Γ c id with
    | .panic p => (c, some p)
    | _ => ({ c with plain := id :: c.plain }, none)

/-- The operations that change a codec. -/
inductive Op
  | iface (id : TId) (prio : List Bytes) (always : Bool)
  | conc (t : Ty) (name : Bytes)
  | use (id : TId)
  | doSeal
  deriving DecidableEq, Repr

/-- One call. -/
def Codec.step (c : Codec) : Op → Codec × Option Pan
  | .iface id prio always => registerInterface Γ H c id prio always
  | .conc t name => registerConcrete Γ H c t name
  | .use id => useType Γ c id
  | .doSeal => (c.seal, none)

/-- A history of calls none of which panics. -/
def Codec.run (c : Codec) : List Op → Option Codec
  | [] => some c
  | op :: ops =>
    match c.step Γ H op with
    | (c', none) => c'.run ops
    | (_, some _) => none

/-- A history of calls whose panics are recovered. -/
def Codec.runAll (c : Codec) : List Op → Codec
  | [] => c
  | op :: ops => (c.step Γ H op).1.runAll ops

end

end Amino
