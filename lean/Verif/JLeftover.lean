import Verif.JsonDecode

/-!
# What the variable holds after a call of UnmarshalJSON

`jleft Γ c J spoil fuel t prior fo bz` is the contents of `rv` when `cdc.decodeReflectJSON(bz, info, rv, fopts)`
(modelled by `jdec`) returns, with or without an error.  Values are trees: that a pointed-to variable may be shared
is not modelled.  The contents after a panic are not meant to be used.  `spoil id p b` is what is left in a
variable of type `id` holding `p` by a failing `UnmarshalJSON` or `UnmarshalAmino` method of the type, or by the
standard library's failing attempt to read a time or a byte slice from `b`.
-/

namespace Amino

section
variable (Γ : Prog) (c : Codec) (J : JLib) (spoil : TId → Val → Bytes → Val)
  (rec : Ty → Val → FOpts → Bytes → Res Val) (lft : Ty → Val → FOpts → Bytes → Val)

/-- json-decode.go:173-234 `decodeReflectJSONInterface`: the interface is first set to nil (line 198); if the
concrete value cannot be decoded, it is set to what has been read of it (line 224, "Helps with debugging"). -/
def jleftIface (id : TId) (fo : FOpts) (bz : Bytes) : Val :=
  match decodeInterfaceJSON bz with
  | .ok nd =>
    match c.name? nd.1 with
    | none => .nil
    | some ci =>
      match rec (.base ci.tid) (Γ.zero ci.tid) fo nd.2 with
      | .ok v => if Γ.implements ci.dynTy id then .iface ci.dynTy (wrapTy ci.dynTy v) else .nil
      | .err _ =>
        if Γ.implements ci.dynTy id then
          .iface ci.dynTy (wrapTy ci.dynTy (lft (.base ci.tid) (Γ.zero ci.tid) fo nd.2))
        else .nil
      | _ => .nil
  | _ => .nil

/-- json-decode.go:283-290: the elements are decoded in place, up to the failing one. -/
def jleftArr (e : Ty) (fo : FOpts) : List Val → List Bytes → List Val
  | p :: ps, b :: bs =>
    match rec e p fo b with
    | .ok v => v :: jleftArr e fo ps bs
    | _ => lft e p fo b :: ps
  | _, _ => []

/-- json-decode.go:386-422: the fields are decoded in place, up to the failing one. -/
def jleftFields (fo : FOpts) (m : List (Bytes × Bytes)) : List Field → List Val → List Val
  | f :: fs, p :: ps =>
    if f.visible then
      match getInfo Γ c f.ty.deref with
      | .ok _ =>
        match jdecField Γ rec fo m f p with
        | .ok v => v :: jleftFields fo m fs ps
        | _ =>
          (match m.lookup f.opts.jsonName with
            | some b => lft f.ty p fo b
            | none => p) :: ps
      | _ => p :: ps
    else p :: jleftFields fo m fs ps
  | _, ps => ps

/-- json-decode.go:83-149: the switch on the kind.  A byte array is copied to before the length error is returned
(lines 257-262); slices and maps are set in one step. -/
def jleftShape (id : TId) (prior : Val) (fo : FOpts) (bz : Bytes) : Val :=
  match Γ.shape id with
  | .iface => jleftIface Γ c rec lft id fo bz
  | .array n e =>
    if Γ.isByteKind e then
      match jdecByteArr Γ n e bz with
      | .ok v => v
      | _ =>
        match unmBytes [] bz, prior with
        | some b, .bytes old => .bytes ((b ++ old.drop b.length).take n)
        | _, v => v
    else
      match getInfo Γ c e.deref, unmRaws bz with
      | .ok _, some raws =>
        if raws.length ≠ n then prior
        else
          match prior with
          | .list ps => .list (jleftArr rec lft e fo ps raws)
          | v => v
      | _, _ => prior
  | .slice e =>
    match jdecShape Γ c J rec id prior fo bz with
    | .ok v => v
    | _ => if Γ.isByteKind e then spoil id prior bz else prior
  | .struct fs =>
    match unmRawMap bz with
    | some m =>
      match prior with
      | .struct ps => .struct (jleftFields Γ c rec lft fo m fs ps)
      | v => v
    | none => prior
  | .time =>
    match jdecShape Γ c J rec id prior fo bz with
    | .ok v => v
    | _ =>
      if 2 ≤ bz.length ∧ bz.head? = some 0x22 ∧ bz.getLast? = some 0x22 ∧ bz[bz.length - 2]? = some 0x5a then spoil id prior bz
      else prior
  | _ =>
    match jdecShape Γ c J rec id prior fo bz with
    | .ok v => v
    | _ => prior

/-- json-decode.go:40-81 after dereferencing and constructing pointers. -/
def jleftBase (id : TId) (prior : Val) (fo : FOpts) (bz : Bytes) : Val :=
  if Γ.shape id = .time then jleftShape Γ c J spoil rec lft id prior fo bz
  else
    match J.unmarsh id with
    | some um =>
      match um prior bz with
      | .ok v => v
      | _ => spoil id prior bz
    | none =>
      match Γ.unmarsh id with
      | some (rid, um) =>
        match getInfo Γ c rid, rec (.base rid) (Γ.zero rid) fo bz with
        | .ok _, .ok r =>
          match um prior r with
          | .ok v => v
          | _ => spoil id prior bz
        | _, _ => prior
      | none => jleftShape Γ c J spoil rec lft id prior fo bz

end

section
variable (Γ : Prog) (c : Codec) (J : JLib) (spoil : TId → Val → Bytes → Val)

/-- json-decode.go:18-153 `decodeReflectJSON`.  `null` sets the variable to the zero value; otherwise nil pointers are
replaced by pointers to new variables before anything is read (lines 41-50). -/
def jleft : Nat → Ty → Val → FOpts → Bytes → Val
  | 0, _, prior, _, _ => prior
  | fuel + 1, t, prior, fo, bz =>
    if Γ.isIface t.deref && t.isPtr then prior
    else if bz = jNull then Γ.zeroTy t
    else wrapTy t (jleftBase Γ c J spoil (jdec Γ c J fuel) (jleft fuel) t.deref (Γ.derefPrior t prior) fo bz)

/-- amino.go:539-568 `UnmarshalJSON` into a variable of type `t` holding `prior`: what the variable holds
afterwards. -/
def leftJSON (fuel : Nat) (t : Ty) (prior : Val) (bz : Bytes) : Val :=
  if bz = [] then prior
  else
    match getInfo Γ c t.deref with
    | .ok _ =>
      match c.conc? t.deref with
      | some ci =>
        match decodeInterfaceJSON bz with
        | .ok nd => if nd.1 ≠ ci.name then prior else jleft Γ c J spoil fuel t prior {} nd.2
        | _ => prior
      | none => jleft Γ c J spoil fuel t prior {} bz
    | _ => prior

end

end Amino
