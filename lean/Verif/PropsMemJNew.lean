import Verif.MemJSim3
import Verif.PropsMemJDec
import Verif.PropsMemEnc
import Verif.PropsJson

/-!
# C105: UnmarshalJSON builds in memory what the text says
-/

namespace Amino
open Spec

section
variable {Γ : MProg} {c : Codec} {J : MJLib} {fuel : Nat} {h : Mem} {t : Ty} {l : Loc} {w : MVal} {p : Val} {bz : Bytes}

/-- C105: UnmarshalJSON into a variable without references has the outcome it has for the tree, and on success the variable
unfolds to the tree that is the result. -/
theorem C105_outcome (hm : MethodsLocalJ Γ J) (hf : MethodsFollowJ Γ J) (hz : ZeroPlain Γ.toProg) (hg : h.get l = some w)
    (hu : Unfolds Γ.toProg h t w p) (hn : NoRefs w) :
    SameAs Γ.toProg t l (mUnmarshalJSON Γ c J fuel t l bz h) (unmarshalJSON Γ.toProg c J.toJLib fuel t p bz) :=
  jsim_sameAs.mpr (mUnmarshalJSON_sim hm hf hz hg hu hn)

/-- C105: whatever the outcome, the variables that can be reached afterwards are new, and all old ones but the target are
unchanged. -/
theorem C105_separate (hm : MethodsLocalJ Γ J) (hg : h.get l = some w) (hn : NoRefs w) :
    (∀ a, Reached (mUnmarshalJSON Γ c J fuel t l bz h).2 l a → h.length ≤ a) ∧
    ∀ a, a < h.length → a ≠ l.addr → (mUnmarshalJSON Γ c J fuel t l bz h).2[a]? = h[a]? := by
  have hs : Steps (· = l) h (mUnmarshalJSON Γ c J fuel t l bz h).2 := fun R hi hw => mUnmarshalJSON_inv hm hi (hw l rfl)
  have hi := hs.one hg hn
  constructor
  · intro a ha
    induction ha with
    | ref hx hr => exact fresh_refs hi rfl hx _ hr
    | more _ hx hr ih => exact fresh_refF hi _ _ _ ih hx hr
  · intro a ha hne
    exact fresh_cell hi ha fun m hm => by subst hm; exact fun he => hne he.symm

/-- C105 for `var x T; UnmarshalJSON(bz, &x)`. -/
theorem C105_new (hm : MethodsLocalJ Γ J) (hf : MethodsFollowJ Γ J) (hz : ZeroPlain Γ.toProg) {v : Val}
    (hd : unmarshalJSON Γ.toProg c J.toJLib fuel t (zeroOf Γ.toProg t) bz = .ok v) :
    let r := mUnmarshalJSON Γ c J fuel t ⟨h.length, []⟩ bz (h ++ [zeroM Γ t])
    r.1 = .ok () ∧ (∃ w, r.2[h.length]? = some w ∧ Unfolds Γ.toProg r.2 t w v) ∧
      (∀ a, Reached r.2 ⟨h.length, []⟩ a → h.length < a) ∧ ∀ a, a < h.length → r.2[a]? = h[a]? := by
  intro r
  obtain ⟨g0, g1, g2⟩ := newVar hz h t
  have h1 := C105_outcome (c := c) (fuel := fuel) (bz := bz) hm hf hz g0 g1 g2
  rw [← zeroOf_eq, hd] at h1
  obtain ⟨h2, h3⟩ := C105_separate (c := c) (fuel := fuel) (bz := bz) (t := t) hm g0 g2
  change SameAs Γ.toProg t ⟨h.length, []⟩ r (.ok v) at h1
  change ∀ a, Reached r.2 ⟨h.length, []⟩ a → _ at h2
  change ∀ a, a < _ → a ≠ h.length → r.2[a]? = _ at h3
  have hlen : (h ++ [zeroM Γ t]).length = h.length + 1 := by simp
  rw [hlen] at h2 h3
  obtain ⟨d, h'⟩ := r
  unfold SameAs at h1
  cases d <;> simp only at h1
  obtain ⟨w, hw, hu⟩ := h1
  refine ⟨rfl, ⟨w, by rw [← get_cell]; exact hw, hu⟩, fun a ha => h2 a ha, fun a ha => ?_⟩
  rw [h3 a (by omega) (by omega), List.getElem?_append_left ha]

/-- C105 with C46 and C103: a value in memory, with any sharing, is written as JSON, and the text is read into a new variable.
Then that variable unfolds to the normalised tree and is in new memory. -/
theorem C105_roundTrip {Δ : EProg} {K : EJLib} {S : TId → Prop} {h' : Mem} (hΔ : Δ.toProg = Γ.toProg) (hK : K.toJLib = J.toJLib) (hm : MethodsLocalJ Γ J)
    (hf : MethodsFollowJ Γ J) (hz : ZeroPlain Γ.toProg) (hM : MarshFollow Δ) (hMJ : MarshJFollow Δ.toProg K)
    (hU : JUniv Γ.toProg c J.toJLib false S) (hL : LibOk J.toJLib) (hT : Γ.Typed) (hZ : ZeroOk Γ.toProg) (hum : UserTotal Γ.toProg)
    {w : MVal} {v : Val} {bz : Bytes} {g : Nat} (hS : JOk Γ.toProg S t) (hh : Unfolds Γ.toProg h' t w v) (ht : HasTy Γ.toProg t v)
    (hN : ∀ ci, c.conc? t.deref = some ci → PlainName ci.name) (he : mMarshalJSON Δ c K fuel h' (some (t, w)) = .ok bz) (hg : fuel ≤ g) :
    ∃ v', jnorm Γ.toProg c fuel t v = some v' ∧
      let r := mUnmarshalJSON Γ c J g t ⟨h.length, []⟩ bz (h ++ [zeroM Γ t])
      r.1 = .ok () ∧ (∃ w', r.2[h.length]? = some w' ∧ Unfolds Γ.toProg r.2 t w' v') ∧
        (∀ a, Reached r.2 ⟨h.length, []⟩ a → h.length < a) ∧ ∀ a, a < h.length → r.2[a]? = h[a]? := by
  rw [C103_json hM hMJ (by rw [hΔ]; exact hz) (by rw [hΔ]; exact hh), hΔ, hK] at he
  obtain ⟨v', h1, _, h2⟩ := C46_json_roundtrip_partial hU hL hT hZ hum hS ht hN he
  exact ⟨v', h1, C105_new hm hf hz (h2 g hg)⟩

end

/-! ## The hypotheses can be met -/

namespace JDemo

/-- The program of `JDemo`, where `UnmarshalAmino` of `Cents` sets its field. -/
def fprog : MProg := { prog with
  unmarshM := fun _ r l h =>
    match r with
    | .prim (.int i) => (.ok (), h.put l (.struct [.prim (.int i)]))
    | _ => (.panic .illTyped, h) }

theorem fprog_local : MethodsLocalJ fprog mlib where
  amino R id r l h hi hw hf := by
    simp only [fprog]
    split
    · exact hi.put hw (jfine_struct (R.jfine_prim _))
    · exact hi
  json _ _ _ _ _ hi _ := hi

theorem fprog_follow : MethodsFollowJ fprog mlib where
  amino id rid um hum h l w r p rv hg _ _ hr _ := by
    have hid : id = centsT ∧ rid = int64T ∧ um = centsIn := by
      have : (if id = centsT then some (int64T, centsIn) else none) = some (rid, um) := hum
      split at this
      · cases this; exact ⟨by assumption, rfl, rfl⟩
      · cases this
    obtain ⟨rfl, rfl, rfl⟩ := hid
    have hrp : r = .prim rv := by
      generalize hb : (Ty.base int64T) = t at hr
      cases hr with
      | prim hs => rfl
      | bytes hs _ => cases hb; cases hs
      | nilPtr => cases hb
      | ptr _ _ => cases hb
      | nil hs => cases hb; cases hs
      | byteSlice hs _ _ _ => cases hb; cases hs
      | slice hs _ _ _ _ => cases hb; cases hs
      | arr hs _ _ => cases hb; cases hs
      | struct hs _ => cases hb; cases hs
      | iface hs _ => cases hb; cases hs
      | map hs _ _ => cases hb; cases hs
    subst hrp
    cases rv with
    | int i =>
      refine ⟨_, get_put_self hg, ?_⟩
      exact .struct (fs := [{ ty := .base int64T, visible := false }]) rfl (.cons (.prim rfl) .nil)
    | _ => exact rfl
  json id um hj := by cases hj

theorem fprog_zero : ZeroPlain fprog.toProg := by
  intro id
  match id with
  | 0 | 1 | 2 | 8 | 9 | 15 => exact .prim rfl
  | 3 | 5 | 6 | 11 => exact .nil rfl
  | 4 =>
    refine .struct (fs := recFields) rfl ?_
    exact .cons (o := []) (r := []) (.prim rfl) <| .cons (o := []) (r := []) (.prim rfl) <| .cons (o := []) (r := []) (.nil rfl) <|
      .cons (o := []) (r := []) (.nil rfl) <| .cons (o := []) (r := []) (.nil rfl) <| .cons (o := []) (r := []) (.prim rfl) <|
      .cons (o := []) (r := []) .nilPtr <| .cons (o := []) (r := []) (.nil rfl) <|
      .cons (o := []) (r := []) (.arr (n := 2) (e := .base int64T) rfl rfl (.cons (o := []) (r := []) (.prim rfl) (.cons (o := []) (r := []) (.prim rfl) .nil))) <|
      .cons (o := []) (r := []) (.struct (fs := [{ ty := .base int64T, visible := false }]) rfl (.cons (o := []) (r := []) (.prim rfl) .nil)) <|
      .cons (o := []) (r := []) (.prim rfl) <| .cons (o := []) (r := []) (.prim rfl) .nil
  | 7 => exact .struct (fs := [{ ty := .base int64T, opts := { jsonName := [0x4e] } }]) rfl (.cons (o := []) (r := []) (.prim rfl) .nil)
  | 10 => exact .struct (fs := flFields) rfl (.cons (o := []) (r := []) (.prim rfl) .nil)
  | 12 => exact .struct (fs := [{ ty := .base int64T, visible := false }]) rfl (.cons (o := []) (r := []) (.prim rfl) .nil)
  | 13 => exact .struct (fs := [{ ty := .base stringT, opts := { jsonName := [0x42] } }]) rfl (.cons (o := []) (r := []) (.prim rfl) .nil)
  | 14 => exact .arr (n := 2) (e := .base int64T) rfl rfl (.cons (o := []) (r := []) (.prim rfl) (.cons (o := []) (r := []) (.prim rfl) .nil))
  | n + 16 => exact .prim (v := .bool false) rfl

/-- The text of `rec1`, read into a new variable. -/
example := C105_new (h := []) (c := codec) (fuel := 5) (bz := rec1Text) (t := .base recT) (v := rec1Back) fprog_local fprog_follow fprog_zero
  (by decide +kernel)

/-- The new variables: the bytes, the value of the map, the map, the struct in the interface, the integer, the representation of
`Cents`. -/
example : (mUnmarshalJSON fprog codec mlib 5 (.base recT) ⟨0, []⟩ rec1Text [zeroM fprog (.base recT)]).2 =
    [.struct [.prim (.int (-5)), .prim (.str []), .slice 1 0 2, .map 3, .iface (.ptr (.base fooT)) (.ptr ⟨4, []⟩), .prim (.time 0 0),
      .ptr ⟨5, []⟩, .nil, .arr [.prim (.int 1), .prim (.int 2)], .struct [.prim (.int 250)], .prim (.bool true), .prim (.int (-1))],
     .prim (.bytes [1, 2]), .prim (.int 7), .arr [.prim (.str [0x6b]), .prim (.int 7)], .struct [.prim (.int 9)], .prim (.int 3),
     .prim (.int 250)] := by decide +kernel

/-- C105_outcome and C105_separate for a variable in the middle of others, with an int set. -/
example (bz : Bytes) : SameAs prog (.base fooT) ⟨1, [0]⟩
    (mUnmarshalJSON fprog codec mlib 5 (.base fooT) ⟨1, [0]⟩ bz [.ptr ⟨1, []⟩, .arr [.struct [.prim (.int 4)], .nil]])
    (unmarshalJSON prog codec lib 5 (.base fooT) (.struct [.int 4]) bz) :=
  C105_outcome fprog_local fprog_follow fprog_zero (w := .struct [.prim (.int 4)]) rfl
    (.struct (fs := [{ ty := .base int64T, opts := { jsonName := [0x4e] } }]) rfl (.cons (.prim rfl) .nil))
    (fun a h => by cases h with | struct hm h => rw [List.mem_singleton] at hm; subst hm; cases h)

/-- `rec1` in memory: the pointer and the interface lead into the same variable. -/
def rmem : Mem :=
  [.prim (.bytes [0, 1, 2, 3]), .arr [.prim (.str [0x6b]), .prim (.int 7)], .struct [.prim (.int 9)], .prim (.int 3)]

def rec1M : MVal :=
  .struct [.prim (.int (-5)), .prim (.str []), .slice 0 1 2, .map 1, .iface (.ptr (.base fooT)) (.ptr ⟨2, []⟩), .prim (.time 0 0),
    .ptr ⟨3, []⟩, .slice 1 0 0, .arr [.prim (.int 1), .prim (.int 2)], .struct [.prim (.int 250)], .prim (.bool true), .prim (.int (-1))]

theorem rec1M_unfolds : Unfolds prog rmem (.base recT) rec1M rec1 := by
  refine .struct (fs := recFields) rfl ?_
  exact .cons (.prim rfl) <| .cons (.prim rfl) <| .cons (.byteSlice (e := .base byteT) (b := [0, 1, 2, 3]) rfl rfl rfl (by decide)) <|
    .cons (.map (e := .base int64T) (ws := [.prim (.str [0x6b]), .prim (.int 7)]) rfl rfl (.cons (.prim rfl) .nil)) <|
    .cons (.iface rfl (.ptr (w := .struct [.prim (.int 9)]) rfl
      (.struct (fs := [{ ty := .base int64T, opts := { jsonName := [0x4e] } }]) rfl (.cons (.prim rfl) .nil)))) <|
    .cons (.prim rfl) <| .cons (.ptr (w := .prim (.int 3)) rfl (.prim rfl)) <|
    .cons (.slice (e := .base int64T) (ws := [.prim (.str [0x6b]), .prim (.int 7)]) rfl rfl rfl (by decide) .nil) <|
    .cons (.arr (n := 2) (e := .base int64T) rfl rfl (.cons (.prim rfl) (.cons (.prim rfl) .nil))) <|
    .cons (.struct (fs := [{ ty := .base int64T, visible := false }]) rfl (.cons (.prim rfl) .nil)) <| .cons (.prim rfl) <|
    .cons (.prim rfl) .nil

def feprog : EProg := { prog with
  marshM := fun _ h w =>
    match w with
    | .struct [.prim (.int i)] => .ok (.prim (.int i), h)
    | _ => .panic .illTyped }

def felib : EJLib := { lib with marshJM := fun _ _ _ _ => .err .json }

theorem feprog_follow : MarshFollow feprog := by
  intro id rid m hm h w v hu
  have hid : id = centsT ∧ rid = int64T ∧ m = centsOut := by
    have : (if id = centsT then some (int64T, centsOut) else none) = some (rid, m) := hm
    split at this
    · cases this; exact ⟨by assumption, rfl, rfl⟩
    · cases this
  obtain ⟨rfl, rfl, rfl⟩ := hid
  generalize hb : (Ty.base centsT) = t at hu
  cases hu with
  | prim hs => cases hb; cases hs
  | bytes hs _ => cases hb; cases hs
  | nilPtr => cases hb
  | ptr _ _ => cases hb
  | nil hs => cases hb; cases hs
  | byteSlice hs _ _ _ => cases hb; cases hs
  | slice hs _ _ _ _ => cases hb; cases hs
  | arr hs _ _ => cases hb; cases hs
  | iface hs _ => cases hb; cases hs
  | map hs _ _ => cases hb; cases hs
  | struct hs hl =>
    cases hb; cases hs
    cases hl with
    | cons hv hl =>
      cases hl
      generalize hb : (Ty.base int64T) = t at hv
      cases hv with
      | prim hs =>
        rename_i x _
        cases x with
        | int i => exact .prim hs
        | _ => exact rfl
      | bytes hs _ => cases hb; cases hs
      | nilPtr => cases hb
      | ptr _ _ => cases hb
      | nil hs => cases hb; cases hs
      | byteSlice hs _ _ _ => cases hb; cases hs
      | slice hs _ _ _ _ => cases hb; cases hs
      | arr hs _ _ => cases hb; cases hs
      | struct hs _ => cases hb; cases hs
      | iface hs _ => cases hb; cases hs
      | map hs _ _ => cases hb; cases hs

theorem felib_follow : MarshJFollow feprog.toProg felib := by
  intro id addr m hm; cases hm

/-- `rec1` in memory, written and read back into a new variable. -/
example := C105_roundTrip (h := rmem) (Γ := fprog) (Δ := feprog) (K := felib) (J := mlib) (fuel := 5) (g := 5) rfl rfl fprog_local fprog_follow fprog_zero
  feprog_follow felib_follow (univ false) libOk typed zeroOk user_total (base_ok (by decide) (by decide)) rec1M_unfolds rec1_typed
  (by intro ci h; rw [(conc_foo h).1]; exact plain_f)
  (by rw [C103_json feprog_follow felib_follow fprog_zero rec1M_unfolds]; exact rec1_marshals) (Nat.le_refl 5)

/-! ## Targets with references -/

/-- A `Rec` whose `P` points to its own `A`. -/
def ownMem : Mem := [recAt .nil (.ptr ⟨0, [0]⟩)]

/-- `{"A":"1","P":"5"}` -/
def ownText : Bytes := [0x7b, 0x22, 0x41, 0x22, 0x3a, 0x22, 0x31, 0x22, 0x2c, 0x22, 0x50, 0x22, 0x3a, 0x22, 0x35, 0x22, 0x7d]

end JDemo

/-- C105 needs a target without references: if `P` points to `A`, then reading `{"A":"1","P":"5"}` leaves 5 in `A`. -/
theorem C105_needs_noRefs :
    (mUnmarshalJSON JDemo.fprog JDemo.codec JDemo.mlib 5 (.base JDemo.recT) ⟨0, []⟩ JDemo.ownText JDemo.ownMem).1 = .ok () ∧
    ((mUnmarshalJSON JDemo.fprog JDemo.codec JDemo.mlib 5 (.base JDemo.recT) ⟨0, []⟩ JDemo.ownText JDemo.ownMem).2.get ⟨0, [0]⟩ =
      some (.prim (.int 5))) := by
  constructor <;> decide +kernel

end Amino
