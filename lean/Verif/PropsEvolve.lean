import Verif.PropsWire

/-!
# C75: messages written before fields were added
-/

namespace Amino
open Spec

variable {Γ : Prog} {c : Codec} {S : TId → FOpts → Prop}

/-- What a reader finds in a field that the message does not contain: the default value if it is a field of the
message (`absent`: nil pointers, Go's zero values, and 1970 for times), and what was there, in a new variable Go's zero
value, if it is not (unexported or tagged `json:"-"`). -/
def Spec.unset (Γ : Prog) (f : Field) : Val :=
  if f.visible then absent Γ f.ty else
    match f.ty with
    | .ptr _ => .nil
    | .base id => Γ.zero id

theorem decFields_unset {rd : Ty → Val → FOpts → Bool → Bytes → DRes Val} {gs : List Field}
    (hi : ∀ g ∈ gs, g.visible = true → getInfo Γ c g.ty.deref = .ok ()) (num last n : Nat) :
    decFields Γ c rd gs (gs.map fun g => Γ.zeroTy g.ty) num last [] n = .ok n (gs.map (unset Γ)) := by
  induction gs generalizing num with
  | nil => simp [decFields, consumeRest]
  | cons g gs ih =>
    have ih := fun num => ih (fun x hx => hi x (by simp [hx])) num
    simp only [List.map_cons, decFields]
    cases hv : g.visible with
    | false =>
      simp only [Bool.not_false, if_true, ih, DRes.map_ok, unset, hv, Bool.false_eq_true, if_false]
      cases g.ty <;> rfl
    | true =>
      simp only [Bool.not_true, Bool.false_eq_true, if_false, infoThen, hi g (by simp) hv, List.length_nil, if_true, ih,
        DRes.map_ok, unset, hv, absent_eq]

theorem tailDec_unset {rd : Ty → Val → FOpts → Bool → Bytes → DRes Val} {gs : List Field} {N : Nat}
    (hi : ∀ g ∈ gs, g.visible = true → getInfo Γ c g.ty.deref = .ok ()) :
    TailDec Γ c rd gs (gs.map fun g => Γ.zeroTy g.ty) (gs.map (unset Γ)) N [] :=
  ⟨.inl rfl, fun last n _ => decFields_unset hi N last n⟩

/-- C75: a message of a struct type is read by a newer version of the type, with any fields appended, as the same fields
followed by the appended ones unset. -/
theorem C75_olderMessage (hU : Universe Γ c S) (hZ : ZeroOk Γ) (hT : Γ.Typed) (hum : UserTotal Γ) (hp4 : Prefix4 c)
    {old new : TId} {fs gs : List Field} {v : Val} {bz : Bytes} {f g : Nat}
    (hso : Γ.shape old = .struct fs) (hsn : Γ.shape new = .struct (fs ++ gs)) (hmo : Γ.marsh old = none)
    (hun : Γ.unmarsh new = none) (hSo : S old { fnum := 1 }) (hpre : prefixOf c old = prefixOf c new)
    (hin : getInfo Γ c new = .ok ()) (hig : ∀ x ∈ gs, x.visible = true → getInfo Γ c x.ty.deref = .ok ())
    (ht : HasTy Γ (.base old) v) (h : marshalBare Γ c f (.base old) v = .ok bz)
    (hl : bz.length < 2 ^ 63) (hg : 2 * f ≤ g) :
    ∃ ws, roundTrip Γ c f (.base old) v = some (.struct ws) ∧
      unmarshalBare Γ c g (.base new) (Γ.zero new) bz = .ok (.struct (ws ++ gs.map (unset Γ))) := by
  obtain ⟨w, hw, _, _⟩ := C11_roundTrip hU hZ hT hum hp4 (t := .base old) (t' := .base old) (structOrRep_struct hso) hSo ht h
    hl hg rfl
  obtain ⟨k, vs, b, rfl, hp, hft, hi, he, rfl⟩ := marshalBare_fields hso hmo ht h
  rw [List.length_append] at hl
  have hw' := hw
  unfold roundTrip at hw'
  rw [hp] at hw'
  obtain ⟨ws, hn, rfl⟩ := norm_struct hso hmo hw'
  refine ⟨ws, hw, ?_⟩
  have hd : dec Γ c g (.base new) (Γ.zero new) { fnum := 1 } true b = .ok b.length (.struct (ws ++ gs.map (unset Γ))) := by
    obtain ⟨g, rfl⟩ : ∃ k, g = k + 1 := ⟨g - 1, by omega⟩
    unfold dec decBody
    rw [if_neg (by simp [Ty.isPtr])]
    simp only [Ty.deref, Prog.derefPrior, hun]
    unfold decShape
    rw [hsn]
    simp only [unframe, if_true]
    rw [hZ.struct hsn]
    simp only
    have hp : RecPtr Γ (dec Γ c g) := by
      intro t fo bare bz hn
      cases g with
      | zero => simp [dec]
      | succ g => exact decBody_ptr hn fo bare bz
    have := decFields_rt_app (n := 0) (tail := []) (enc_dec hU hZ hT k g (by omega)) hp (enc_lead hU hT k)
      (dec_listRT hU hZ hT (by omega)) hT.zero hU hZ (hU.struct hSo hso hmo) hft he (by omega) (Nat.le_refl _)
      (tailDec_unset hig) hn
    simp only [List.append_nil] at this
    rw [List.map_append, this]
    simp [wrapTy]
  change prefixOf c old = prefixOf c new at hpre
  simp only [Ty.deref]
  rw [hpre]
  have := unmarshalBare_struct (g := g) (t := .base new) (p := Γ.zero new) (b := b) (structOrRep_struct hsn) hp4 hin
  unfold prefixOf
  refine this.trans ?_
  unfold decodeAll
  rw [hd]
  simp

/-- `Sub{5, true}` read as `Sub2`. -/
example : unmarshalBare Demo.prog Demo.codecFoo 10 (.base Demo.sub2T) (Demo.prog.zero Demo.sub2T) [8, 5, 16, 1] =
      .ok (.struct [.int 5, .bool true, .str []]) := by
  obtain ⟨ws, h1, h2⟩ := C75_olderMessage Demo.univ_foo Demo.prog_zero Demo.prog_typed Demo.user_total Demo.prefix4_foo
    (old := Demo.subT) (new := Demo.sub2T) (fs := [{ ty := .base Demo.int32T }, { ty := .base Demo.boolT }])
    (gs := [{ ty := .base Demo.stringT }]) (v := .struct [.int 5, .bool true]) (f := 5) (g := 10) (bz := [8, 5, 16, 1])
    rfl rfl rfl rfl (show Demo.supported Demo.subT = true by decide) (by decide) (by decide) (by decide)
    (by refine .struct (fs := _) rfl rfl ?_; simp; exact ⟨.int rfl (by decide), .bool rfl⟩) (by decide +kernel) (by decide)
    (by omega)
  rw [show roundTrip Demo.prog Demo.codecFoo 5 (.base Demo.subT) (.struct [.int 5, .bool true]) =
    some (.struct [.int 5, .bool true]) by decide +kernel] at h1
  cases h1
  exact h2

/-- C75: an appended pointer to a time is not nil in an old message: it points to 1970. Appended pointers to any other
type are nil. -/
theorem C75_pointers {f : Field} {t : Ty} (hf : f.ty = .ptr t) (hv : f.visible = true) :
    unset Γ f = if Γ.shape t.deref = .time then .ptr (refs t (.time 0 0)) else .nil := by
  unfold unset absent
  rw [hv, hf]
  simp only [if_true, Ty.deref]
  cases hs : Γ.shape t.deref <;> simp [refs]

end Amino
