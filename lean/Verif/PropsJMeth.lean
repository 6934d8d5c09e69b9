import Verif.SpecJMeth
import Verif.PropsJson

/-! # Property C110: the JSON round trip of types with MarshalJSON and UnmarshalJSON -/

namespace Amino
open Spec

variable {Γ : Prog} {c : Codec} {J : JLib} {S : TId → Prop} {fl : Bool} {N : TId → Option (Val → Val)}

theorem jencShape_bare (rec : Bool → Ty → Val → FOpts → Res Bytes) (a : Bool) (id : TId) (v : Val) (fo : FOpts) :
    jencShape Γ c (bare J) rec a id v fo = jencShape Γ c J rec a id v fo := rfl

theorem jdecShape_bare (rec : Ty → Val → FOpts → Bytes → Res Val) (id : TId) (p : Val) (fo : FOpts) (bz : Bytes) :
    jdecShape Γ c (bare J) rec id p fo bz = jdecShape Γ c J rec id p fo bz := rfl

theorem Spec.LibOk.bare (h : LibOk J) : LibOk (Spec.bare J) := ⟨h.time, h.f32, h.f64⟩

theorem jbaseM_rt (hU : JUniv Γ c (bare J) fl S) (hM : JMethods Γ J S N) (hL : LibOk J) (hT : Γ.Typed) (hZ : ZeroOk Γ)
    (hum : UserTotal Γ)
    {f g : Nat} (h : RecJ Γ S fl (jenc Γ c J f) (isNullM Γ N f) (jnormM Γ N c f) (jdec Γ c J g))
    {a : Bool} {t : Ty} {v dv : Val} {fo : FOpts} {b : Bytes} (hS : JOk Γ S t) (ht : HasTy Γ t v) (hN : N t.deref = none)
    (hd : derefVal t v = some dv) (he : jencBase Γ c J (jenc Γ c J f) a t.deref dv fo = .ok b) :
    JText b ∧ (b = jNull ↔ isNullM Γ N (f + 1) t v = true) ∧
    (isNullM Γ N (f + 1) t v = false → ∃ w, jnormBase Γ c (jnormM Γ N c f) t.deref dv = some w ∧
      HasTy Γ (.base t.deref) w ∧ ∀ fo', FoOk fl fo' →
        jdecBase Γ c J (jdec Γ c J g) t.deref (Γ.zero t.deref) fo' b = .ok w) := by
  have htd := hasTy_derefVal ht hd
  have hnl : isNullM Γ N (f + 1) t v =
      match Γ.marsh t.deref with
      | some (rid, m) => match m dv with | .ok r => isNullM Γ N f (.base rid) r | _ => false
      | none => shapeNull Γ t.deref dv := by
    rw [isNullM, pointee_eq, hd]
    simp only [hN]
    rfl
  have hnone : ∀ (hm : Γ.marsh t.deref = none) (_ : jencShape Γ c J (jenc Γ c J f) a t.deref dv fo = .ok b)
      (_ : ∀ fo', jdecBase Γ c J (jdec Γ c J g) t.deref (Γ.zero t.deref) fo' b =
        jdecShape Γ c J (jdec Γ c J g) t.deref (Γ.zero t.deref) fo' b),
      JText b ∧ (b = jNull ↔ isNullM Γ N (f + 1) t v = true) ∧
      (isNullM Γ N (f + 1) t v = false → ∃ w, jnormBase Γ c (jnormM Γ N c f) t.deref dv = some w ∧
        HasTy Γ (.base t.deref) w ∧ ∀ fo', FoOk fl fo' →
          jdecBase Γ c J (jdec Γ c J g) t.deref (Γ.zero t.deref) fo' b = .ok w) := by
    intro hm he hdec
    rw [hm] at hnl
    rw [hnl]
    rw [← jencShape_bare] at he
    have := jencShape_rt hU hL.bare hT hZ h hS.1 htd he
    refine ⟨this.1, this.2.1, fun hn => ?_⟩
    obtain ⟨w, hw, htw, hrd⟩ := this.2.2 hn
    exact ⟨w, by simp only [jnormBase, hm, hw], htw, fun fo' hf => by rw [hdec, ← jdecShape_bare, hrd fo' hf]⟩
  obtain ⟨hm1, hm2⟩ := hM.none hS.1 hN
  unfold jencBase at he
  by_cases hs : Γ.shape t.deref = .time
  · rw [if_pos hs] at he
    exact hnone (hU.time hS.1 hs) he fun fo' => by rw [jdecBase, if_pos hs]
  · rw [if_neg hs, hm1] at he
    simp only at he
    cases hm : Γ.marsh t.deref with
    | none =>
      rw [hm] at he
      refine hnone hm he fun fo' => ?_
      rw [jdecBase, if_neg hs, hm2, hU.noMarsh hS.1 hm]
    | some rm =>
      obtain ⟨rid, m⟩ := rm
      rw [hm] at he hnl
      simp only at he hnl
      obtain ⟨r, hr, he⟩ := Res.bind_eq_ok he
      obtain ⟨_, _, he⟩ := Res.bind_eq_ok he
      obtain ⟨⟨um, hu⟩, hSr⟩ := hU.marsh hS.1 hm
      obtain ⟨h1, h2, w, hw, htw, hrd⟩ := h false (.base rid) r fo b ⟨hSr, by simp [Ty.isPtr]⟩ (hT.marsh hm htd hr) he
      rw [hr] at hnl
      simp only at hnl
      obtain ⟨w', hw'⟩ := hum _ _ _ _ hu htw
      rw [hnl]
      refine ⟨h1, h2, fun hn => ⟨w', ?_, hT.unmarsh hu (hT.zero _) htw hw', fun fo' hf => ?_⟩⟩
      · simp only [jnormBase, hm, hr, hu, hw, Option.bind_some, hw']
      · have := hrd fo' hf
        simp only [Prog.zeroTy] at this
        rw [jdecBase, if_neg hs, hm2, hu]
        simp only
        rw [hU.info hSr, Res.bind_ok, this, Res.bind_ok, hw']

/-- Whatever the encoder writes is a JSON text, `null` exactly for the values specified to be null, and
read back as the normalised value. -/
theorem jencM_rt (hU : JUniv Γ c (bare J) fl S) (hM : JMethods Γ J S N) (hL : LibOk J) (hT : Γ.Typed) (hZ : ZeroOk Γ)
    (hum : UserTotal Γ) {f g : Nat} (hfg : f ≤ g) :
    RecJ Γ S fl (jenc Γ c J f) (isNullM Γ N f) (jnormM Γ N c f) (jdec Γ c J g) := by
  induction f generalizing g with
  | zero => intro a t v fo b _ _ he; cases he
  | succ f ih =>
    obtain ⟨g, rfl⟩ : ∃ k, g = k + 1 := ⟨g - 1, by omega⟩
    intro a t v fo b hS ht he
    have hip : (Γ.isIface t.deref && t.isPtr) = false := by
      cases hp : t.isPtr with
      | false => simp
      | true => simp [hS.2 hp]
    rw [jenc] at he
    cases hd : derefVal t v with
    | none =>
      rw [hd] at he
      cases he
      have hn : isNullM Γ N (f + 1) t v = true := by rw [isNullM, pointee_eq, hd]
      refine ⟨.null, by simp [hn], Γ.zeroTy t, by rw [jnormM, if_pos hn, zeroOf_eq], hasTy_zeroTy hT.zero t, fun fo' _ => ?_⟩
      rw [jdec, hip, if_neg (by simp), if_pos rfl]
    | some dv =>
      rw [hd] at he
      cases hN : N t.deref with
      | some n =>
        obtain ⟨hs, m, um, hm, hu, hlaw⟩ := hM.some hS.1 hN
        simp only [jencBase, if_neg hs, hm] at he
        obtain ⟨h1, h2, h3, h4⟩ := hlaw dv b (hasTy_derefVal ht hd) he
        have hn : isNullM Γ N (f + 1) t v = false := by rw [isNullM, pointee_eq, hd]; simp only [hN]
        refine ⟨h1, by simp [hn]; exact h2, refs t (n dv), ?_, hasTy_refs h3, fun fo' _ => ?_⟩
        · rw [jnormM, hn, if_neg (by simp), pointee_eq, hd]
          simp [hN]
        · rw [jdec, hip, if_neg (by simp), if_neg (show b ≠ jNull from h2), derefPrior_zero, jdecBase, if_neg hs, hu]
          simp only
          rw [h4, Res.bind_ok, refs_eq]
      | none =>
        obtain ⟨h1, h2, h3⟩ := jbaseM_rt hU hM hL hT hZ hum (ih (g := g) (by omega)) hS ht hN hd he
        refine ⟨h1, h2, ?_⟩
        cases hn : isNullM Γ N (f + 1) t v with
        | true =>
          refine ⟨Γ.zeroTy t, by rw [jnormM, if_pos hn, zeroOf_eq], hasTy_zeroTy hT.zero t, fun fo' _ => ?_⟩
          rw [jdec, hip, if_neg (by simp), if_pos (h2.mpr hn)]
        | false =>
          obtain ⟨w, hw, htw, hrd⟩ := h3 hn
          refine ⟨refs t w, ?_, hasTy_refs htw, fun fo' hf => ?_⟩
          · rw [jnormM, hn, if_neg (by simp), pointee_eq, hd]
            simp [hN, hw]
          · have hne : b ≠ jNull := fun e => by rw [h2.mp e] at hn; cases hn
            rw [jdec, hip, if_neg (by simp), if_neg hne, derefPrior_zero, hrd fo' hf, Res.bind_ok, refs_eq]

/-- Property C110: with the program's own MarshalJSON and UnmarshalJSON methods that write JSON and read it back,
MarshalJSON writes JSON, and UnmarshalJSON reads it back, up to `jnormM`, wherever values of these types are. -/
theorem C110_roundtrip_partial (hU : JUniv Γ c (bare J) false S) (hM : JMethods Γ J S N) (hL : LibOk J) (hT : Γ.Typed)
    (hZ : ZeroOk Γ) (hum : UserTotal Γ) {fuel : Nat} {t : Ty} {v : Val} {bz : Bytes} (hS : JOk Γ S t) (ht : HasTy Γ t v)
    (hP : ∀ ci, c.conc? t.deref = some ci → PlainName ci.name)
    (he : marshalJSON Γ c J fuel (some (t, v)) = .ok bz) :
    JText bz ∧ ∃ w, jnormM Γ N c fuel t v = some w ∧ HasTy Γ t w ∧
      ∀ g, fuel ≤ g → unmarshalJSON Γ c J g t (zeroOf Γ t) bz = .ok w := by
  obtain ⟨hi, b, hb, rfl⟩ := marshalJSON_inv he
  obtain ⟨h1, _, w, hw, htw, _⟩ := jencM_rt hU hM hL hT hZ hum (Nat.le_refl fuel) false t v {} b hS ht hb
  have hdec : ∀ g, fuel ≤ g → jdec Γ c J g t (Γ.zeroTy t) {} b = .ok w := by
    intro g hg
    obtain ⟨_, _, w', hw', _, hrd⟩ := jencM_rt hU hM hL hT hZ hum hg false t v {} b hS ht hb
    rw [hw] at hw'
    cases hw'
    exact hrd {} (by intro h; cases h)
  cases hc : c.conc? t.deref with
  | none =>
    refine ⟨h1, w, hw, htw, fun g hg => ?_⟩
    rw [unmarshalJSON, if_neg (jtext_ne_nil h1), hi, Res.bind_ok, hc, zeroOf_eq]
    exact hdec g hg
  | some ci =>
    have hp := hP ci hc
    have hj := jtext_wrap hp h1
    refine ⟨hj, w, hw, htw, fun g hg => ?_⟩
    rw [unmarshalJSON, if_neg (jtext_ne_nil hj), hi, Res.bind_ok, hc]
    simp only
    rw [decodeInterfaceJSON_wrap hp h1, Res.bind_ok, if_neg (by simp), zeroOf_eq]
    exact hdec g hg

theorem isNullM_none (f : Nat) (t : Ty) (v : Val) : isNullM Γ (fun _ => none) f t v = isNull Γ f t v := by
  induction f generalizing t v with
  | zero => rfl
  | succ f ih =>
    rw [isNullM, isNull]
    cases pointee t v with
    | none => rfl
    | some dv =>
      simp only
      cases Γ.marsh t.deref with
      | none => rfl
      | some rm =>
        simp only
        cases rm.2 dv with
        | ok r => exact ih _ _
        | _ => rfl

/-- C110: without methods, this is what C46 says. -/
theorem C110_none (f : Nat) (t : Ty) (v : Val) : jnormM Γ (fun _ => none) c f t v = jnorm Γ c f t v := by
  induction f generalizing t v with
  | zero => rfl
  | succ f ih =>
    rw [jnormM, jnorm, isNullM_none, funext fun t => funext fun v => ih t v]

namespace JDemo

/-- The program of `JDemo` with a method MarshalJSON of `bool` kind that writes `1` and `0`, and UnmarshalJSON. -/
def boolText : Val → Res Bytes
  | .bool true => .ok [0x31]
  | .bool false => .ok [0x30]
  | _ => .panic .illTyped

def boolParse (bz : Bytes) : Res Val :=
  if bz = [0x31] then .ok (.bool true) else if bz = [0x30] then .ok (.bool false) else .err .json

def libM : JLib := { lib with
  marsh := fun id _ => if id = boolT then some boolText else none
  unmarsh := fun id => if id = boolT then some fun _ bz => boolParse bz else none }

/-- The same methods with pointer receivers. -/
def libP : JLib := { lib with
  marsh := fun id a => if id = boolT ∧ a = true then some boolText else none
  unmarsh := fun id => if id = boolT then some fun _ bz => boolParse bz else none }

def boolsBack (id : TId) : Option (Val → Val) := if id = boolT then some fun v => v else none

theorem univM : JUniv prog codec (bare libM) false (JDemo.S false) := univ false

theorem methodsM : JMethods prog libM (JDemo.S false) boolsBack where
  some := by
    intro id n _ hN
    unfold boolsBack at hN
    split at hN
    · rename_i hid
      cases hN
      subst hid
      refine ⟨by decide, boolText, fun _ bz => boolParse bz, fun _ => rfl, rfl, ?_⟩
      intro v b hv he
      cases hv with
      | bool hs =>
        rename_i x
        cases x <;> cases he
        · exact ⟨.num (.pos (i := [0x30]) (f := []) (e := []) .zero .none .none), by decide, .bool hs, rfl⟩
        · exact ⟨.num (.pos (i := [0x31]) (f := []) (e := []) (.pos (by decide) (by decide) (by simp)) .none .none), by decide, .bool hs, rfl⟩
      | _ => cases he
    · cases hN
  none := by
    intro id _ hN
    unfold boolsBack at hN
    split at hN
    · cases hN
    · rename_i hid
      exact ⟨fun a => if_neg hid, if_neg hid⟩

/-- The text of `rec1`, where the field `Z` is written by its method. -/
def rec1TextM : Bytes :=
  match marshalJSON prog codec libM 5 (some (.base recT, rec1)) with
  | .ok b => b
  | _ => []

theorem rec1M_marshals : marshalJSON prog codec libM 5 (some (.base recT, rec1)) = .ok rec1TextM := by decide +kernel

/-- The text differs from the one without the method. -/
example : rec1TextM ≠ rec1Text := by decide +kernel

/-- The hypotheses of C110 are met by a struct with every construct. -/
example : JText rec1TextM ∧ ∃ w, jnormM prog boolsBack codec 5 (.base recT) rec1 = some w ∧ HasTy prog (.base recT) w ∧
    ∀ g, 5 ≤ g → unmarshalJSON prog codec libM g (.base recT) (zeroOf prog (.base recT)) rec1TextM = .ok w :=
  C110_roundtrip_partial univM methodsM ⟨libOk.time, libOk.f32, libOk.f64⟩ typed zeroOk user_total
    (base_ok (by decide) (by decide)) rec1_typed (by intro ci h; rw [(conc_foo h).1]; exact plain_f) rec1M_marshals

example : jnormM prog boolsBack codec 5 (.base recT) rec1 = some rec1Back := by decide +kernel

end JDemo

/-- C110 does not hold for methods that write and read back what they wrote, if MarshalJSON has a pointer receiver:
given a value, MarshalJSON does not use it, while UnmarshalJSON of the type is used. -/
theorem C110_pointer_refuted :
    (∀ v b, JDemo.boolText v = .ok b → JDemo.boolParse b = .ok v) ∧
    marshalJSON JDemo.prog JDemo.codec JDemo.libP 3 (some (.ptr (.base JDemo.boolT), .ptr (.bool true))) = .ok [0x31] ∧
    unmarshalJSON JDemo.prog JDemo.codec JDemo.libP 3 (.base JDemo.boolT) (.bool false) [0x31] = .ok (.bool true) ∧
    marshalJSON JDemo.prog JDemo.codec JDemo.libP 3 (some (.base JDemo.boolT, .bool true)) = .ok [0x74, 0x72, 0x75, 0x65] ∧
    unmarshalJSON JDemo.prog JDemo.codec JDemo.libP 3 (.base JDemo.boolT) (.bool false) [0x74, 0x72, 0x75, 0x65] = .err .json := by
  refine ⟨?_, by decide +kernel, by decide +kernel, by decide +kernel, by decide +kernel⟩
  intro v b h
  match v with
  | .bool true | .bool false => cases h; rfl

end Amino
