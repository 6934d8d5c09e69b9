import Verif.SpecJExt
import Verif.PropsJMeth
import Verif.DocEnc

/-! # Properties C111 and C112: text methods and keys of maps -/

namespace Amino
open Spec

variable {Γ : Prog} {c : Codec} {J : JLib} {X : XLib}

theorem stdKind_eq {sh : Shape} (hf : sh ≠ .float32 ∧ sh ≠ .float64) : stdKind sh = textKind sh := by
  cases sh <;> simp_all [stdKind, textKind]
  rename_i k
  cases k <;> simp [IntKind.bits]

theorem stdReadKind_eq {sh : Shape} (hf : sh ≠ .float32 ∧ sh ≠ .float64) : stdReadKind sh = textReadKind sh := by
  cases sh <;> simp_all [stdReadKind, textReadKind]

theorem jencShapeX_eq (hP : PlainKeys Γ X) {rec : Bool → Ty → Val → FOpts → Res Bytes} {addr : Bool} {id : TId} {v : Val} {fo : FOpts} :
    jencShapeX Γ c J X rec addr id v fo =
      match X.text id with
      | none => jencShape Γ c J rec addr id v fo
      | some m => if stdKind (Γ.shape id) then (m v).bind fun s => .ok (quoteStr s) else jencShape Γ c J rec addr id v fo := by
  unfold jencShapeX
  cases hs : Γ.shape id with
  | map e => simp only [hP.key hs]; cases X.text id <;> simp [stdKind]
  | float32 => simp only [(hP.float (.inl hs)).1]
  | float64 => simp only [(hP.float (.inr hs)).1]
  | _ => simp only; cases X.text id <;> simp [stdKind, floatRefused]

theorem jdecShapeX_eq (hP : PlainKeys Γ X) {rec : Ty → Val → FOpts → Bytes → Res Val} {id : TId} {p : Val} {fo : FOpts} {bz : Bytes} :
    jdecShapeX Γ c J X rec id p fo bz =
      match X.untext id with
      | none => jdecShape Γ c J rec id p fo bz
      | some um =>
        if stdReadKind (Γ.shape id) then unmTextKind (Γ.shape id) (Γ.zero id) um bz else jdecShape Γ c J rec id p fo bz := by
  unfold jdecShapeX
  cases hs : Γ.shape id with
  | map e => simp only [hP.key hs]; cases X.untext id <;> simp [stdReadKind]
  | float32 => simp only [(hP.float (.inl hs)).2]
  | float64 => simp only [(hP.float (.inr hs)).2]
  | _ => simp only; cases X.untext id <;> simp [stdReadKind, floatRefused]

theorem jencShape_lib {J J' : JLib} (h1 : J.f32Text = J'.f32Text) (h2 : J.f64Text = J'.f64Text) (h3 : J.timeText = J'.timeText)
    (rec : Bool → Ty → Val → FOpts → Res Bytes) (a : Bool) (id : TId) (v : Val) (fo : FOpts) :
    jencShape Γ c J rec a id v fo = jencShape Γ c J' rec a id v fo := by
  unfold jencShape; rw [h1, h2, h3]

theorem text_not_float (hP : PlainKeys Γ X) {id : TId} {m : Val → Res Bytes} (h : X.text id = some m) :
    Γ.shape id ≠ .float32 ∧ Γ.shape id ≠ .float64 := by
  constructor <;> intro hs
  · rw [(hP.float (.inl hs)).1] at h; cases h
  · rw [(hP.float (.inr hs)).1] at h; cases h

theorem untext_not_float (hP : PlainKeys Γ X) {id : TId} {m : Bytes → Res Val} (h : X.untext id = some m) :
    Γ.shape id ≠ .float32 ∧ Γ.shape id ≠ .float64 := by
  constructor <;> intro hs
  · rw [(hP.float (.inl hs)).2] at h; cases h
  · rw [(hP.float (.inr hs)).2] at h; cases h

theorem jencBaseX_eq (hP : PlainKeys Γ X) {rec : Bool → Ty → Val → FOpts → Res Bytes} {a : Bool} {id : TId} {v : Val} {fo : FOpts} :
    jencBaseX Γ c J X rec a id v fo = jencBase Γ c (withText Γ J X) rec a id v fo := by
  have hsh : jencShape Γ c (withText Γ J X) rec a id v fo = jencShape Γ c J rec a id v fo := rfl
  unfold jencBaseX jencBase
  rw [jencShapeX_eq hP, hsh]
  by_cases ht : Γ.shape id = .time
  · rw [if_pos ht, if_pos ht, ht]
    cases X.text id <;> simp [stdKind]
  · rw [if_neg ht, if_neg ht]
    simp only [withText]
    cases J.marsh id a with
    | some m => rfl
    | none =>
      simp only
      cases Γ.marsh id with
      | some rm => simp
      | none =>
        simp only [Option.isNone_none, Bool.true_and]
        cases hx : X.text id with
        | none => simp
        | some m =>
          simp only [Option.map_some]
          rw [stdKind_eq (text_not_float hP hx)]
          cases textKind (Γ.shape id) <;> simp

theorem jdecBaseX_eq (hP : PlainKeys Γ X) {rec : Ty → Val → FOpts → Bytes → Res Val} {id : TId} {p : Val} {fo : FOpts} {bz : Bytes} :
    jdecBaseX Γ c J X rec id p fo bz = jdecBase Γ c (withText Γ J X) rec id p fo bz := by
  have hsh : jdecShape Γ c (withText Γ J X) rec id p fo bz = jdecShape Γ c J rec id p fo bz := rfl
  unfold jdecBaseX jdecBase
  rw [jdecShapeX_eq hP, hsh]
  by_cases ht : Γ.shape id = .time
  · rw [if_pos ht, if_pos ht, ht]
    cases X.untext id <;> simp [stdReadKind]
  · rw [if_neg ht, if_neg ht]
    simp only [withText]
    cases J.unmarsh id with
    | some m => rfl
    | none =>
      simp only
      cases Γ.unmarsh id with
      | some rm => simp
      | none =>
        simp only [Option.isNone_none, Bool.true_and]
        cases hx : X.untext id with
        | none => simp
        | some m =>
          simp only [Option.map_some]
          rw [stdReadKind_eq (untext_not_float hP hx)]
          cases textReadKind (Γ.shape id) <;> simp

theorem jencX_eq (hP : PlainKeys Γ X) (f : Nat) : jencX Γ c J X f = jenc Γ c (withText Γ J X) f := by
  induction f with
  | zero => rfl
  | succ f ih =>
    funext a t v fo
    simp only [jencX, jenc, ih, jencBaseX_eq hP]
    cases derefVal t v <;> rfl

theorem jdecX_eq (hP : PlainKeys Γ X) (f : Nat) : jdecX Γ c J X f = jdec Γ c (withText Γ J X) f := by
  induction f with
  | zero => rfl
  | succ f ih =>
    funext t p fo bz
    simp only [jdecX, jdec, ih, jdecBaseX_eq hP]

/-- Property C111: types with MarshalText and UnmarshalText are written and read exactly as if they had the JSON methods
of `withText` instead, and the methods of other types are ignored. -/
theorem C111_same_marshal (hP : PlainKeys Γ X) (fuel : Nat) (o : Option (Ty × Val)) :
    marshalJSONX Γ c J X fuel o = marshalJSON Γ c (withText Γ J X) fuel o := by
  unfold marshalJSONX marshalJSON; rw [jencX_eq hP]
  rcases o with _ | ⟨t, v⟩ <;> rfl

theorem C111_same_unmarshal (hP : PlainKeys Γ X) (fuel : Nat) (t : Ty) (p : Val) (bz : Bytes) :
    unmarshalJSONX Γ c J X fuel t p bz = unmarshalJSON Γ c (withText Γ J X) fuel t p bz := by
  unfold unmarshalJSONX unmarshalJSON; rw [jdecX_eq hP]
  rfl

theorem unmText_quote {z v : Val} {um : Bytes → Res Val} {s : Bytes} (hs : Utf8 s) (h : um s = .ok v) :
    unmText z um (quoteStr s) = .ok v := by
  have hq := strText_quoteStr s
  unfold unmText
  rw [wholeVal_jtext (.str hq)]
  simp only [ofOpt, Res.bind_ok]
  rw [if_neg (strText_ne_null hq), if_pos (strText_ends hq).2.1, unquote_quoteStr, sanitize_utf8 hs]
  exact h

theorem textMethods_json {S : TId → Prop} (h : TextMethods Γ J X S) : JMethods Γ (withText Γ J X) S (sameText X) where
  some := by
    intro id n hS hN
    obtain ⟨h1, h2⟩ := h.noJson hS
    rcases h.text hS with ⟨h3, -⟩ | ⟨hk, hm, hu, m, um, hx, hy, hlaw⟩
    · simp [sameText, h3] at hN
    · simp only [sameText, hx, Option.map_some, Option.some.injEq] at hN
      subst hN
      refine ⟨(by intro e; rw [e] at hk; cases hk), fun v => (m v).bind fun s => .ok (quoteStr s),
        fun _ bz => unmTextKind (Γ.shape id) (Γ.zero id) um bz, ?_, ?_, ?_⟩
      · intro a; simp [withText, h1, hm, hk, hx]
      · have : textReadKind (Γ.shape id) = true := by
          revert hk; cases Γ.shape id <;> simp [textKind, textReadKind]
        simp [withText, h2, hu, this, hy]
      · intro v b hv he
        obtain ⟨s, hs, he⟩ := Res.bind_eq_ok he
        cases he
        obtain ⟨h8, h9⟩ := hlaw v s hv hs
        have hq := strText_quoteStr s
        refine ⟨.str hq, strText_ne_null hq, hv, ?_⟩
        have hb : unmTextKind (Γ.shape id) (Γ.zero id) um (quoteStr s) = unmText (Γ.zero id) um (quoteStr s) := by
          unfold unmTextKind
          split
          · rename_i k hk'
            rw [if_neg]
            rw [hk'] at hk
            revert hk
            cases k <;> simp [textKind, IntKind.bits]
          · rfl
        show unmTextKind _ _ _ _ = _
        rw [hb, unmText_quote h8 h9]
  none := by
    intro id hS hN
    obtain ⟨h1, h2⟩ := h.noJson hS
    rcases h.text hS with ⟨h3, h4⟩ | ⟨-, -, -, m, um, hx, -⟩
    · exact ⟨fun a => by simp [withText, h1, h3], by simp [withText, h2, h4]⟩
    · simp [sameText, hx] at hN

/-- C111: values of types with text methods that write UTF-8 and read it back come back, wherever they are, and the
text written is JSON. -/
theorem C111_roundtrip_partial {S : TId → Prop} (hP : PlainKeys Γ X) (hU : JUniv Γ c (bare J) false S) (hM : TextMethods Γ J X S)
    (hL : LibOk J) (hT : Γ.Typed) (hZ : ZeroOk Γ) (hum : UserTotal Γ) {fuel : Nat} {t : Ty} {v : Val} {bz : Bytes}
    (hS : JOk Γ S t) (ht : HasTy Γ t v) (hN : ∀ ci, c.conc? t.deref = some ci → PlainName ci.name)
    (he : marshalJSONX Γ c J X fuel (some (t, v)) = .ok bz) :
    JText bz ∧ ∃ w, jnormM Γ (sameText X) c fuel t v = some w ∧ HasTy Γ t w ∧
      ∀ g, fuel ≤ g → unmarshalJSONX Γ c J X g t (zeroOf Γ t) bz = .ok w := by
  rw [C111_same_marshal hP] at he
  simp only [C111_same_unmarshal hP]
  exact C110_roundtrip_partial (J := withText Γ J X) hU (textMethods_json hM) ⟨hL.time, hL.f32, hL.f64⟩ hT hZ hum hS ht hN he

theorem marshalJSONX_base {id : TId} (h : NoOther Γ c J id) (ht : Γ.shape id ≠ .time) {f : Nat} {v : Val} {bz : Bytes}
    (he : marshalJSONX Γ c J X f (some (.base id, v)) = .ok bz) :
    ∃ f', f = f' + 1 ∧ getInfo Γ c id = .ok () ∧ jencShapeX Γ c J X (jencX Γ c J X f') false id v {} = .ok bz := by
  unfold marshalJSONX at he
  obtain ⟨_, hi, he⟩ := Res.bind_eq_ok he
  obtain ⟨b, hb, he⟩ := Res.bind_eq_ok he
  simp only [Ty.deref, h.2.2.2.2] at he
  cases he
  cases f with
  | zero => cases hb
  | succ f =>
    refine ⟨f, rfl, hi, ?_⟩
    simpa [jencX, derefVal, Ty.isPtr, Ty.deref, jencBaseX, ht, h.1, h.2.2.1] using hb

theorem unmarshalJSONX_base {id : TId} (h : NoOther Γ c J id) (ht : Γ.shape id ≠ .time) {f : Nat} {p : Val} {bz : Bytes}
    (hi : getInfo Γ c id = .ok ()) (hb : bz ≠ []) (hn : bz ≠ jNull) :
    unmarshalJSONX Γ c J X (f + 1) (.base id) p bz =
      (jdecShapeX Γ c J X (jdecX Γ c J X f) id (Γ.derefPrior (.base id) p) {} bz) := by
  unfold unmarshalJSONX
  rw [if_neg hb]
  simp only [Ty.deref, hi, Res.bind_ok, h.2.2.2.2]
  rw [jdecX]
  simp only [Ty.isPtr, Bool.and_false, Ty.deref, wrapTy]
  rw [if_neg (by simp), if_neg hn, jdecBaseX, if_neg ht, h.2.1, h.2.2.2.1]
  simp only
  cases jdecShapeX Γ c J X (jdecX Γ c J X f) id (Γ.derefPrior (.base id) p) {} bz <;> rfl

/-- C111 is false for 64-bit integers: what MarshalJSON writes for a type with UnmarshalText is never read. -/
theorem C111_int64_refuted {id : TId} {k : IntKind} {um : Bytes → Res Val} (hs : Γ.shape id = .int k) (hk : k.bits = 64)
    (h : NoOther Γ c J id) (hu : X.untext id = some um) {f g : Nat} {i : Int} {p : Val} {bz : Bytes}
    (he : marshalJSONX Γ c J X f (some (.base id, .int i)) = .ok bz) :
    unmarshalJSONX Γ c J X (g + 1) (.base id) p bz = .err .json := by
  have ht : Γ.shape id ≠ .time := by rw [hs]; intro e; cases e
  obtain ⟨f', -, hi, he⟩ := marshalJSONX_base h ht he
  have hsh : jencShape Γ c J (jencX Γ c J X f') false id (.int i) {} = .ok (0x22 :: (intText i ++ [0x22])) := by
    simp [jencShape, hs, hk]
  have hbz : bz = 0x22 :: (intText i ++ [0x22]) := by
    unfold jencShapeX at he
    rw [hs] at he
    simp only [stdKind, hk] at he
    cases hx : X.text id <;> rw [hx] at he <;> simp [hsh] at he <;> exact he.symm
  have hst := strText_int i
  rw [← hbz] at hst
  obtain ⟨e1, e2, e3⟩ := strText_ends hst
  rw [unmarshalJSONX_base h ht hi (by intro e; rw [e] at e1; simp at e1) (strText_ne_null hst)]
  unfold jdecShapeX
  rw [hs]
  simp only [hu, stdReadKind, floatRefused, unmTextKind]
  simp only [Bool.not_true, Bool.false_eq_true, if_false, if_pos hk]
  rw [if_neg (by intro e; rw [e] at e1; simp at e1), if_neg (by rw [e2, e3]; simp), if_neg (by omega)]
  have : (bz.drop 1).take (bz.length - 2) = intText i := by rw [hbz]; simp
  rw [this]
  unfold unmText
  rw [wholeVal_jtext (.num (numText_intText i))]
  simp only [ofOpt, Res.bind_ok]
  rw [if_neg, if_neg]
  · intro e
    have := (intText_plain i 0x22 (List.mem_of_mem_head? e)).2.2.1
    exact this rfl
  · intro e
    have := parseInt_intText i
    rw [e] at this
    have h2 : parseInt jNull = none := by decide +kernel
    rw [h2] at this
    cases this

/-! ## Keys of maps -/

/-- Property C112: maps with keys of another kind than string are neither written nor read. -/
theorem C112_other {id : TId} {e : Ty} (hs : Γ.shape id = .map e) (hk : X.key id = .other) (h : NoOther Γ c J id)
    (hi : getInfo Γ c id = .ok ()) {f : Nat} {v p : Val} {bz : Bytes} :
    marshalJSONX Γ c J X (f + 1) (some (.base id, v)) = .err .json ∧
    (bz ≠ [] → bz ≠ jNull → unmarshalJSONX Γ c J X (f + 1) (.base id) p bz = .err .json) := by
  have ht : Γ.shape id ≠ .time := by rw [hs]; intro e; cases e
  constructor
  · simp [marshalJSONX, Ty.deref, hi, jencX, derefVal, jencBaseX, h.1, h.2.2.1, jencShapeX, hs, hk, Res.bind]
  · intro hb hn
    rw [unmarshalJSONX_base h ht hi hb hn]
    unfold jdecShapeX
    rw [hs, hk]
    simp only
    cases unmRawMap bz <;> rfl

/-- C112: maps with keys of a named string type without methods are written like maps with keys of type `string`. -/
theorem C112_named_written (hk : ∀ id e, Γ.shape id = .map e → X.key id = .plain ∨ X.key id = .named none) (fuel : Nat)
    (o : Option (Ty × Val)) : marshalJSONX Γ c J X fuel o = marshalJSONX Γ c J (stringKeys X) fuel o := by
  have hsh : ∀ rec a id v fo, jencShapeX Γ c J X rec a id v fo = jencShapeX Γ c J (stringKeys X) rec a id v fo := by
    intro rec a id v fo
    unfold jencShapeX
    cases hs : Γ.shape id with
    | map e => rcases hk id e hs with h | h <;> rw [h] <;> rfl
    | _ => rfl
  have hx : ∀ f, jencX Γ c J X f = jencX Γ c J (stringKeys X) f := by
    intro f
    induction f with
    | zero => rfl
    | succ f ih =>
      funext a t v fo
      simp only [jencX, ih, jencBaseX, hsh]
  unfold marshalJSONX
  rw [hx]

/-- C112: but no entry can be read back: what is read is nil or empty. -/
theorem C112_named_unread {id : TId} {e : Ty} {k : Option (Bytes → Res Bytes)} (hs : Γ.shape id = .map e)
    (hk : X.key id = .named k) (h : NoOther Γ c J id) {g : Nat} {p v : Val} {bz : Bytes}
    (hd : unmarshalJSONX Γ c J X g (.base id) p bz = .ok v) : v = Γ.zero id ∨ v = .map [] := by
  have ht : Γ.shape id ≠ .time := by rw [hs]; intro e; cases e
  have hb : bz ≠ [] := by intro e; simp [unmarshalJSONX, e] at hd
  have hi : getInfo Γ c id = .ok () := by
    simp only [unmarshalJSONX, if_neg hb, Ty.deref] at hd
    exact (Res.bind_eq_ok hd).choose_spec.1
  cases g with
  | zero => simp [unmarshalJSONX, if_neg hb, Ty.deref, hi, Res.bind_ok, h.2.2.2.2, jdecX] at hd
  | succ g =>
    by_cases hn : bz = jNull
    · left
      subst hn
      simp [unmarshalJSONX, if_neg hb, Ty.deref, hi, Res.bind_ok, h.2.2.2.2, jdecX, Ty.isPtr, Prog.zeroTy] at hd
      exact hd.symm
    · right
      rw [unmarshalJSONX_base h ht hi hb hn] at hd
      unfold jdecShapeX at hd
      rw [hs, hk] at hd
      simp only at hd
      obtain ⟨m, -, hd⟩ := Res.bind_eq_ok hd
      obtain ⟨_, -, hd⟩ := Res.bind_eq_ok hd
      cases m with
      | nil => cases hd; rfl
      | cons x m =>
        obtain ⟨_, -, hd⟩ := Res.bind_eq_ok hd
        cases hd

namespace JDemo

/-- MarshalText of `bool` kind: `yes` and `no`. -/
def yesNo : Val → Res Bytes
  | .bool true => .ok [0x79, 0x65, 0x73]
  | .bool false => .ok [0x6e, 0x6f]
  | _ => .panic .illTyped

def unYesNo (bz : Bytes) : Res Val :=
  if bz = [0x79, 0x65, 0x73] then .ok (.bool true) else if bz = [0x6e, 0x6f] then .ok (.bool false) else .err .json

def xText : XLib where
  text := fun id => if id = boolT then some yesNo else none
  untext := fun id => if id = boolT then some unYesNo else none
  key := fun _ => .plain

theorem xText_plain : PlainKeys prog xText where
  key _ := rfl
  float := by
    intro id h
    have : id ≠ boolT := by rintro rfl; rcases h with h | h <;> cases h
    exact ⟨if_neg this, if_neg this⟩

theorem xText_methods : TextMethods prog lib xText (JDemo.S false) where
  noJson _ := ⟨fun _ => rfl, rfl⟩
  text := by
    intro id _
    by_cases hid : id = boolT
    · subst hid
      refine .inr ⟨rfl, rfl, rfl, yesNo, unYesNo, rfl, rfl, ?_⟩
      intro v s hv he
      cases hv with
      | bool hs =>
        rename_i x
        cases x <;> cases he
        · exact ⟨utf8_ascii (by decide), rfl⟩
        · exact ⟨utf8_ascii (by decide), rfl⟩
      | _ => cases he
    · exact .inl ⟨if_neg hid, if_neg hid⟩

def rec1TextX : Bytes :=
  match marshalJSONX prog codec lib xText 5 (some (.base recT, rec1)) with
  | .ok b => b
  | _ => []

theorem rec1X_marshals : marshalJSONX prog codec lib xText 5 (some (.base recT, rec1)) = .ok rec1TextX := by decide +kernel

example : rec1TextX ≠ rec1Text := by decide +kernel

/-- The hypotheses of C111 are met by a struct with a field that has text methods. -/
example : JText rec1TextX ∧ ∃ w, jnormM prog (sameText xText) codec 5 (.base recT) rec1 = some w ∧ HasTy prog (.base recT) w ∧
    ∀ g, 5 ≤ g → unmarshalJSONX prog codec lib xText g (.base recT) (zeroOf prog (.base recT)) rec1TextX = .ok w :=
  C111_roundtrip_partial xText_plain (univ false) xText_methods libOk typed zeroOk user_total
    (base_ok (by decide) (by decide)) rec1_typed (by intro ci h; rw [(conc_foo h).1]; exact plain_f) rec1X_marshals

/-- `int64` with UnmarshalText, maps with keys of a named string type or another kind. -/
def xInt : XLib where
  text := fun _ => none
  untext := fun id => if id = int64T then some fun _ => .ok (.int 0) else none
  key := fun _ => .plain

def xKey (k : KeyKind) : XLib := ⟨fun _ => none, fun _ => none, fun _ => k⟩

theorem noOther {id : TId} (h1 : id ≠ fooT) (h2 : id ≠ centsT) : NoOther prog codec lib id :=
  ⟨fun _ => rfl, rfl, if_neg h2, if_neg h2, by
    cases h : codec.conc? id with
    | none => rfl
    | some ci => exact absurd (conc_foo h).2 h1⟩

/-- `"7"` is written, and not read. -/
example : unmarshalJSONX prog codec lib xInt 3 (.base int64T) (.int 0) [0x22, 0x37, 0x22] = .err .json :=
  C111_int64_refuted (um := fun _ => .ok (.int 0)) (f := 3) (i := 7) rfl rfl (noOther (by decide) (by decide)) rfl (by decide +kernel)

example := C112_other (Γ := prog) (X := xKey .other) (c := codec) (J := lib) (id := mapT) (f := 2) (v := .nil) (p := .nil)
  (bz := [0x7b, 0x7d]) rfl rfl (noOther (by decide) (by decide)) rfl

example : marshalJSONX prog codec lib (xKey (.named none)) 3 (some (.base mapT, .map [([0x61], .int 1)])) =
    marshalJSONX prog codec lib (stringKeys (xKey (.named none))) 3 (some (.base mapT, .map [([0x61], .int 1)])) :=
  C112_named_written (fun _ _ _ => .inr rfl) 3 _

example : Val.map [] = prog.zero mapT ∨ Val.map [] = .map [] :=
  C112_named_unread (X := xKey (.named none)) (c := codec) (J := lib) (g := 3) (p := .nil) (bz := [0x7b, 0x7d]) rfl rfl
    (noOther (by decide) (by decide)) (by decide +kernel)

end JDemo

/-- C112: `map[K]int64{"a": 1}` with `type K string` is written as `{"a":"1"}`, and UnmarshalJSON panics on this text. -/
theorem C112_named_refuted :
    marshalJSONX JDemo.prog JDemo.codec JDemo.lib (JDemo.xKey (.named none)) 3 (some (.base JDemo.mapT, .map [([0x61], .int 1)])) =
      .ok [0x7b, 0x22, 0x61, 0x22, 0x3a, 0x22, 0x31, 0x22, 0x7d] ∧
    unmarshalJSONX JDemo.prog JDemo.codec JDemo.lib (JDemo.xKey (.named none)) 3 (.base JDemo.mapT) .nil
      [0x7b, 0x22, 0x61, 0x22, 0x3a, 0x22, 0x31, 0x22, 0x7d] = .panic .notAssignable := by
  decide +kernel

/-- C112: if the key type has a method MarshalJSON that writes a number, the text written is not JSON. -/
theorem C112_method_refuted : ∃ bz,
    marshalJSONX JDemo.prog JDemo.codec JDemo.lib (JDemo.xKey (.named (some fun _ => .ok [0x31]))) 3
      (some (.base JDemo.mapT, .map [([0x61], .int 1)])) = .ok bz ∧ ¬ JText bz := by
  refine ⟨[0x7b, 0x31, 0x3a, 0x22, 0x31, 0x22, 0x7d], by decide +kernel, fun h => ?_⟩
  have := wholeVal_jtext h
  revert this
  decide +kernel

end Amino
