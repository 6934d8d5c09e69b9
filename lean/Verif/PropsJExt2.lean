import Verif.PropsJExt
import Verif.JReadText

/-! # Property C111, reading exactly and floats -/

namespace Amino
open Spec

variable {Γ : Prog} {c : Codec} {J : JLib} {X : XLib}

theorem ofOptT {α : Type} {e : Err} {o : Option α} {a : α} (h : ofOpt e o = .ok a) : o = some a := by
  cases o <;> cases h; rfl

theorem unmText_iff {z v : Val} {um : Bytes → Res Val} {bz : Bytes} : unmText z um bz = .ok v ↔
    (Around nullText bz ∧ v = z) ∨ ∃ t cs, Around (0x22 :: (t ++ [0x22])) bz ∧ Denotes t cs ∧ um (utf8 cs) = .ok v := by
  unfold unmText
  constructor
  · intro h
    obtain ⟨raw, hraw, h'⟩ := Res.bind_eq_ok h
    obtain ⟨ha, hv⟩ := wholeVal_iff.mp (ofOptT hraw)
    split at h'
    · rename_i hn; cases h'; subst hn; exact .inl ⟨ha, rfl⟩
    split at h'
    · rename_i hq
      match raw, hv, hq, ha, h' with
      | c :: r, hv, hq, ha, h' =>
        simp only [List.head?_cons, Option.some.injEq] at hq
        subst hq
        obtain ⟨t, rfl, hb⟩ := jvalue_str hv
        obtain ⟨s, hs, h'⟩ := Res.bind_eq_ok h'
        obtain ⟨cs, hd, rfl⟩ := (unquote_iff hb).mp (ofOptT hs)
        exact .inr ⟨t, cs, ha, hd, h'⟩
    · cases h'
  · rintro (⟨ha, rfl⟩ | ⟨t, cs, ha, hd, h⟩)
    · rw [wholeVal_iff.mpr ⟨ha, _, null_spaced⟩]; rfl
    · have hb := denotes_body hd
      rw [wholeVal_iff.mpr ⟨ha, _, strText_spaced hb⟩]
      simp only [ofOpt, Res.bind_ok]
      rw [if_neg (by intro e; cases e), if_pos List.head?_cons, (unquote_iff hb).mpr ⟨cs, hd, rfl⟩]
      exact h

/-- C111: of a type of the kinds `textKind` with UnmarshalText, exactly these texts are read: `null`, which gives the zero
value, and strings whose characters UnmarshalText accepts. -/
theorem C111_reads {id : TId} {um : Bytes → Res Val} (hs : textKind (Γ.shape id) = true) (h : NoOther Γ c J id)
    (hu : X.untext id = some um) (hi : getInfo Γ c id = .ok ()) (g : Nat) (p v : Val) (bz : Bytes) :
    unmarshalJSONX Γ c J X (g + 1) (.base id) p bz = .ok v ↔
      (Around nullText bz ∧ v = Γ.zero id) ∨
      ∃ t cs, Around (0x22 :: (t ++ [0x22])) bz ∧ Denotes t cs ∧ um (utf8 cs) = .ok v := by
  rw [← unmText_iff]
  have ht : Γ.shape id ≠ .time := by intro e; rw [e] at hs; cases hs
  by_cases hb : bz = []
  · subst hb
    constructor
    · intro e; cases e
    · intro e; rcases unmText_iff.1 e with ⟨⟨w1, w2, -, -, e⟩, -⟩ | ⟨t, cs, ⟨w1, w2, -, -, e⟩, -⟩ <;> simp [nullText] at e
  by_cases hn : bz = jNull
  · subst hn
    have h1 : unmText (Γ.zero id) um jNull = .ok (Γ.zero id) := unmText_iff.2 (.inl ⟨⟨[], [], (fun c hc => by cases hc), (fun c hc => by cases hc), rfl⟩, rfl⟩)
    rw [h1]
    unfold unmarshalJSONX
    rw [if_neg hb]
    simp only [Ty.deref, hi, Res.bind_ok, h.2.2.2.2]
    rw [jdecX]
    simp only [Ty.isPtr, Bool.and_false]
    rfl
  · rw [unmarshalJSONX_base h ht hi hb hn]
    unfold jdecShapeX
    generalize Γ.shape id = sh at hs
    match sh, hs with
    | .bool, _ => simp [hu, stdReadKind, floatRefused, unmTextKind]
    | .string, _ => simp [hu, stdReadKind, floatRefused, unmTextKind]
    | .int k, hs =>
      have hk : k.bits ≠ 64 := by intro e; cases k <;> first | (cases hs; done) | (cases e; done)
      simp [hu, stdReadKind, floatRefused, unmTextKind, hk]

/-- C111: text methods do not make floats safe: MarshalJSON and UnmarshalJSON refuse them as they refuse others, except
that UnmarshalJSON takes `null`. -/
theorem C111_float {id : TId} (hs : Γ.shape id = .float32 ∨ Γ.shape id = .float64) (h : NoOther Γ c J id) (f : Nat) (p v : Val) (bz : Bytes) :
    marshalJSONX Γ c J X f (some (.base id, v)) ≠ .ok bz ∧
    (bz ≠ nullText → unmarshalJSONX Γ c J X f (.base id) p bz ≠ .ok v) := by
  have ht : Γ.shape id ≠ .time := by rcases hs with e | e <;> rw [e] <;> intro h <;> cases h
  constructor
  · intro he
    obtain ⟨f', -, -, he⟩ := marshalJSONX_base h ht he
    unfold jencShapeX at he
    rcases hs with e | e <;> rw [e] at he <;> cases hx : X.text id <;> rw [hx] at he <;>
      (simp [stdKind, floatRefused, jencShape, e] at he; try (cases v <;> simp at he))
  · intro hn he
    match f with
    | 0 =>
      unfold unmarshalJSONX at he
      split at he
      · cases he
      · obtain ⟨_, -, he⟩ := Res.bind_eq_ok he
        simp only [Ty.deref, h.2.2.2.2] at he
        cases he
    | f + 1 =>
      by_cases hb : bz = []
      · subst hb; cases he
      cases hi : getInfo Γ c id with
      | ok _ =>
        rw [unmarshalJSONX_base h ht hi hb hn] at he
        unfold jdecShapeX at he
        rcases hs with e | e <;> rw [e] at he <;> cases hx : X.untext id <;> rw [hx] at he <;>
          (simp [stdReadKind, floatRefused, jdecShape, e] at he; try (cases p <;> simp at he))
      | _ =>
        unfold unmarshalJSONX at he
        rw [if_neg hb] at he
        simp only [Ty.deref, hi] at he
        cases he

namespace JDemo

/-- ` "yes"` is read by the methods of `xText`. -/
example : unmarshalJSONX prog codec lib xText 3 (.base boolT) (.bool false) [0x20, 0x22, 0x79, 0x65, 0x73, 0x22] = .ok (.bool true) :=
  (C111_reads rfl (noOther (by decide) (by decide)) (um := unYesNo) rfl rfl 2 _ _ _).2
    (.inr ⟨[0x79, 0x65, 0x73], "yes".toList, ⟨[0x20], [], by simp [White], by simp [White], rfl⟩,
      .raw (ch := 'y') (by decide) (by decide) (by decide) (.raw (ch := 'e') (by decide) (by decide) (by decide)
        (.raw (ch := 's') (by decide) (by decide) (by decide) .nil)), by decide +kernel⟩)

end JDemo

end Amino
