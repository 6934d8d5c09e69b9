import Verif.JNull

/-!
# C62: old contents of the variable
-/

namespace Amino
open Spec

variable {Γ : Prog} {c : Codec} {J : JLib} {nul : Bool}

def JBlind (Γ : Prog) (J : JLib) (nul : Bool) (rec : Ty → Val → FOpts → Bytes → Res Val) : Prop :=
  ∀ {t p p'}, JStale Γ J nul t p p' → ∀ fo bz, (nul = false → MemberNulls bz) → rec t p fo bz = rec t p' fo bz

theorem jstale_derefPrior {t : Ty} {p p' : Val} (h : JStale Γ J nul t p p') :
    JStale Γ J nul (.base t.deref) (Γ.derefPrior t p) (Γ.derefPrior t p') := by
  induction t generalizing p p' with
  | base id => exact h
  | ptr t ih =>
    rw [derefPrior_target, derefPrior_target]
    cases h with
    | same => exact .same
    | ptr h => exact ih h

variable {rec : Ty → Val → FOpts → Bytes → Res Val}

theorem jdecArr_blind (hr : JBlind Γ J nul rec) (e : Ty) (fo : FOpts) : ∀ (ps ps' : List Val), ps.length = ps'.length →
    (∀ q ∈ ps.zip ps', JStale Γ J nul e q.1 q.2) → ∀ bs, (nul = false → ∀ b ∈ bs, MemberNulls b) →
    jdecArr rec e fo ps bs = jdecArr rec e fo ps' bs
  | [], [], _, _, _, _ => rfl
  | _ :: _, _ :: _, _, _, [], _ => rfl
  | p :: ps, p' :: ps', hl, h, b :: bs, hb => by
    rw [jdecArr, jdecArr, hr (h (p, p') (by simp)) fo b (fun hn => hb hn b (by simp)),
      jdecArr_blind hr e fo ps ps' (by simpa using hl) (fun q hq => h q (by simp [hq])) bs fun hn b hm => hb hn b (by simp [hm])]

theorem jdecFields_blind (hr : JBlind Γ J nul rec) (fo : FOpts) (m : List (Bytes × Bytes))
    (hb : nul = false → ∀ q ∈ m, MemberNulls q.2) : ∀ (fs : List Field)
    (ps ps' : List Val), ps.length = fs.length → ps'.length = fs.length →
    (∀ q ∈ fs.zip (ps.zip ps'), q.1.visible = true → q.1.opts.omitEmpty = false → JStale Γ J nul q.1.ty q.2.1 q.2.2) →
    (∀ q ∈ fs.zip (ps.zip ps'), q.1.visible = false ∨ q.1.opts.omitEmpty = true → q.2.1 = q.2.2) →
    jdecFields Γ c rec fo m fs ps = jdecFields Γ c rec fo m fs ps'
  | [], [], [], _, _, _, _ => rfl
  | f :: fs, p :: ps, p' :: ps', hl, hl', h, h0 => by
    have ih := jdecFields_blind hr fo m hb fs ps ps' (by simpa using hl) (by simpa using hl')
      (fun q hq => h q (by simp [hq])) (fun q hq => h0 q (by simp [hq]))
    have h1 := h (f, p, p') (by simp)
    have h2 := h0 (f, p, p') (by simp)
    simp only at h1 h2
    rw [jdecFields, jdecFields, ih]
    split
    · rename_i hv
      have : jdecField Γ rec fo m f p = jdecField Γ rec fo m f p' := by
        cases ho : f.opts.omitEmpty with
        | true => rw [h2 (.inr ho)]
        | false =>
          unfold jdecField
          cases hx : m.lookup f.opts.jsonName with
          | none => simp only [ho]; simp
          | some b =>
            simp only [ho]
            rw [hr (h1 hv ho) fo b fun hn => hb hn _ (mem_of_lookup hx)]
            simp
      rw [this]
    · rename_i hv
      rw [h2 (.inl (by simpa using hv))]

theorem parts_raws {bz : Bytes} (hb : nul = false → MemberNulls bz) {es : List Bytes} (h : unmRaws bz = some es) :
    nul = false → ∀ e ∈ es, MemberNulls e := fun hn e he =>
  have ⟨_, _, _, hs, hx⟩ := unmRaws_part h e he
  memberNulls_part (hb hn) hs hx

theorem parts_map {bz : Bytes} (hb : nul = false → MemberNulls bz) {ms : List (Bytes × Bytes)} (h : unmRawMap bz = some ms) :
    nul = false → ∀ m ∈ ms, MemberNulls m.2 := fun hn m hm =>
  have ⟨_, _, _, hs, hx⟩ := unmRawMap_part h m hm
  memberNulls_part (hb hn) hs hx

/-- Kinds without parts of their own. -/
theorem jdecShape_leaf {id : TId} (hs : ∀ fs, Γ.shape id ≠ .struct fs) (ha : ∀ n e, Γ.shape id = .array n e → Γ.isByteKind e = true)
    (hk : nul = true → keptByNull Γ (Γ.shape id) = false) {bz : Bytes} (hb : nul = false → MemberNulls bz)
    (p p' : Val) (fo : FOpts) : jdecShape Γ c J rec id p fo bz = jdecShape Γ c J rec id p' fo bz := by
  have hm : keptByNull Γ (Γ.shape id) = true → MemberNulls bz := by
    intro h
    cases nul with
    | true => rw [hk rfl] at h; cases h
    | false => exact hb rfl
  unfold jdecShape
  cases hsh : Γ.shape id with
  | iface => rfl
  | array n e => simp only [ha _ _ hsh, if_true]
  | slice e =>
    simp only
    split
    · rename_i he
      have : keptByNull Γ (Γ.shape id) = true := by
        rw [hsh]
        cases e with
        | base e => exact he
        | ptr e => cases he
      rw [unmBytes_old (hm this) (oldBytes p) (oldBytes p')]
    · rfl
  | struct fs => exact absurd hsh (hs _)
  | map e => rfl
  | int k => rfl
  | float32 => rfl
  | float64 => rfl
  | bool => rfl
  | string => rfl
  | time => rfl

theorem jdec_blind (g : Nat) : JBlind Γ J nul (jdec Γ c J g) := by
  induction g with
  | zero => intro t p p' _ fo bz _; rfl
  | succ g ih =>
    intro t p p' h fo bz hb
    have h := jstale_derefPrior h
    rw [jdec, jdec]
    split
    · rfl
    split
    · rfl
    suffices hh : jdecBase Γ c J (jdec Γ c J g) t.deref (Γ.derefPrior t p) fo bz =
        jdecBase Γ c J (jdec Γ c J g) t.deref (Γ.derefPrior t p') fo bz by rw [hh]
    generalize Γ.derefPrior t p = q at h ⊢
    generalize Γ.derefPrior t p' = q' at h ⊢
    generalize t.deref = id at h ⊢
    unfold jdecBase
    cases h with
    | same => rfl
    | method ht hj hi => rw [if_neg ht, if_neg ht]; simp only [hj, hi]
    | override ht hj hu hi => rw [if_neg ht, if_neg ht]; simp only [hj, hu, hi]
    | leaf hj hu hs ha hk =>
      simp only [hj, hu, ite_self]
      exact jdecShape_leaf hs ha hk hb _ _ _
    | array hj hu hs hl hz =>
      simp only [hj, hu, ite_self, jdecShape, hs]
      split
      · rfl
      congr 1; funext _
      cases hx : unmRaws bz with
      | none => rfl
      | some raws => simp only [ofOpt, Res.bind_ok, jdecArr_blind ih _ _ _ _ hl hz raws (parts_raws hb hx)]
    | struct hj hu hs hl hl' hz h0 =>
      simp only [hj, hu, ite_self, jdecShape, hs]
      cases hx : unmRawMap bz with
      | none => rfl
      | some m => simp only [ofOpt, Res.bind_ok, jdecFields_blind ih _ m (parts_map hb hx) _ _ _ hl hl' hz h0]

theorem unmWrapperMembers_from {P : Bytes → Prop} {l : List (Bytes × Bytes)} {acc p : Bytes × Bytes} (hl : ∀ m ∈ l, P m.2)
    (ha : acc.2 = [] ∨ P acc.2) (h : unmWrapperMembers l acc = some p) : p.2 = [] ∨ P p.2 := by
  induction l generalizing acc with
  | nil => cases h; exact ha
  | cons kv l ih =>
    obtain ⟨k, v⟩ := kv
    simp only [List.mem_cons, forall_eq_or_imp] at hl
    rw [unmWrapperMembers] at h
    split at h
    · split at h
      · exact ih hl.2 ha h
      split at h
      · obtain ⟨n, _, h⟩ := Option.bind_eq_some_iff.mp h
        exact ih (acc := (n, acc.2)) hl.2 ha h
      · cases h
    split at h
    · exact ih hl.2 (.inr hl.1) h
    · exact ih hl.2 ha h

/-- The value in a wrapper is part of the text. -/
theorem decodeInterfaceJSON_part {bz : Bytes} {nd : Bytes × Bytes} (h : decodeInterfaceJSON bz = .ok nd) :
    ∃ t x y, Spaced t nd.2 ∧ bz = x ++ (nd.2 ++ y) := by
  unfold decodeInterfaceJSON at h
  cases hu : unmWrapper bz with
  | none => rw [hu] at h; cases h
  | some p =>
    obtain ⟨name, data⟩ := p
    rw [hu] at h
    simp only at h
    split at h
    · cases h
    split at h
    · cases h
    cases h
    rename_i hne
    unfold unmWrapper at hu
    obtain ⟨raw, hraw, hu'⟩ := Option.bind_eq_some_iff.mp hu
    clear hu
    obtain ⟨w1, w2, t, h1, h2, rfl, hs⟩ := wholeVal_json hraw
    split at hu'
    · cases hu'; exact absurd rfl hne
    obtain ⟨l, hl, hu⟩ := Option.bind_eq_some_iff.mp hu'
    rcases unmWrapperMembers_from (P := fun b => ∃ t x y, Spaced t b ∧ raw = x ++ (b ++ y)) (unmMembers_part hs hl) (.inl rfl) hu with
      h | ⟨t, x, y, h, e⟩
    · exact absurd h hne
    · exact ⟨t, w1 ++ x, y ++ w2, h, by rw [e]; simp⟩

/-- C62: what UnmarshalJSON gives does not depend on old contents of the variable, except for fields tagged
`omitempty` and fields that are not encoded.  Byte slices are included (`nul = false`) if the text has the word `null` only as
the value of a member (or is `null`).

Missing for the full statement: those fields (`C62_refuted`), and `null` elsewhere (`C62_null_refuted`). -/
theorem C62_json_stale_partial {t : Ty} {p p' : Val} (h : JStale Γ J nul t p p') (g : Nat) (bz : Bytes)
    (hb : nul = false → MemberNulls bz) : unmarshalJSON Γ c J g t p bz = unmarshalJSON Γ c J g t p' bz := by
  unfold unmarshalJSON
  split
  · rfl
  congr 1; funext _
  cases hc : c.conc? t.deref with
  | none => exact jdec_blind g h {} bz hb
  | some ci =>
    simp only
    cases hd : decodeInterfaceJSON bz with
    | ok nd =>
      obtain ⟨_, _, _, hs, hx⟩ := decodeInterfaceJSON_part hd
      simp only [Res.bind_ok, jdec_blind g h {} nd.2 fun hn => memberNulls_part (hb hn) hs hx]
    | _ => rfl

/-- C62 is violated: `{}` read into a used `Rec` leaves the field tagged `omitempty` as it was. -/
theorem C62_refuted :
    unmarshalJSON JDemo.prog JDemo.codec JDemo.lib 2 (.base JDemo.recT) (JDemo.prog.zero JDemo.recT) [0x7b, 0x7d] ≠
      unmarshalJSON JDemo.prog JDemo.codec JDemo.lib 2 (.base JDemo.recT)
        (.struct [.int 0, .str [0x61], .nil, .nil, .nil, JDemo.zeroTime, .nil, .nil, .list [.int 0, .int 0],
          .struct [.int 0], .bool false, .int 0]) [0x7b, 0x7d] := by
  decide +kernel

/-- C62 is violated: `[null]` read into a byte slice leaves what was there. -/
theorem C62_null_refuted (b : UInt8) :
    unmarshalJSON JDemo.prog JDemo.codec JDemo.lib 1 (.base JDemo.bytesT) (.bytes [b]) [0x5b, 0x6e, 0x75, 0x6c, 0x6c, 0x5d] =
      .ok (.bytes [b]) := by
  have : UInt8.ofNat ((b.toNat : Int)).toNat = b := by simp
  exact congrArg (fun x => Res.ok (Val.bytes [x])) this

namespace JDemo
/-- A used `Foo` pointer and a nil one, and a text without odd `null`. -/
example (g : Nat) : unmarshalJSON prog codec lib g (.ptr (.base fooT)) (.ptr (.struct [.int 7])) [0x7b, 0x7d] =
      unmarshalJSON prog codec lib g (.ptr (.base fooT)) .nil [0x7b, 0x7d] := by
  refine C62_json_stale_partial (nul := false) (.ptr (.struct rfl rfl rfl rfl rfl ?_ ?_)) g _ fun _ => ?_
  · simp
    exact .leaf rfl rfl (by simp [prog, shape, int64T]) (by simp [prog, shape, int64T]) (by simp)
  · simp
  · intro a b h
    have := congrArg List.length h
    simp at this
    omega

/-- `{"a": null}` -/
example : MemberNulls [0x7b, 0x22, 0x61, 0x22, 0x3a, 0x20, 0x6e, 0x75, 0x6c, 0x6c, 0x7d] := by
  intro a b h
  match a with
  | [] | [_] | [_, _] | [_, _, _] | [_, _, _, _] | [_, _, _, _, _] => simp at h
  | [a1, a2, a3, a4, a5, a6] =>
    simp at h
    obtain ⟨rfl, rfl, rfl, rfl, rfl, rfl, _⟩ := h
    exact .inr ⟨[0x7b, 0x22, 0x61, 0x22], [0x20], by simp [White], rfl⟩
  | a1 :: a2 :: a3 :: a4 :: a5 :: a6 :: a7 :: a =>
    have := congrArg List.length h
    simp at this
    cases a with
    | nil => simp at h
    | cons x a => simp at this; omega
end JDemo

end Amino
