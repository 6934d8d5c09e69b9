import Verif.SpaceLemmas
import Verif.JDemo
import Verif.IndentLemmas

/-!
# C70, C71: white space between the tokens of a JSON text, MarshalJSONIndent
-/

namespace Amino
open Spec

variable {Γ : Prog} {c : Codec} {J : JLib} {rec : Ty → Val → FOpts → Bytes → Res Val}

theorem white_nil : White [] := by simp [White]

section
variable (hrec : ∀ t p fo b b', Spaced b b' → rec t p fo b' = rec t p fo b)
include hrec

theorem jdecArr_pairs {e : Ty} {fo : FOpts} {bs bs' : List Bytes} (h : Pairs Spaced bs bs') (ps : List Val) :
    jdecArr rec e fo ps bs' = jdecArr rec e fo ps bs := by
  induction h generalizing ps with
  | nil => cases ps <;> rfl
  | cons hb _ ih =>
    cases ps with
    | nil => rfl
    | cons p ps => simp only [jdecArr, hrec _ _ _ _ _ hb, ih]

theorem jdecElems_pairs {e : Ty} {fo : FOpts} {bs bs' : List Bytes} (h : Pairs Spaced bs bs') :
    jdecElems Γ rec e fo bs' = jdecElems Γ rec e fo bs := by
  induction h with
  | nil => rfl
  | cons hb _ ih => simp only [jdecElems, hrec _ _ _ _ _ hb, ih]

theorem jdecEntries_same {e : Ty} {fo : FOpts} {l l' : List (Bytes × Bytes)} (h : SameMembers l l') :
    jdecEntries Γ rec e fo l' = jdecEntries Γ rec e fo l := by
  induction h with
  | nil => rfl
  | @cons p q l l' hpq _ ih =>
    obtain ⟨k, v⟩ := p
    obtain ⟨k', v'⟩ := q
    obtain ⟨rfl, hv⟩ := hpq
    simp only [jdecEntries, hrec _ _ _ _ _ hv, ih]

omit hrec in
theorem lookup_same {l l' : List (Bytes × Bytes)} (h : SameMembers l l') (k : Bytes) :
    (l.lookup k = none ∧ l'.lookup k = none) ∨ ∃ v v', l.lookup k = some v ∧ l'.lookup k = some v' ∧ Spaced v v' := by
  induction h with
  | nil => exact .inl ⟨rfl, rfl⟩
  | @cons p q l l' hpq _ ih =>
    obtain ⟨k1, v1⟩ := p
    obtain ⟨k2, v2⟩ := q
    obtain ⟨rfl, hv⟩ := hpq
    simp only [List.lookup_cons]
    cases k == k1 with
    | true => exact .inr ⟨v1, v2, rfl, rfl, hv⟩
    | false => exact ih

theorem jdecField_same {fo : FOpts} {l l' : List (Bytes × Bytes)} (h : SameMembers l l') (f : Field) (p : Val) :
    jdecField Γ rec fo l' f p = jdecField Γ rec fo l f p := by
  unfold jdecField
  rcases lookup_same h f.opts.jsonName with ⟨h1, h2⟩ | ⟨v, v', h1, h2, hv⟩
  · rw [h1, h2]
  · rw [h1, h2]
    simp only [(spaced_nil hv).1, (spaced_nil hv).2, if_false]
    exact hrec _ _ _ _ _ hv

theorem jdecFields_same {fo : FOpts} {l l' : List (Bytes × Bytes)} (h : SameMembers l l') (fs : List Field)
    (ps : List Val) : jdecFields Γ c rec fo l' fs ps = jdecFields Γ c rec fo l fs ps := by
  induction fs generalizing ps with
  | nil => cases ps <;> rfl
  | cons f fs ih =>
    cases ps with
    | nil => rfl
    | cons p ps => simp only [jdecFields, jdecField_same hrec h, ih]

theorem jdecIface_around {id : TId} {fo : FOpts} {b b' w1 w2 : Bytes} (h : Spaced b b') (h1 : White w1) (h2 : White w2) :
    jdecIface Γ c rec id fo (w1 ++ (b' ++ w2)) = jdecIface Γ c rec id fo b := by
  unfold jdecIface
  rcases decodeInterfaceJSON_around h h1 h2 with ⟨e1, e2⟩ | ⟨n, d, d', e1, e2, hd⟩
  · rw [e1, e2]
  · rw [e1, e2]
    simp only [Res.bind]
    cases c.name? n with
    | none => rfl
    | some ci => simp only [hrec _ _ _ _ _ hd]

omit hrec in
theorem unmFloat_around {b b' : Bytes} (h : Spaced b b') {f : Bytes → Option UInt64} (hf : f b' = f b) (old : UInt64) :
    unmFloat f old b' = unmFloat f old b := by
  have h0 := wholeVal_around h (w1 := []) (w2 := []) (by simp [White]) (by simp [White])
  simp only [List.nil_append, List.append_nil] at h0
  unfold unmFloat
  rw [h0, wholeVal_jtext (spaced_jtext h), hf]
  cases h with
  | scalar => rfl
  | arr => simp [jNull]
  | obj => simp [jNull]

theorem jdecShape_around (hJ : LibSpace J) {id : TId} {p : Val} {fo : FOpts} {b b' w1 w2 : Bytes} (h : Spaced b b')
    (h1 : White w1) (h2 : White w2) (hw : (w1 = [] ∧ w2 = []) ∨ jsonRead (Γ.shape id)) :
    jdecShape Γ c J rec id p fo (w1 ++ (b' ++ w2)) = jdecShape Γ c J rec id p fo b := by
  have hraws := unmRaws_around h h1 h2
  have hmap := unmRawMap_around h h1 h2
  have hplain : ∀ {x : Prop}, (w1 = [] ∧ w2 = []) ∨ x → ¬ x → w1 ++ (b' ++ w2) = b' := by
    intro x hx hn
    rcases hx with ⟨rfl, rfl⟩ | hx
    · simp
    · exact absurd hx hn
  unfold jdecShape
  cases hs : Γ.shape id with
  | iface => simp only; exact jdecIface_around hrec h h1 h2
  | array n e =>
    simp only
    split
    · unfold jdecByteArr; rw [unmBytes_around h h1 h2 _]
    · congr 1; funext _
      cases hx : unmRaws b <;> cases hy : unmRaws (w1 ++ (b' ++ w2)) <;> rw [hx, hy] at hraws <;> cases hraws
      · rename_i l l' hl
        simp only [ofOpt, Res.bind]
        have hlen : l'.length = l.length := by
          clear hx hy
          induction hl with
          | nil => rfl
          | cons _ _ ih => simp [ih]
        rw [hlen]
        split
        · rfl
        · cases p <;> simp only [jdecArr_pairs hrec hl]
  | slice e =>
    simp only
    split
    · rw [unmBytes_around h h1 h2 _]
    · congr 1; funext _
      cases hx : unmRaws b <;> cases hy : unmRaws (w1 ++ (b' ++ w2)) <;> rw [hx, hy] at hraws <;> cases hraws
      · rename_i l l' hl
        simp only [ofOpt, Res.bind, jdecElems_pairs (Γ := Γ) hrec hl]
        have hlen : l'.length = l.length := by
          clear hx hy
          induction hl with
          | nil => rfl
          | cons _ _ ih => simp [ih]
        rw [hlen]
  | struct fs =>
    simp only
    cases hx : unmRawMap b <;> cases hy : unmRawMap (w1 ++ (b' ++ w2)) <;> rw [hx, hy] at hmap <;> cases hmap
    · rename_i l l' hl
      simp only [ofOpt, Res.bind]
      cases p <;> simp only [jdecFields_same hrec hl]
  | map e =>
    simp only
    cases hx : unmRawMap b <;> cases hy : unmRawMap (w1 ++ (b' ++ w2)) <;> rw [hx, hy] at hmap <;> cases hmap
    · rename_i l l' hl
      simp only [ofOpt, Res.bind, jdecEntries_same hrec hl]
  | int k =>
    simp only
    unfold jdecInt
    by_cases hk : k.bits = 64
    · rw [hplain hw (by rw [hs]; simp [jsonRead, hk])]
      cases h with
      | scalar => rfl
      | arr => simp [hk]
      | obj => simp [hk]
    · rw [if_neg hk, if_neg hk, unmInt_around h h1 h2]
  | float32 => simp only; rw [hplain hw (by rw [hs]; simp [jsonRead]), unmFloat_around h (hJ.f32 h)]
  | float64 => simp only; rw [hplain hw (by rw [hs]; simp [jsonRead]), unmFloat_around h (hJ.f64 h)]
  | bool => simp only; rw [unmBool_around h h1 h2]
  | string => simp only; rw [unmStr_around h h1 h2]
  | time =>
    rw [hplain hw (by rw [hs]; simp [jsonRead])]
    cases h with
    | scalar => rfl
    | arr => simp
    | obj => simp

theorem jdecBase_spaced (hJ : LibSpace J) {id : TId} {p : Val} {fo : FOpts} {b b' : Bytes} (h : Spaced b b') :
    jdecBase Γ c J rec id p fo b' = jdecBase Γ c J rec id p fo b := by
  have hs := jdecShape_around (Γ := Γ) (c := c) (id := id) (p := p) (fo := fo) hrec hJ h white_nil white_nil (.inl ⟨rfl, rfl⟩)
  rw [List.nil_append, List.append_nil] at hs
  unfold jdecBase
  split
  · exact hs
  · cases hu : J.unmarsh id with
    | some um => exact hJ.unmarsh hu h
    | none =>
      cases Γ.unmarsh id with
      | none => exact hs
      | some ru => simp only [hrec _ _ _ _ _ h]

end

theorem jdec_spaced (hJ : LibSpace J) (g : Nat) {t : Ty} {p : Val} {fo : FOpts} {b b' : Bytes} (h : Spaced b b') :
    jdec Γ c J g t p fo b' = jdec Γ c J g t p fo b := by
  induction g generalizing t p fo b b' with
  | zero => rfl
  | succ g ih =>
    unfold jdec
    split
    · rfl
    by_cases hn : b = jNull
    · rw [if_pos hn, if_pos ((spaced_null h).1 hn)]
    · rw [if_neg hn, if_neg fun hb => hn ((spaced_null h).2 hb), jdecBase_spaced (rec := jdec Γ c J g) (fun _ _ _ _ _ h => ih h) hJ h]

/-- C70, what holds of the unchanged code: white space between the tokens of a JSON text makes no difference to
UnmarshalJSON, for any target.
Missing: white space before and after the whole text, see `C70_json_around_partial` and `C70_refuted`. -/
theorem C70_json_space_partial (hJ : LibSpace J) (g : Nat) (t : Ty) (p : Val) {b b' : Bytes} (h : Spaced b b') :
    unmarshalJSON Γ c J g t p b' = unmarshalJSON Γ c J g t p b := by
  unfold unmarshalJSON
  rw [if_neg (spaced_nil h).1, if_neg (spaced_nil h).2]
  congr 1; funext _
  cases c.conc? t.deref with
  | none => exact jdec_spaced hJ g h
  | some ci =>
    have hd := decodeInterfaceJSON_around h white_nil white_nil
    rw [List.nil_append, List.append_nil] at hd
    rcases hd with ⟨e1, e2⟩ | ⟨n, d, d', e1, e2, hd⟩
    · simp only [e1, e2]
    · simp only [e1, e2, Res.bind, jdec_spaced hJ g hd]

/-- C70, white space around the text: it makes no difference if the target type is registered; nor if the text is not
`null` and the target, behind pointers, is of a kind that `json.Unmarshal` reads and has no methods of its own.
Missing: 64-bit integers, times and floats, `null`, and targets with methods (`C70_refuted`). -/
theorem C70_json_around_partial (hJ : LibSpace J) (g : Nat) (t : Ty) (p : Val) {b b' w1 w2 : Bytes} (h : Spaced b b')
    (h1 : White w1) (h2 : White w2)
    (ht : (∃ ci, c.conc? t.deref = some ci) ∨
      (b ≠ [0x6e, 0x75, 0x6c, 0x6c] ∧ jsonRead (Γ.shape t.deref) ∧ Γ.unmarsh t.deref = none ∧ J.unmarsh t.deref = none)) :
    unmarshalJSON Γ c J g t p (w1 ++ (b' ++ w2)) = unmarshalJSON Γ c J g t p b := by
  unfold unmarshalJSON
  rw [if_neg (spaced_nil h).1, if_neg (by simp [(spaced_nil h).2])]
  congr 1; funext _
  cases hc : c.conc? t.deref with
  | some ci =>
    rcases decodeInterfaceJSON_around h h1 h2 with ⟨e1, e2⟩ | ⟨n, d, d', e1, e2, hd⟩
    · simp only [e1, e2]
    · simp only [e1, e2, Res.bind, jdec_spaced hJ g hd]
  | none =>
    rcases ht with ⟨ci, h⟩ | ⟨hn, hs, hu, hj⟩
    · rw [hc] at h; cases h
    simp only
    cases g with
    | zero => rfl
    | succ g =>
      have hn' : w1 ++ (b' ++ w2) ≠ jNull := by
        intro he
        have := wholeVal_around h h1 h2
        rw [he] at this
        have hj : wholeVal jNull = some jNull := by decide +kernel
        rw [hj] at this
        exact hn ((spaced_null h).2 (by simpa using this.symm))
      have hst : Γ.shape t.deref ≠ .time := by intro he; rw [he] at hs; exact hs
      unfold jdec
      by_cases hi : (Γ.isIface t.deref && t.isPtr) = true
      · rw [if_pos hi, if_pos hi]
      rw [if_neg hi, if_neg hi, if_neg hn', if_neg (show ¬ b = jNull from hn)]
      unfold jdecBase
      rw [if_neg hst, if_neg hst, hj, hu]
      simp only
      rw [jdecShape_around (rec := jdec Γ c J g) (fun _ _ _ _ _ h => jdec_spaced hJ g h) hJ h h1 h2 (.inr hs)]

/-- C70 fails for white space around the whole text: ` "5"` is not an int64, though `"5"` is; ` null` does not make an
interface nil, though `null` does. -/
theorem C70_refuted :
    (unmarshalJSON JDemo.prog JDemo.codec JDemo.lib 3 (.base JDemo.int64T) (.int 0) [0x22, 0x35, 0x22] = .ok (.int 5) ∧
      ∃ e, unmarshalJSON JDemo.prog JDemo.codec JDemo.lib 3 (.base JDemo.int64T) (.int 0) [0x20, 0x22, 0x35, 0x22] = .err e) ∧
    unmarshalJSON JDemo.prog JDemo.codec JDemo.lib 3 (.base JDemo.ifaceT) .nil [0x6e, 0x75, 0x6c, 0x6c] = .ok .nil ∧
      ∃ e, unmarshalJSON JDemo.prog JDemo.codec JDemo.lib 3 (.base JDemo.ifaceT) .nil [0x20, 0x6e, 0x75, 0x6c, 0x6c] = .err e :=
  ⟨⟨by decide +kernel, _, rfl⟩, by decide +kernel, _, rfl⟩

/-- C71: if MarshalJSON's text is JSON without white space between tokens, MarshalJSONIndent with a prefix and an
indentation of white space succeeds, and UnmarshalJSON makes the same of its text as of MarshalJSON's. -/
theorem C71_json_indent (hJ : LibSpace J) {fuel : Nat} {o : Option (Ty × Val)} {pre ind bz : Bytes} (hp : White pre)
    (hi : White ind) (he : marshalJSON Γ c J fuel o = .ok bz) (hb : JText bz) :
    ∃ bz', marshalJSONIndent Γ c J fuel pre ind o = .ok bz' ∧ Spaced bz bz' ∧
      ∀ g t p, unmarshalJSON Γ c J g t p bz' = unmarshalJSON Γ c J g t p bz := by
  obtain ⟨b', h1, h3⟩ := indentJSON_laid (pre := pre) (ind := ind) hb
  have h2 := laid_spaced hp hi h3
  refine ⟨b', ?_, h2, fun g t p => C70_json_space_partial hJ g t p h2⟩
  rw [marshalJSONIndent, he, Res.bind_ok, h1]
  rfl

/-- C71: MarshalJSONIndent lays out MarshalJSON's text as documented, whatever the prefix and the indentation are. -/
theorem C71_json_layout {fuel : Nat} {o : Option (Ty × Val)} {pre ind bz : Bytes}
    (he : marshalJSON Γ c J fuel o = .ok bz) (hb : JText bz) :
    ∃ bz', marshalJSONIndent Γ c J fuel pre ind o = .ok bz' ∧ Laid pre ind 0 bz bz' := by
  obtain ⟨b', h1, h3⟩ := indentJSON_laid (pre := pre) (ind := ind) hb
  refine ⟨b', ?_, h3⟩
  rw [marshalJSONIndent, he, Res.bind_ok, h1]
  rfl

/-- C71: what MarshalJSONIndent writes is read back as what MarshalJSON writes. -/
theorem C71_json_indent_roundtrip {S : TId → Prop} (hJ : LibSpace J) (hU : JUniv Γ c J false S) (hL : LibOk J) (hT : Γ.Typed)
    (hZ : ZeroOk Γ) (hum : UserTotal Γ) {fuel : Nat} {t : Ty} {v : Val} {pre ind bz : Bytes} (hp : White pre)
    (hi : White ind) (hS : JOk Γ S t) (ht : HasTy Γ t v) (hN : ∀ ci, c.conc? t.deref = some ci → PlainName ci.name)
    (he : marshalJSON Γ c J fuel (some (t, v)) = .ok bz) :
    ∃ bz' w, marshalJSONIndent Γ c J fuel pre ind (some (t, v)) = .ok bz' ∧ jnorm Γ c fuel t v = some w ∧ HasTy Γ t w ∧
      ∀ g, fuel ≤ g → unmarshalJSON Γ c J g t (zeroOf Γ t) bz' = .ok w := by
  obtain ⟨hb, w, hw, htw, hd⟩ := roundtrip_aux hU hL hT hZ hum hS ht hN rfl he
  obtain ⟨bz', h1, _, h2⟩ := C71_json_indent hJ hp hi he hb
  exact ⟨bz', w, h1, hw, htw, fun g hg => by rw [h2, hd g hg]⟩

namespace JDemo

theorem libSpace : LibSpace lib where
  f32 _ := rfl
  f64 := by
    intro b b' h
    cases h with
    | scalar => rfl
    | arr => simp [lib]
    | obj => simp [lib]
  unmarsh h := by cases h

/-- `{"N":"5"}` as `{ "N" :⏎"5"}`. -/
theorem spaced1 : Spaced [0x7b, 0x22, 0x4e, 0x22, 0x3a, 0x22, 0x35, 0x22, 0x7d]
    [0x7b, 0x20, 0x22, 0x4e, 0x22, 0x20, 0x3a, 0x0a, 0x22, 0x35, 0x22, 0x7d] := by
  have hs : ∀ {a : UInt8}, 0x20 ≤ a → a ≠ 0x22 → a ≠ 0x5c → StrText [0x22, a, 0x22] :=
    fun h1 h2 h3 => .mk (b := [_]) (.plain h1 h2 h3 .nil)
  refine .obj (w := []) (ms := [⟨[0x22, 0x4e, 0x22], [0x22, 0x35, 0x22], [0x20], [0x20], [0x0a], [0x22, 0x35, 0x22], []⟩])
    white_nil ?_ ?_
  · simp only [List.mem_cons, List.not_mem_nil, or_false, forall_eq]
    exact ⟨hs (by decide) (by decide) (by decide), by simp [White], by simp [White], by simp [White], by simp [White]⟩
  · simp only [List.mem_cons, List.not_mem_nil, or_false, forall_eq]
    exact .scalar (.str (hs (by decide) (by decide) (by decide))) (by decide) (by decide)

example : unmarshalJSON prog { codec with concs := [] } lib 3 (.base fooT) (.struct [.int 0])
    [0x7b, 0x20, 0x22, 0x4e, 0x22, 0x20, 0x3a, 0x0a, 0x22, 0x35, 0x22, 0x7d] = .ok (.struct [.int 5]) := by
  rw [C70_json_space_partial libSpace 3 (.base fooT) _ spaced1]
  decide +kernel

example : unmarshalJSON prog { codec with concs := [] } lib 3 (.base fooT) (.struct [.int 0])
    ([0x20] ++ ([0x7b, 0x20, 0x22, 0x4e, 0x22, 0x20, 0x3a, 0x0a, 0x22, 0x35, 0x22, 0x7d] ++ [0x0a])) =
      .ok (.struct [.int 5]) := by
  rw [C70_json_around_partial (Γ := prog) libSpace 3 (.base fooT) _ spaced1 (by simp [White]) (by simp [White])
    (.inr ⟨by decide, trivial, rfl, rfl⟩)]
  decide +kernel

/-- `rec1`, indented by a tab, with prefix ` `. -/
example : ∃ bz', marshalJSONIndent prog codec lib 5 [0x20] [0x09] (some (.base recT, rec1)) = .ok bz' ∧
    unmarshalJSON prog codec lib 5 (.base recT) (zeroOf prog (.base recT)) bz' = .ok rec1Back := by
  obtain ⟨bz', w, h1, h2, _, h3⟩ := C71_json_indent_roundtrip libSpace (univ false) libOk typed zeroOk user_total (fuel := 5)
    (pre := [0x20]) (ind := [0x09]) (by simp [White]) (by simp [White]) (base_ok (by decide) (by decide)) rec1_typed
    (by intro ci h; rw [(conc_foo h).1]; exact plain_f) rec1_marshals
  refine ⟨bz', h1, ?_⟩
  have : jnorm prog codec 5 (.base recT) rec1 = some rec1Back := by decide +kernel
  rw [h3 5 (Nat.le_refl _), ← Option.some.inj (this.symm.trans h2)]

/-- The same laid out with a prefix that is not white space. -/
example : ∃ bz', marshalJSONIndent prog codec lib 5 [0x2f, 0x2f] [0x09] (some (.base recT, rec1)) = .ok bz' ∧
    Laid [0x2f, 0x2f] [0x09] 0 rec1Text bz' :=
  C71_json_layout rec1_marshals (roundtrip_aux (univ false) libOk typed zeroOk user_total (base_ok (by decide) (by decide))
    rec1_typed (by intro ci h; rw [(conc_foo h).1]; exact plain_f) rfl rec1_marshals).1

/-- `Foo{9}`: `{"type": "f", "value": {"N": "9"}}` over five lines. -/
example : marshalJSONIndent prog codec lib 5 [] [0x20] (some (.base fooT, .struct [.int 9])) =
    .ok ("{\n \"type\": \"f\",\n \"value\": {\n  \"N\": \"9\"\n }\n}".toUTF8.toList) := by
  decide +kernel

end JDemo

end Amino
