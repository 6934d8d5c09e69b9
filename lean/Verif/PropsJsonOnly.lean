import Verif.SpecJsonOnly
import Verif.JsonInv
import Verif.PropsTime

/-!
# C99: UnmarshalJSON takes JSON, and shows methods JSON
-/

namespace Amino
open Spec

theorem isJson_whole {bz raw : Bytes} (h : wholeVal bz = some raw) : IsJson bz := by
  obtain ⟨w1, w2, b, h1, h2, rfl, hs⟩ := wholeVal_json h
  exact .mk h1 h2 hs

theorem isJson_spaced {b b' : Bytes} (h : Spaced b b') : IsJson b' := by
  have := IsJson.mk (w1 := []) (w2 := []) (by simp [White]) (by simp [White]) h
  simpa using this

/-- The model of `json.Valid` decides RFC 8259. -/
theorem validJSON_iff (bz : Bytes) : validJSON bz = true ↔ IsJson bz := by
  unfold validJSON
  constructor
  · intro h
    obtain ⟨raw, hr⟩ := Option.isSome_iff_exists.mp h
    exact isJson_whole hr
  · rintro ⟨h1, h2, hs⟩
    rw [wholeVal_around hs h1 h2]; rfl

/-! ## Pieces of JSON texts -/

theorem unmRaws_json {bz : Bytes} {es : List Bytes} (h : unmRaws bz = some es) : IsJson bz ∧ ∀ e ∈ es, IsJson e := by
  unfold unmRaws at h
  obtain ⟨raw, hraw, h⟩ := Option.bind_eq_some_iff.mp h
  refine ⟨isJson_whole hraw, ?_⟩
  cases raw with
  | nil => cases h
  | cons c r =>
    simp only at h
    split at h
    · cases h; simp
    split at h
    · obtain ⟨⟨es, r'⟩, hx, rfl⟩ := Option.map_eq_some_iff.mp h
      obtain ⟨_, ss, _, rfl, _, _, hs⟩ := arrRest_inv (takesJson_skipVal _) hx
      intro e he
      obtain ⟨s, hm, rfl⟩ := List.mem_map.mp he
      exact isJson_spaced (hs s hm)
    · cases h

theorem unmMembers_json {raw : Bytes} {ms : List (Bytes × Bytes)} (h : unmMembers raw = some ms) : ∀ m ∈ ms, IsJson m.2 := by
  cases raw with
  | nil => cases h
  | cons c r =>
    unfold unmMembers at h
    simp only at h
    split at h
    · obtain ⟨⟨l, r'⟩, hx, h'⟩ := Option.bind_eq_some_iff.mp h
      obtain ⟨_, ss, _, hss, _, _, hs⟩ := objRest_inv (takesJson_skipVal _) hx
      have hl : ∀ m ∈ l, IsJson m.2 := by
        rw [hss]
        intro m hm
        obtain ⟨s, hsm, rfl⟩ := List.mem_map.mp hm
        exact isJson_spaced (hs s hsm)
      clear h hx hs hss
      have h := h'
      clear h'
      simp only at h
      induction l generalizing ms with
      | nil => cases h; simp
      | cons kv l ih =>
        rw [List.foldr_cons] at h
        obtain ⟨ms', hms', h⟩ := Option.bind_eq_some_iff.mp h
        obtain ⟨k, _, rfl⟩ := Option.map_eq_some_iff.mp h
        simp only [List.mem_cons, forall_eq_or_imp] at hl ⊢
        exact ⟨hl.1, ih hl.2 hms'⟩
    · cases h

theorem unmRawMap_json {bz : Bytes} {ms : List (Bytes × Bytes)} (h : unmRawMap bz = some ms) :
    IsJson bz ∧ ∀ m ∈ ms, IsJson m.2 := by
  unfold unmRawMap at h
  obtain ⟨raw, hraw, h⟩ := Option.bind_eq_some_iff.mp h
  refine ⟨isJson_whole hraw, ?_⟩
  split at h
  · cases h; simp
  obtain ⟨l, hl, rfl⟩ := Option.map_eq_some_iff.mp h
  intro m hm
  rcases mem_assocOf hm with hm | hm
  · exact unmMembers_json hl m hm
  · cases hm

theorem unmWrapperMembers_json {l : List (Bytes × Bytes)} {acc p : Bytes × Bytes} (hl : ∀ m ∈ l, IsJson m.2)
    (ha : acc.2 = [] ∨ IsJson acc.2) (h : unmWrapperMembers l acc = some p) : p.2 = [] ∨ IsJson p.2 := by
  induction l generalizing acc with
  | nil => cases h; exact ha
  | cons kv l ih =>
    obtain ⟨k, v⟩ := kv
    simp only [List.mem_cons, forall_eq_or_imp] at hl
    rw [unmWrapperMembers] at h
    split at h
    · split at h
      · exact ih hl.2 ha h
      split at h
      · obtain ⟨s, _, h⟩ := Option.bind_eq_some_iff.mp h
        exact ih (acc := (s, acc.2)) hl.2 ha h
      · cases h
    split at h
    · exact ih hl.2 (.inr hl.1) h
    · exact ih hl.2 ha h

theorem decodeInterfaceJSON_json {bz : Bytes} {nd : Bytes × Bytes} (h : decodeInterfaceJSON bz = .ok nd) :
    IsJson bz ∧ IsJson nd.2 := by
  unfold decodeInterfaceJSON at h
  cases hu : unmWrapper bz with
  | none => rw [hu] at h; cases h
  | some p =>
    obtain ⟨name, data⟩ := p
    rw [hu] at h
    simp only at h
    split at h
    · cases h
    split at h
    · cases h
    cases h
    rename_i hne
    unfold unmWrapper at hu
    obtain ⟨raw, hraw, hu⟩ := Option.bind_eq_some_iff.mp hu
    refine ⟨isJson_whole hraw, ?_⟩
    split at hu
    · cases hu; exact absurd rfl hne
    obtain ⟨l, hl, hu⟩ := Option.bind_eq_some_iff.mp hu
    rcases unmWrapperMembers_json (unmMembers_json hl) (.inl rfl) hu with h | h
    · exact absurd h hne
    · exact h

/-! ## Only JSON is accepted -/

section
variable {Γ : Prog} {c : Codec} {J : JLib} {rec : Ty → Val → FOpts → Bytes → Res Val}

theorem ofOpt_some {α : Type} {e : Err} {o : Option α} {a : α} (h : ofOpt e o = .ok a) : o = some a := by
  cases o with
  | none => cases h
  | some x => cases h; rfl

theorem jdecShape_json (hJ : LibJson J) {id : TId} (hk : ∀ k, Γ.shape id = .int k → k.bits ≠ 64) {p v : Val} {fo : FOpts}
    {bz : Bytes} (h : jdecShape Γ c J rec id p fo bz = .ok v) : IsJson bz := by
  have hfl : ∀ {f o x}, unmFloat f o bz = some x → (∀ {x}, f bz = some x → IsJson bz) → IsJson bz := fun h hf => by
    unfold unmFloat at h
    split at h
    · rename_i hw; exact isJson_whole hw
    · exact hf h
  have hb : ∀ {o x}, unmBytes o bz = some x → IsJson bz := fun h => by
    unfold unmBytes at h
    obtain ⟨raw, hraw, _⟩ := Option.bind_eq_some_iff.mp h
    exact isJson_whole hraw
  unfold jdecShape at h
  cases hs : Γ.shape id with
  | iface =>
    simp only [hs] at h
    unfold jdecIface at h
    obtain ⟨nd, hn, _⟩ := Res.bind_eq_ok h
    exact (decodeInterfaceJSON_json hn).1
  | array n e =>
    simp only [hs] at h
    split at h
    · unfold jdecByteArr at h
      obtain ⟨x, hx, _⟩ := Res.bind_eq_ok h
      exact hb (ofOpt_some hx)
    · obtain ⟨_, _, h⟩ := Res.bind_eq_ok h
      obtain ⟨x, hx, _⟩ := Res.bind_eq_ok h
      exact (unmRaws_json (ofOpt_some hx)).1
  | slice e =>
    simp only [hs] at h
    split at h
    · obtain ⟨x, hx, _⟩ := Res.bind_eq_ok h
      exact hb (ofOpt_some hx)
    · obtain ⟨_, _, h⟩ := Res.bind_eq_ok h
      obtain ⟨x, hx, _⟩ := Res.bind_eq_ok h
      exact (unmRaws_json (ofOpt_some hx)).1
  | struct fs =>
    simp only [hs] at h
    obtain ⟨x, hx, _⟩ := Res.bind_eq_ok h
    exact (unmRawMap_json (ofOpt_some hx)).1
  | map e =>
    simp only [hs] at h
    obtain ⟨x, hx, _⟩ := Res.bind_eq_ok h
    exact (unmRawMap_json (ofOpt_some hx)).1
  | int k =>
    simp only [hs] at h
    rw [jdecInt, if_neg (hk k hs)] at h
    obtain ⟨x, hx, _⟩ := Res.bind_eq_ok h
    have hx := ofOpt_some hx
    unfold unmInt at hx
    obtain ⟨raw, hraw, _⟩ := Option.bind_eq_some_iff.mp hx
    exact isJson_whole hraw
  | float32 =>
    simp only [hs] at h
    split at h
    · cases h
    · obtain ⟨x, hx, _⟩ := Res.bind_eq_ok h
      exact hfl (ofOpt_some hx) hJ.f32
  | float64 =>
    simp only [hs] at h
    split at h
    · cases h
    · obtain ⟨x, hx, _⟩ := Res.bind_eq_ok h
      exact hfl (ofOpt_some hx) hJ.f64
  | bool =>
    simp only [hs] at h
    obtain ⟨x, hx, _⟩ := Res.bind_eq_ok h
    have hx := ofOpt_some hx
    unfold unmBool at hx
    obtain ⟨raw, hraw, _⟩ := Option.bind_eq_some_iff.mp hx
    exact isJson_whole hraw
  | string =>
    simp only [hs] at h
    obtain ⟨x, hx, _⟩ := Res.bind_eq_ok h
    have hx := ofOpt_some hx
    unfold unmStr at hx
    obtain ⟨raw, hraw, _⟩ := Option.bind_eq_some_iff.mp hx
    exact isJson_whole hraw
  | time =>
    simp only [hs] at h
    split at h
    · split at h
      · cases h
      · obtain ⟨x, hx, _⟩ := Res.bind_eq_ok h
        exact hJ.time (ofOpt_some hx)
    · cases h

theorem isJson_null : IsJson jNull := isJson_spaced (.scalar .null (by decide) (by decide))

theorem bits64 {k : IntKind} (h : k.bits = 64) : k ∈ [IntKind.int, .int64, .uint, .uint64] := by
  cases k <;> simp_all [IntKind.bits]

theorem jdec_json (hJ : LibJson J) {g : Nat} {t : Ty} (ht : ¬ Bare64 Γ J t.deref) {p v : Val} {fo : FOpts} {bz : Bytes}
    (h : jdec Γ c J g t p fo bz = .ok v) : IsJson bz := by
  induction g generalizing t p v with
  | zero => cases h
  | succ g ih =>
    rw [jdec] at h
    split at h
    · cases h
    split at h
    · rename_i hb; subst hb; exact isJson_null
    obtain ⟨x, hx, _⟩ := Res.bind_eq_ok h
    unfold jdecBase at hx
    split at hx
    · rename_i hs
      exact jdecShape_json hJ (fun k hk => by rw [hs] at hk; cases hk) hx
    · cases hu : J.unmarsh t.deref with
      | some um => rw [hu] at hx; exact hJ.unmarsh hu hx
      | none =>
        rw [hu] at hx
        simp only at hx
        cases ha : Γ.unmarsh t.deref with
        | some q =>
          obtain ⟨rid, um⟩ := q
          rw [ha] at hx
          simp only at hx
          obtain ⟨_, _, hx⟩ := Res.bind_eq_ok hx
          obtain ⟨y, hy, _⟩ := Res.bind_eq_ok hx
          exact ih (t := .base rid) (fun hb => ht (.amino hu ha hb)) hy
        | none =>
          rw [ha] at hx
          exact jdecShape_json hJ (fun k hk hb => ht (.int hu ha hk (bits64 hb))) hx

/-- C99: what UnmarshalJSON accepts is a JSON text.  Missing: variables of unregistered types that are 64-bit integers (or
represented by one), for which it is false, see `C99_refuted`. -/
theorem C99_json_only_partial (hJ : LibJson J) {g : Nat} {t : Ty} (ht : c.conc? t.deref = none → ¬ Bare64 Γ J t.deref) {p v : Val}
    {bz : Bytes} (h : unmarshalJSON Γ c J g t p bz = .ok v) : IsJson bz := by
  unfold unmarshalJSON at h
  split at h
  · cases h
  obtain ⟨_, _, h⟩ := Res.bind_eq_ok h
  cases hc : c.conc? t.deref with
  | none => rw [hc] at h; exact jdec_json hJ (ht hc) h
  | some ci =>
    rw [hc] at h
    simp only at h
    obtain ⟨nd, hn, _⟩ := Res.bind_eq_ok h
    exact (decodeInterfaceJSON_json hn).1

end

/-! ## Methods see JSON -/

section
variable {Γ : Prog} {c : Codec} {J J' : JLib} {rec rec' : Ty → Val → FOpts → Bytes → Res Val}

/-- Equal on JSON texts. -/
def SameRec (rec rec' : Ty → Val → FOpts → Bytes → Res Val) : Prop := ∀ t p fo b, IsJson b → rec t p fo b = rec' t p fo b

theorem jdecArr_onJson (hr : SameRec rec rec') {e : Ty} {fo : FOpts} {ps : List Val} {bs : List Bytes} (hb : ∀ b ∈ bs, IsJson b) :
    jdecArr rec e fo ps bs = jdecArr rec' e fo ps bs := by
  induction bs generalizing ps with
  | nil => cases ps <;> rfl
  | cons b bs ih =>
    simp only [List.mem_cons, forall_eq_or_imp] at hb
    cases ps with
    | nil => rfl
    | cons p ps => rw [jdecArr, jdecArr, hr _ _ _ _ hb.1, ih hb.2]

theorem jdecElems_onJson (hr : SameRec rec rec') {e : Ty} {fo : FOpts} {bs : List Bytes} (hb : ∀ b ∈ bs, IsJson b) :
    jdecElems Γ rec e fo bs = jdecElems Γ rec' e fo bs := by
  induction bs with
  | nil => rfl
  | cons b bs ih =>
    simp only [List.mem_cons, forall_eq_or_imp] at hb
    rw [jdecElems, jdecElems, hr _ _ _ _ hb.1, ih hb.2]

theorem jdecEntries_onJson (hr : SameRec rec rec') {e : Ty} {fo : FOpts} {ms : List (Bytes × Bytes)} (hb : ∀ m ∈ ms, IsJson m.2) :
    jdecEntries Γ rec e fo ms = jdecEntries Γ rec' e fo ms := by
  induction ms with
  | nil => rfl
  | cons m ms ih =>
    obtain ⟨k, b⟩ := m
    simp only [List.mem_cons, forall_eq_or_imp] at hb
    rw [jdecEntries, jdecEntries, hr _ _ _ _ hb.1, ih hb.2]

theorem jdecFields_onJson (hr : SameRec rec rec') {fo : FOpts} {ms : List (Bytes × Bytes)} (hb : ∀ m ∈ ms, IsJson m.2)
    {fs : List Field} {ps : List Val} : jdecFields Γ c rec fo ms fs ps = jdecFields Γ c rec' fo ms fs ps := by
  induction fs generalizing ps with
  | nil => cases ps <;> rfl
  | cons f fs ih =>
    cases ps with
    | nil => rfl
    | cons p ps =>
      have hf : jdecField Γ rec fo ms f p = jdecField Γ rec' fo ms f p := by
        unfold jdecField
        cases hl : ms.lookup f.opts.jsonName with
        | none => rfl
        | some b => simp only [hr _ p fo _ (hb _ (mem_of_lookup hl))]
      rw [jdecFields, jdecFields, hf, ih]

theorem jdecShape_onJson (hJ : SameOnJson J J') (hr : SameRec rec rec') {id : TId} {p : Val} {fo : FOpts} {bz : Bytes}
    (hb : IsJson bz) : jdecShape Γ c J rec id p fo bz = jdecShape Γ c J' rec' id p fo bz := by
  unfold jdecShape
  cases hs : Γ.shape id with
  | iface =>
    simp only [jdecIface]
    cases hd : decodeInterfaceJSON bz with
    | ok nd =>
      simp only [Res.bind_ok]
      cases c.name? nd.1 with
      | none => rfl
      | some ci => simp only [hr _ _ _ _ (decodeInterfaceJSON_json hd).2]
    | err e => rfl
    | panic e => rfl
    | oof => rfl
  | array n e =>
    simp only
    split
    · rfl
    congr 1; funext _
    cases hu : unmRaws bz with
    | none => rfl
    | some raws =>
      simp only [ofOpt, Res.bind_ok]
      split
      · rfl
      · cases p <;> first | rfl | simp only [jdecArr_onJson hr (unmRaws_json hu).2]
  | slice e =>
    simp only
    split
    · rfl
    congr 1; funext _
    cases hu : unmRaws bz with
    | none => rfl
    | some raws => simp only [ofOpt, Res.bind_ok, jdecElems_onJson hr (unmRaws_json hu).2]
  | struct fs =>
    simp only
    cases hu : unmRawMap bz with
    | none => rfl
    | some ms =>
      simp only [ofOpt, Res.bind_ok]
      cases p <;> first | rfl | simp only [jdecFields_onJson hr (unmRawMap_json hu).2]
  | map e =>
    simp only
    cases hu : unmRawMap bz with
    | none => rfl
    | some ms => simp only [ofOpt, Res.bind_ok, jdecEntries_onJson hr (unmRawMap_json hu).2]
  | float32 => simp only [unmFloat, hJ.f32 hb]
  | float64 => simp only [unmFloat, hJ.f64 hb]
  | time => simp only [hJ.time hb]
  | int k => rfl
  | bool => rfl
  | string => rfl

theorem jdec_onJson (hJ : SameOnJson J J') (g : Nat) : SameRec (jdec Γ c J g) (jdec Γ c J' g) := by
  induction g with
  | zero => intro _ _ _ _ _; rfl
  | succ g ih =>
    intro t p fo bz hb
    rw [jdec, jdec]
    congr 2
    refine congrArg (fun x => Res.bind x _) ?_
    unfold jdecBase
    split
    · exact jdecShape_onJson hJ ih hb
    · cases hu : J.unmarsh t.deref with
      | some um =>
        obtain ⟨um', hu', he⟩ := hJ.some hu
        rw [hu']
        exact he _ _ hb
      | none =>
        rw [hJ.none hu]
        simp only
        cases ha : Γ.unmarsh t.deref with
        | some q => simp only [ih _ _ _ _ hb]
        | none => exact jdecShape_onJson hJ ih hb

/-- C99: what UnmarshalJSON does depends on what the library and the UnmarshalJSON methods do with JSON texts only.  Missing:
texts that are not JSON, into variables of unregistered types, for which it is false, see `C99_refuted`. -/
theorem C99_methods_partial (hJ : SameOnJson J J') {g : Nat} {t : Ty} {p : Val} {bz : Bytes}
    (h : IsJson bz ∨ c.conc? t.deref ≠ none) : unmarshalJSON Γ c J g t p bz = unmarshalJSON Γ c J' g t p bz := by
  unfold unmarshalJSON
  split
  · rfl
  congr 1; funext _
  cases hc : c.conc? t.deref with
  | none =>
    simp only
    rcases h with h | h
    · exact jdec_onJson hJ g _ _ _ _ h
    · exact absurd hc h
  | some ci =>
    simp only
    cases hd : decodeInterfaceJSON bz with
    | ok nd => simp only [Res.bind_ok, jdec_onJson hJ g _ _ _ _ (decodeInterfaceJSON_json hd).2]
    | err e => rfl
    | panic e => rfl
    | oof => rfl

end

/-! ## The modelled times -/

theorem digit_plain {c : UInt8} (h : Digit c) : 0x20 ≤ c ∧ c ≠ 0x22 ∧ c ≠ 0x5c :=
  ⟨UInt8.le_trans (by decide) h.1, digit_ne h (by decide), digit_ne h (by decide)⟩

theorem laxFrac_plain {n : Nat} {f : Bytes} (h : LaxFrac n f) : ∀ x ∈ f, 0x20 ≤ x ∧ x ≠ 0x22 ∧ x ≠ 0x5c := by
  cases h with
  | none => simp
  | some _ hd _ =>
    simp only [List.mem_cons, forall_eq_or_imp]
    exact ⟨by decide, fun x hx => digit_plain (hd x hx)⟩

theorem laxText_str {x : Stamp} {b : Bytes} (h : LaxText x b) : StrText b := by
  cases h with
  | @mk w y mo d h mi s f h1 h2 h3 _ h4 h5 h6 h7 =>
    have := StrText.mk (b := y ++ 0x2d :: (mo ++ 0x2d :: (d ++ 0x54 :: (h ++ 0x3a :: (mi ++ 0x3a :: (s ++ (f ++ [0x5a]))))))) (strBody_plain (by
      have hn : ∀ {w n : Nat} {b : Bytes}, Numeral w n b → ∀ x ∈ b, 0x20 ≤ x ∧ x ≠ 0x22 ∧ x ≠ 0x5c :=
        fun hb x hx => digit_plain (hb.digits x hx)
      intro c hc
      simp only [List.mem_append, List.mem_cons, List.not_mem_nil, or_false] at hc
      rcases hc with hc | rfl | hc | rfl | hc | rfl | hc | rfl | hc | rfl | hc | hc | rfl
      · exact hn h1 c hc
      · decide
      · exact hn h2 c hc
      · decide
      · exact hn h3 c hc
      · decide
      · exact hn h4 c hc
      · decide
      · exact hn h5 c hc
      · decide
      · exact hn h6 c hc
      · exact laxFrac_plain h7 c hc
      · decide))
    simpa using this

/-- With the modelled times, `LibJson` is about floats and methods only. -/
theorem libJson_withTime {J : JLib} (h32 : ∀ {b x}, J.f32Parse b = some x → IsJson b) (h64 : ∀ {b x}, J.f64Parse b = some x → IsJson b)
    (hm : ∀ {id um p b v}, J.unmarsh id = some um → um p b = .ok v → IsJson b) : LibJson J.withTime where
  f32 := h32
  f64 := h64
  unmarsh := hm
  time := by
    rintro b ⟨s, ns⟩ h
    obtain ⟨x, _, hl, _⟩ := parse_inv h
    have hs := laxText_str hl
    exact isJson_spaced (.scalar (.str hs) (by cases hs; simp) (by cases hs; simp))

namespace JDemo

theorem libJson : LibJson lib.withTime := by
  refine libJson_withTime (fun h => by cases h) ?_ (fun h => by cases h)
  intro b x h
  simp only [lib] at h
  split at h
  · rename_i hb
    subst hb
    exact (validJSON_iff _).mp (by decide)
  · cases h

theorem bare64_int64 : Bare64 prog lib.withTime int64T := .int (k := .int64) rfl rfl rfl (by simp)

theorem not_bare64_rec : ¬ Bare64 prog lib.withTime recT := by
  intro h
  cases h with
  | int _ _ h _ => cases h
  | amino _ h _ => cases h

/-- `[ "5" , "-7" ]` into a `[]int64` -/
example : IsJson [0x5b, 0x20, 0x22, 0x35, 0x22, 0x20, 0x2c, 0x22, 0x2d, 0x37, 0x22, 0x5d, 0x0a] :=
  C99_json_only_partial (Γ := prog) (c := codec) (g := 2) (t := .base 11) (p := .nil) (v := .list [.int 5, .int (-7)]) libJson
    (fun _ h => by
      cases h with
      | int _ _ h _ => cases h
      | amino _ h _ => cases h) (by decide +kernel)

/-- Methods: `Bar` has an UnmarshalJSON that never fails. -/
def libAny : JLib := { lib with unmarsh := fun id => if id = barT then some fun _ b => .ok (.struct [.str b]) else none }

/-- The same, but it panics if the text is not JSON. -/
def libPanics : JLib :=
  { lib with unmarsh := fun id => if id = barT then some fun _ b => if validJSON b then .ok (.struct [.str b]) else .panic .index else none }

theorem same_any : SameOnJson libAny libPanics where
  f32 _ := rfl
  f64 _ := rfl
  time _ := rfl
  none := by
    intro id h
    simp only [libAny, libPanics] at h ⊢
    split at h
    · cases h
    · rename_i hb; rw [if_neg hb]
  some := by
    intro id um h
    simp only [libAny, libPanics] at h ⊢
    split at h
    · rename_i hb
      cases h
      rw [if_pos hb]
      exact ⟨_, rfl, fun p b hj => by rw [(validJSON_iff b).mpr hj]; rfl⟩
    · cases h

/-- `{"a":1}` into a `Bar` -/
example := C99_methods_partial (Γ := prog) (c := codec) (g := 1) (t := .base barT) (p := .struct [.str []])
  (bz := [0x7b, 0x22, 0x61, 0x22, 0x3a, 0x31, 0x7d]) same_any (.inl ((validJSON_iff _).mp (by decide +kernel)))

end JDemo

/-- C99 is violated: a line break in quotes followed by a 5, which is no JSON text, is accepted as an int64; and the
UnmarshalJSON method of the type of the variable is called with anything, here a `}`: what it does with that decides between
success and a panic. -/
theorem C99_refuted (p : Val) :
    (unmarshalJSON JDemo.prog JDemo.codec JDemo.lib.withTime 1 (.base JDemo.int64T) p [0x22, 0x0a, 0x35, 0x22] = .ok (.int 5) ∧
      ¬ IsJson [0x22, 0x0a, 0x35, 0x22]) ∧
    (SameOnJson JDemo.libAny JDemo.libPanics ∧ ¬ IsJson [0x7d] ∧
      unmarshalJSON JDemo.prog JDemo.codec JDemo.libAny 1 (.base JDemo.barT) p [0x7d] = .ok (.struct [.str [0x7d]]) ∧
      unmarshalJSON JDemo.prog JDemo.codec JDemo.libPanics 1 (.base JDemo.barT) p [0x7d] = .panic .index) := by
  refine ⟨⟨rfl, fun h => ?_⟩, JDemo.same_any, fun h => ?_, rfl, rfl⟩
  · exact absurd ((validJSON_iff _).mpr h) (by decide)
  · exact absurd ((validJSON_iff _).mpr h) (by decide)

end Amino
