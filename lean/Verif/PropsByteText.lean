import Verif.B64Inv
import Verif.PropsJsonOnly

/-!
# C100: the JSON texts for strings of bytes
-/

namespace Amino
open Spec

/-! ## Elements of an array -/

theorem byteText_jtext {o x : UInt8} {b : Bytes} (h : ByteText o x b) : JText b ∧ b.head? ≠ some 0x5b ∧ b.head? ≠ some 0x7b := by
  cases h with
  | null => exact ⟨.null, by decide, by decide⟩
  | num h1 _ =>
    have hn : NumText b := by simpa using NumText.pos (f := []) (e := []) h1 .none .none
    exact ⟨.num hn, numText_head hn⟩

theorem byteText_spaced {o x : UInt8} {b : Bytes} (h : ByteText o x b) : Spaced b b :=
  .scalar (byteText_jtext h).1 (byteText_jtext h).2.1 (byteText_jtext h).2.2

theorem parseDigits_of {ds : Bytes} (h : ∀ x ∈ ds, Digit x) (a : Nat) :
    parseDigits ds a = some (ds.foldl (fun n d => 10 * n + (d.toNat - 48)) a) := by
  induction ds generalizing a with
  | nil => rfl
  | cons d ds ih =>
    simp only [List.mem_cons, forall_eq_or_imp] at h
    rw [parseDigits, if_pos (isDigit_iff.mpr h.1), ih h.2, List.foldl_cons, Nat.mul_comm]

theorem uint8_range {i : Int} : IntKind.uint8.inRange i ↔ 0 ≤ i ∧ i < 256 := by
  simp [IntKind.inRange, IntKind.signed, IntKind.bits]

theorem parseByte_of {ds : Bytes} (h : IntPart ds) {x : UInt8} (hx : decVal ds = x.toNat) :
    parseIntKind .uint8 ds = some (x.toNat : Int) ∧ ds ≠ jNull := by
  obtain ⟨hne, hd⟩ := intPart_digits h
  cases ds with
  | nil => exact absurd rfl hne
  | cons d ds =>
    have hdd := hd d (by simp)
    refine ⟨?_, ?_⟩
    · unfold parseIntKind
      rw [if_neg (by simp only [List.head?_cons, Option.some.injEq, not_and]; exact fun _ => digit_ne hdd (by decide)), parseInt,
        if_neg (digit_ne hdd (by decide)), parseNat, if_neg (by simp), parseDigits_of hd]
      have : (List.foldl (fun n d => 10 * n + (d.toNat - 48)) 0 (d :: ds) : Nat) = x.toNat := hx
      rw [this]
      simp only [Option.pure_def, Option.bind_eq_bind, Option.bind_some, Option.map_some]
      rw [if_pos (uint8_range.mpr ⟨by omega, by have := x.toNat_lt; omega⟩)]
    · intro he
      simp only [jNull, List.cons.injEq] at he
      exact digit_ne hdd (by decide) he.1

theorem getD_tail (old : Bytes) (i : Nat) : old.tail.getD i 0 = old.getD (i + 1) 0 := by
  cases old <;> simp

theorem headD_getD (old : Bytes) : old.headD 0 = old.getD 0 0 := by
  cases old <;> simp

theorem byteElems_of {es : List BElem} {old : Bytes} (h : ∀ (i : Nat) e, es[i]? = some e → ByteText (old.getD i 0) e.byte e.text) :
    unmByteElems old (es.map BElem.text) = some (es.map BElem.byte) := by
  induction es generalizing old with
  | nil => rfl
  | cons e es ih =>
    have h0 := h 0 e rfl
    rw [List.map_cons, unmByteElems, ih fun i e he => by rw [getD_tail]; exact h (i + 1) e he]
    obtain ⟨x, t, pre, post⟩ := e
    rw [headD_getD]
    simp only at h0 ⊢
    cases h0 with
    | null => simp [jNull]
    | num h1 h2 =>
      obtain ⟨e1, e2⟩ := parseByte_of h1 h2
      rw [if_neg e2, e1]
      simp

/-- White space around a text, for each text. -/
theorem byteElems_inv {ss : List SElem} (hw : ∀ s ∈ ss, White s.pre ∧ White s.post) (hs : ∀ s ∈ ss, Spaced s.text s.spaced) {b old : Bytes}
    (h : unmByteElems old (ss.map SElem.spaced) = some b) :
    ∃ es : List BElem, b = es.map BElem.byte ∧ ss.map SElem.out = es.map BElem.out ∧ (∀ e ∈ es, White e.pre ∧ White e.post) ∧
      ∀ (i : Nat) e, es[i]? = some e → ByteText (old.getD i 0) e.byte e.text := by
  induction ss generalizing b old with
  | nil => cases h; exact ⟨[], rfl, rfl, by simp, by simp⟩
  | cons s ss ih =>
    simp only [List.mem_cons, forall_eq_or_imp] at hw hs
    rw [List.map_cons, unmByteElems] at h
    obtain ⟨i, hi, h⟩ := Option.bind_eq_some_iff.mp h
    obtain ⟨bs, hbs, rfl⟩ := Option.map_eq_some_iff.mp h
    obtain ⟨es, rfl, ho, h1, h2⟩ := ih hw.2 hs.2 hbs
    have hb : ByteText (old.getD 0 0) (UInt8.ofNat i.toNat) s.spaced := by
      split at hi
      · rename_i hn
        cases hi
        rw [hn, headD_getD]
        have : UInt8.ofNat ((((old.getD 0 0).toNat : Nat) : Int).toNat) = old.getD 0 0 := by simp
        rw [this]
        exact .null
      · unfold parseIntKind at hi
        split at hi
        · cases hi
        · rename_i hm
          obtain ⟨j, hj, hi⟩ := Option.bind_eq_some_iff.mp hi
          split at hi
          · rename_i hr
            cases hi
            have hv := skipVal_spaced hs.1 (n := s.spaced.length + 1) (by omega) [] delim_nil
            have ht := parseInt_inv hv hj
            generalize hg : s.spaced = tx at ht hm ⊢
            rw [uint8_range] at hr
            cases ht with
            | @pos ds hp =>
              refine .num hp ?_
              rw [toNat_of (by omega)]; omega
            | neg hp => exact absurd ⟨rfl, rfl⟩ hm
          · cases hi
    refine ⟨⟨UInt8.ofNat i.toNat, s.spaced, s.pre, s.post⟩ :: es, rfl, ?_, ?_, ?_⟩
    · simp only [List.map_cons, ho]; rfl
    · simp only [List.mem_cons, forall_eq_or_imp]; exact ⟨hw.1, h1⟩
    · intro i e he
      cases i with
      | zero => cases he; exact hb
      | succ i => rw [← getD_tail]; exact h2 i e he

theorem jtext_str {r : Bytes} (h : JText (0x22 :: r)) : StrText (0x22 :: r) := by
  generalize hx : (0x22 :: r : Bytes) = x at h ⊢
  cases h with
  | str h => exact h
  | num h => 
    obtain ⟨c, r', rfl, hc⟩ := num_head h
    injection hx with h1 _
    subst h1
    simp [Digit] at hc
  | _ => cases hx

/-! ## The whole text -/

theorem unmBytes_iff {old bz b : Bytes} :
    unmBytes old bz = some b ↔ ∃ w1 core w2, White w1 ∧ White w2 ∧ bz = w1 ++ (core ++ w2) ∧ BytesText old b core := by
  constructor
  · intro h
    unfold unmBytes at h
    obtain ⟨raw, hraw, h'⟩ := Option.bind_eq_some_iff.mp h
    clear h
    have h := h'
    clear h'
    obtain ⟨w1, w2, t, h1, h2, rfl, hs⟩ := wholeVal_json hraw
    refine ⟨w1, raw, w2, h1, h2, rfl, ?_⟩
    match raw, hs, h with
    | [], _, h => cases h
    | c :: r, hs, h =>
      dsimp only at h
      split at h
      · rename_i hn
        cases h
        rw [hn]; exact .null
      split at h
      · rename_i hc
        subst hc
        obtain ⟨s, hq, hd⟩ := Option.bind_eq_some_iff.mp h
        have ht : StrText (0x22 :: r) := by
          cases hs with
          | scalar hj _ _ => exact jtext_str hj
        generalize hx : (0x22 :: r : Bytes) = x at ht hq
        cases ht with
        | @mk body hb =>
          rw [unquote_mk] at hq
          obtain ⟨cs, hsp, rfl⟩ := unquoteBody_inv hb hq (b64Dec_ascii hd)
          exact .str hsp (b64Dec_iff.mp hd)
      split at h
      · rename_i hc
        subst hc
        obtain ⟨⟨es, r'⟩, hx, hu⟩ := Option.bind_eq_some_iff.mp h
        generalize hy : (0x5b :: r : Bytes) = y at hs
        cases hs with
        | scalar _ h5 _ => rw [← hy] at h5; exact absurd rfl h5
        | obj => cases hy
        | @arr w ss hw0 hw hss =>
          simp only [List.cons.injEq, true_and] at hy
          subst hy
          rw [arrRest_raw hw0 hw hss] at hx
          cases hx
          obtain ⟨es, rfl, ho, h1, h2⟩ := byteElems_inv hw hss hu
          rw [ho]
          exact .arr hw0 h1 h2
      · cases h
  · rintro ⟨w1, core, w2, h1, h2, rfl, ht⟩
    unfold unmBytes
    cases ht with
    | null =>
      rw [wholeVal_white .null h1 h2]; rfl
    | @str cs t b hs hb =>
      rw [wholeVal_white (.str (.mk (spells_body hs))) h1 h2]
      simp only [Option.bind_some]
      rw [if_neg (by simp [jNull]), if_true, unquote_mk, spells_unquote hs _ (by omega)]
      exact b64Dec_iff.mpr hb
    | @arr w es hw0 hw hb =>
      have mem_spaced : ∀ e ∈ es, Spaced e.text e.text := fun e he =>
        have ⟨i, hi⟩ := List.getElem?_of_mem he
        byteText_spaced (hb i e hi)
      have hsp : Spaced (0x5b :: (commas ((es.map fun e => SElem.mk e.text e.pre e.text e.post).map SElem.text) ++ [0x5d]))
          (0x5b :: (w ++ (commas ((es.map fun e => SElem.mk e.text e.pre e.text e.post).map SElem.out) ++ [0x5d]))) := by
        refine .arr hw0 ?_ ?_
        · intro s hs; obtain ⟨e, he, rfl⟩ := List.mem_map.mp hs; exact hw e he
        · intro s hs; obtain ⟨e, he, rfl⟩ := List.mem_map.mp hs; exact mem_spaced e he
      have ho : (es.map fun e => SElem.mk e.text e.pre e.text e.post).map SElem.out = es.map BElem.out := by
        rw [List.map_map]; rfl
      have hr := arrRest_raw (w := w) (es := es.map fun e => SElem.mk e.text e.pre e.text e.post) hw0
        (by intro s hs; obtain ⟨e, he, rfl⟩ := List.mem_map.mp hs; exact hw e he)
        (by intro s hs; obtain ⟨e, he, rfl⟩ := List.mem_map.mp hs; exact mem_spaced e he)
      rw [ho] at hsp hr
      rw [wholeVal_around hsp h1 h2]
      simp only [Option.bind_some, not_null_arr, if_false, show ((0x5b : UInt8) = 0x22) = False by decide, if_true]
      rw [hr, List.map_map]
      exact byteElems_of hb

section
variable {Γ : Prog} {c : Codec} {J : JLib}

/-- C100: which JSON texts are accepted for a slice of bytes (of a type without methods of its own, anywhere inside a value),
and which bytes are stored over the bytes `old`: `null`, base64 in a string, or an array of numbers, and nothing else. -/
theorem C100_bytes {id : TId} {e : Ty} (hs : Γ.shape id = .slice e) (he : Γ.isByteKind e = true) (hm : NoMethods Γ J id)
    {p : Val} {old : Bytes}
    (hp : p = .bytes old ∨ (old = [] ∧ p = .nil)) (g : Nat) (v : Val) (fo : FOpts) (bz : Bytes) :
    jdec Γ c J (g + 1) (.base id) p fo bz = .ok v ↔
      ∃ w1 core w2 b, White w1 ∧ White w2 ∧ bz = w1 ++ (core ++ w2) ∧ BytesText old b core ∧
        v = if b = [] then Γ.zero id else .bytes b := by
  have h1 : Γ.isIface id = false := by simp [Prog.isIface, hs]
  have hj : jdec Γ c J (g + 1) (.base id) p fo bz =
      (ofOpt .json (unmBytes old bz)).bind fun b => .ok (if b = [] then Γ.zero id else .bytes b) := by
    rw [jdec]
    simp only [Ty.deref, h1, Bool.false_and]
    rw [if_neg (by simp)]
    split
    · rename_i hn
      subst hn
      rw [show unmBytes old jNull = some [] by rfl]; rfl
    · rw [jdecBase, if_neg (by rw [hs]; simp), hm.unjson, hm.unmarsh]
      have ho : oldBytes (Γ.derefPrior (.base id) p) = old := by rcases hp with rfl | ⟨rfl, rfl⟩ <;> rfl
      simp only [jdecShape, hs, he, if_true, ho]
      cases unmBytes old bz with
      | none => rfl
      | some b => cases b <;> rfl
  rw [hj]
  constructor
  · intro h
    obtain ⟨b, hb, hv⟩ := Res.bind_eq_ok h
    obtain ⟨w1, core, w2, h1, h2, h3, h4⟩ := unmBytes_iff.mp (ofOpt_some hb)
    cases hv
    exact ⟨w1, core, w2, b, h1, h2, h3, h4, rfl⟩
  · rintro ⟨w1, core, w2, b, h1, h2, h3, h4, rfl⟩
    rw [unmBytes_iff.mpr ⟨w1, core, w2, h1, h2, h3, h4⟩]; rfl

/-- C100 for the call UnmarshalJSON with a pointer to a slice of bytes. -/
theorem C100_bytes_top {id : TId} {e : Ty} (hs : Γ.shape id = .slice e) (he : Γ.isByteKind e = true) (hm : NoMethods Γ J id)
    (hr : c.conc? id = none) {p : Val} {old : Bytes}
    (hp : p = .bytes old ∨ (old = [] ∧ p = .nil)) (g : Nat) (v : Val) (bz : Bytes) :
    unmarshalJSON Γ c J (g + 1) (.base id) p bz = .ok v ↔
      ∃ w1 core w2 b, White w1 ∧ White w2 ∧ bz = w1 ++ (core ++ w2) ∧ BytesText old b core ∧
        v = if b = [] then Γ.zero id else .bytes b := by
  rw [← C100_bytes (c := c) hs he hm hp g v {} bz, unmarshalJSON]
  simp only [Ty.deref, getInfo, hs, Res.bind_ok, hr]
  split
  · rename_i hn
    subst hn
    constructor
    · intro h; cases h
    · intro h
      obtain ⟨w1, core, w2, b, _, _, h3, h4, _⟩ := (C100_bytes hs he hm hp g v {} []).mp h
      have : core = [] := by
        have := congrArg List.length h3
        simp only [List.length_append, List.length_nil] at this
        exact List.length_eq_zero_iff.mp (by omega)
      subst this
      cases h4
  · rfl

/-- C100 for arrays of `n` bytes: as for slices, but the text must give exactly `n` bytes; the bare text `null` gives the zero
value. -/
theorem C100_array {id : TId} {n : Nat} (hs : Γ.shape id = .array n (.base Γ.byteId)) (he : Γ.isByteKind (.base Γ.byteId) = true)
    (hm : NoMethods Γ J id) (g : Nat) (p v : Val) (fo : FOpts) (bz : Bytes) :
    jdec Γ c J (g + 1) (.base id) p fo bz = .ok v ↔
      (bz = [0x6e, 0x75, 0x6c, 0x6c] ∧ v = Γ.zero id) ∨
      (bz ≠ [0x6e, 0x75, 0x6c, 0x6c] ∧ ∃ w1 core w2 b, White w1 ∧ White w2 ∧ bz = w1 ++ (core ++ w2) ∧ BytesText [] b core ∧
        b.length = n ∧ v = .bytes b) := by
  have h1 : Γ.isIface id = false := by simp [Prog.isIface, hs]
  rw [jdec]
  simp only [Ty.deref, h1, Bool.false_and]
  rw [if_neg (by simp)]
  split
  · rename_i hn
    subst hn
    constructor
    · intro h; cases h; exact .inl ⟨rfl, rfl⟩
    · rintro (⟨_, rfl⟩ | ⟨h, _⟩)
      · rfl
      · exact absurd rfl h
  · rename_i hn
    rw [jdecBase, if_neg (by rw [hs]; simp), hm.unjson, hm.unmarsh]
    simp only [jdecShape, hs, he, if_true, jdecByteArr, ne_eq, not_true_eq_false, if_false]
    constructor
    · intro h
      obtain ⟨v', hv', hv⟩ := Res.bind_eq_ok h
      obtain ⟨b, hb, hx⟩ := Res.bind_eq_ok hv'
      obtain ⟨w1, core, w2, h1, h2, h3, h4⟩ := unmBytes_iff.mp (ofOpt_some hb)
      split at hx
      · cases hx
      rename_i hl
      cases hx
      cases hv
      exact .inr ⟨hn, w1, core, w2, b, h1, h2, h3, h4, Decidable.of_not_not hl, rfl⟩
    · rintro (⟨h, _⟩ | ⟨_, w1, core, w2, b, h1, h2, h3, h4, hl, rfl⟩)
      · exact absurd h hn
      · rw [unmBytes_iff.mpr ⟨w1, core, w2, h1, h2, h3, h4⟩]
        simp only [ofOpt, Res.bind_ok, hl, not_true_eq_false, if_false]; rfl

end

/-! ## Concrete cases -/

namespace JDemo

/-- `"AQI="` is base64 for 1, 2. -/
example : Base64Text ['A', 'Q', 'I', '='] [1, 2] := .mk (ns := [0, 16, 8]) (pad := 1) (by decide) (by decide) (by decide) (by decide) (by decide)

/-- `"AB=="` is accepted for 0 although its last four bits are not 0. -/
example : Base64Text ['A', 'B', '=', '='] [0] := .mk (ns := [0, 1]) (pad := 2) (by decide) (by decide) (by decide) (by decide) (by decide)

example : unmarshalJSON prog codec lib 1 (.base bytesT) .nil [0x22, 0x41, 0x42, 0x3d, 0x3d, 0x22] = .ok (.bytes [0]) := by decide +kernel

/-- `[1, null]` is accepted, for 1, 0. -/
example : unmarshalJSON prog codec lib 1 (.base bytesT) .nil [0x5b, 0x31, 0x2c, 0x20, 0x6e, 0x75, 0x6c, 0x6c, 0x5d] = .ok (.bytes [1, 0]) :=
  (C100_bytes_top (id := bytesT) (e := .base byteT) rfl rfl ⟨rfl, rfl, fun _ => rfl, rfl⟩ rfl (.inr ⟨rfl, rfl⟩) 0 _ _).mpr
    ⟨[], _, [], _, by simp [White], by simp [White], rfl,
      .arr (w := []) (es := [⟨1, [0x31], [], []⟩, ⟨0, [0x6e, 0x75, 0x6c, 0x6c], [0x20], []⟩]) (by simp [White]) (by simp [White])
        (fun i e he => by
          match i with
          | 0 => cases he; exact .num (.pos (by decide) (by decide) (by simp)) (by decide)
          | 1 => cases he; exact .null
          | i + 2 => cases he), rfl⟩

/-- Read over 7, 8, 9 the text `[1, null]` gives 1, 8. -/
example : unmarshalJSON prog codec lib 1 (.base bytesT) (.bytes [7, 8, 9]) [0x5b, 0x31, 0x2c, 0x20, 0x6e, 0x75, 0x6c, 0x6c, 0x5d] =
    .ok (.bytes [1, 8]) := by
  decide +kernel

/-- `"AQI=\n"`: a line break after the padding does not count; `"AQI=A"` is refused. -/
example : unmarshalJSON prog codec lib 1 (.base bytesT) .nil [0x22, 0x41, 0x51, 0x49, 0x3d, 0x5c, 0x6e, 0x22] = .ok (.bytes [1, 2]) := by
  decide +kernel
example : unmarshalJSON prog codec lib 1 (.base bytesT) .nil [0x22, 0x41, 0x51, 0x49, 0x3d, 0x41, 0x22] = .err .json := by decide +kernel

/-- As `prog`, with `[2]byte` in place of `[2]int64`. -/
def byteArrProg : Prog := { prog with shape := fun t => if t = arrT then .array 2 (.base byteT) else shape t }

/-- `"AQI="` into a `[2]byte`. -/
example : jdec byteArrProg codec lib 1 (.base arrT) (.bytes [0, 0]) {} [0x22, 0x41, 0x51, 0x49, 0x3d, 0x22] = .ok (.bytes [1, 2]) :=
  (C100_array (id := arrT) (n := 2) rfl rfl ⟨rfl, rfl, fun _ => rfl, rfl⟩ 0 _ _ _ _).mpr
    (.inr ⟨by decide, [], _, [], [1, 2], by simp [White], by simp [White], rfl,
      .str (t := [0x41, 0x51, 0x49, 0x3d]) (cs := ['A', 'Q', 'I', '='])
        (.raw (by decide) (by decide) (by decide) (.raw (by decide) (by decide) (by decide) (.raw (by decide) (by decide) (by decide) (.raw (by decide) (by decide) (by decide) .nil))))
        (.mk (ns := [0, 16, 8]) (pad := 1) (by decide) (by decide) (by decide) (by decide) (by decide)), rfl, rfl⟩)

end JDemo

end Amino
