import Verif.SpecSafe
import Verif.DocEnc
import Verif.PropsTime
import Verif.PropsJson
import Verif.Registry
import Verif.PropsReg

/-!
# C85: what MarshalJSON writes can be put into HTML and on one line
-/

namespace Amino
open Spec

variable {Γ : Prog} {c : Codec} {J : JLib}

theorem Spec.SafeText.nil : SafeText [] := ⟨[], rfl, fun _ h => (by cases h)⟩

theorem Spec.SafeText.append {a b : Bytes} (ha : SafeText a) (hb : SafeText b) : SafeText (a ++ b) := by
  obtain ⟨cs, rfl, h1⟩ := ha
  obtain ⟨ds, rfl, h2⟩ := hb
  refine ⟨cs ++ ds, by simp [utf8], fun ch h => ?_⟩
  rcases List.mem_append.1 h with h | h
  · exact h1 ch h
  · exact h2 ch h

/-- ASCII characters that are safe. -/
def safeAscii (x : UInt8) : Bool := 0x20 ≤ x && x < 0x80 && x != 0x3c && x != 0x3e && x != 0x26

theorem Spec.SafeText.one {x : UInt8} (h : safeAscii x = true) : SafeText [x] := by
  simp only [safeAscii, Bool.and_eq_true, decide_eq_true_eq, bne_iff_ne, ne_eq] at h
  obtain ⟨⟨⟨⟨h1, h2⟩, h3⟩, h4⟩, h5⟩ := h
  obtain ⟨ch, hc, he⟩ := ascii_char h2
  have l1 := UInt8.le_iff_toNat_le.1 h1
  have l2 := UInt8.lt_iff_toNat_lt.1 h2
  have ne : ∀ {y : UInt8}, x ≠ y → x.toNat ≠ y.toNat := fun h h' => h (UInt8.toNat_inj.1 h')
  refine ⟨[ch], by simp [utf8, he], fun d hd => ?_⟩
  rw [List.mem_singleton] at hd
  subst hd
  simp at l1 l2
  exact ⟨by omega, char_ne hc (ne h3), char_ne hc (ne h4), char_ne hc (ne h5), by omega, by omega⟩

theorem Spec.SafeText.ascii {b : Bytes} (h : ∀ x ∈ b, safeAscii x = true) : SafeText b := by
  induction b with
  | nil => exact .nil
  | cons x b ih =>
    exact Spec.SafeText.append (a := [x]) (.one (h x (.head _))) (ih fun y hy => h y (.tail _ hy))

theorem Spec.SafeText.cons {x : UInt8} {b : Bytes} (hx : safeAscii x = true) (h : SafeText b) : SafeText (x :: b) :=
  Spec.SafeText.append (a := [x]) (.one hx) h

/-! ## Strings, base64, numbers, times -/

theorem hexDigit_safe {n : Nat} (h : n < 16) : safeAscii (hexDigit n) = true := by
  have : ∀ n, n < 16 → safeAscii (hexDigit n) = true := by decide +kernel
  exact this n h

theorem escByte_safe {x : UInt8} (h : x < 0x80) : SafeText (escByte x) := by
  have : ∀ n : Fin 256, n.val < 128 → ∀ y ∈ escByte (UInt8.ofNat n.val), safeAscii y = true := by decide +kernel
  have hx := this ⟨x.toNat, x.toNat_lt⟩ (UInt8.lt_iff_toNat_lt.1 h)
  simp only [UInt8.ofNat_toNat] at hx
  exact .ascii hx

theorem quoteBody_safe (n : Nat) (s : Bytes) : SafeText (quoteBody n s) := by
  induction n generalizing s with
  | zero => exact .nil
  | succ n ih =>
    cases s with
    | nil => exact .nil
    | cons x r =>
      rw [quoteBody]
      split
      · rename_i hx
        exact (escByte_safe hx).append (ih r)
      split
      · exact .append (.ascii (by decide)) (ih r)
      rename_i hz
      refine .append ?_ (ih _)
      obtain ⟨hu, hl, hle⟩ := utf8Len_inv hz
      obtain ⟨ch, hch⟩ := utf8Char_inv hu
      split
      · exact .ascii (by decide)
      split
      · exact .ascii (by decide)
      rename_i h8 h9
      rw [← hch]
      have hge := high_char (ch := ch) (by rw [hch, List.length_take]; omega)
      have three : ∀ (y : Char), (String.utf8EncodeChar y).length = 3 → ch = y → (x :: r).take 3 = String.utf8EncodeChar y := by
        intro y hy he
        subst he
        have h3 : utf8Len (x :: r) = 3 := by
          have := congrArg List.length hch
          rw [hy, List.length_take] at this
          omega
        rw [hch, h3]
      refine ⟨[ch], by simp [utf8], fun d hd => ?_⟩
      rw [List.mem_singleton] at hd
      subst hd
      have ne : ∀ {y : Char}, y.toNat < 0x80 → d ≠ y := fun hy he => by rw [he] at hge; omega
      refine ⟨by omega, ne (by decide), ne (by decide), ne (by decide), fun h => ?_, fun h => ?_⟩
      · exact h8 ((three '\u2028' (by decide) (char_eq h (by decide))).trans (by decide))
      · exact h9 ((three '\u2029' (by decide) (char_eq h (by decide))).trans (by decide))

theorem quoteStr_safe (s : Bytes) : SafeText (quoteStr s) :=
  .cons (by decide) ((quoteBody_safe _ _).append (.one (by decide)))

theorem b64Char_safe {n : Nat} (h : n < 64) : safeAscii (b64Char n) = true := by
  have : ∀ n, n < 64 → safeAscii (b64Char n) = true := by decide +kernel
  exact this n h

theorem b64Enc_safe (b : Bytes) : SafeText (b64Enc b) := by
  apply SafeText.ascii
  fun_induction b64Enc b with
  | case1 => nofun
  | case2 a =>
    have ha := a.toNat_lt
    simp only [List.mem_cons, List.not_mem_nil, or_false, forall_eq_or_imp, forall_eq]
    exact ⟨b64Char_safe (by omega), b64Char_safe (by omega), by decide, by decide⟩
  | case3 a b =>
    have ha := a.toNat_lt
    have hb := b.toNat_lt
    simp only [List.mem_cons, List.not_mem_nil, or_false, forall_eq_or_imp, forall_eq]
    exact ⟨b64Char_safe (by omega), b64Char_safe (by omega), b64Char_safe (by omega), by decide⟩
  | case4 a b c r ih =>
    have ha := a.toNat_lt
    have hb := b.toNat_lt
    have hc := c.toNat_lt
    simp only [List.mem_cons, forall_eq_or_imp]
    exact ⟨b64Char_safe (by omega), b64Char_safe (by omega), b64Char_safe (by omega), b64Char_safe (by omega), ih⟩

theorem digit_safe {x : UInt8} (h : Digit x) : safeAscii x = true := by
  have h1 := UInt8.le_iff_toNat_le.1 h.1
  have h2 := UInt8.le_iff_toNat_le.1 h.2
  have : ∀ n : Fin 256, 48 ≤ n.val → n.val ≤ 57 → safeAscii (UInt8.ofNat n.val) = true := by decide +kernel
  have hx := this ⟨x.toNat, x.toNat_lt⟩ h1 h2
  simpa only [UInt8.ofNat_toNat] using hx

theorem numText_safe {b : Bytes} (h : NumText b) : SafeText b := by
  have hi : ∀ {i}, IntPart i → SafeText i := fun h => .ascii fun x hx => digit_safe ((intPart_digits h).2 x hx)
  have hd : ∀ {r : Bytes}, (∀ x ∈ r, Digit x) → SafeText r := fun h => .ascii fun x hx => digit_safe (h x hx)
  have hf : ∀ {i}, FracPart i → SafeText i := by
    intro i h
    cases h with
    | none => exact .nil
    | some _ h => exact .cons (by decide) (hd h)
  have he : ∀ {i}, ExpPart i → SafeText i := by
    intro i h
    cases h with
    | none => exact .nil
    | bare h1 _ h => rcases h1 with rfl | rfl <;> exact .cons (by decide) (hd h)
    | sign h1 h2 _ h =>
      rcases h1 with rfl | rfl <;> rcases h2 with rfl | rfl <;> exact .cons (by decide) (.cons (by decide) (hd h))
  cases h with
  | pos h1 h2 h3 => exact ((hi h1).append (hf h2)).append (he h3)
  | neg h1 h2 h3 => exact .cons (by decide) (((hi h1).append (hf h2)).append (he h3))

theorem intText_safe (i : Int) : SafeText (intText i) := numText_safe (numText_intText i)

theorem time_safe {s ns : Int} {b : Bytes} (h : GoTime.text s ns = some b) : SafeText b := by
  have hp : ∀ w x, SafeText (GoTime.padInt w x) := fun w x => .ascii fun y hy => digit_safe ((digits_numeral w x).digits y hy)
  have hf : ∀ n, SafeText (GoTime.fraction n) := by
    intro n
    unfold GoTime.fraction
    split
    · exact .nil
    · refine .cons (by decide) (.ascii fun y hy => digit_safe ((digits_numeral 9 n).digits y ?_))
      obtain ⟨k, hk⟩ := trimZeros_eq (GoTime.padInt 9 n)
      rw [hk]
      exact List.mem_append_left _ hy
  simp only [GoTime.text] at h
  split at h
  · cases h
  · cases h
    exact .cons (by decide) ((hp _ _).append (.cons (by decide) ((hp _ _).append (.cons (by decide) ((hp _ _).append
      (.cons (by decide) ((hp _ _).append (.cons (by decide) ((hp _ _).append (.cons (by decide) ((hp _ _).append
        ((hf _).append (.ascii (by decide))))))))))))))

/-! ## Values -/

theorem joinComma_safe {l : List Bytes} (h : ∀ b ∈ l, SafeText b) : SafeText (joinComma l) := by
  fun_induction joinComma l with
  | case1 => exact .nil
  | case2 b => exact h b (.head _)
  | case3 b bs _ ih => exact (h b (.head _)).append (.cons (by decide) (ih fun x hx => h x (.tail _ hx)))

theorem wrapText_safe {n b : Bytes} (hn : SafeText n) (hb : SafeText b) : SafeText (wrapText n b) := by
  unfold wrapText
  exact ((((Spec.SafeText.ascii (by decide)).append hn).append (.ascii (by decide))).append hb).append (.ascii (by decide))

section
variable {rec : Bool → Ty → Val → FOpts → Res Bytes} (hrec : ∀ {a t v fo b}, rec a t v fo = .ok b → SafeText b)
include hrec

theorem jencElems_safe {a : Bool} {e : Ty} {fo : FOpts} {vs : List Val} {bs : List Bytes}
    (h : jencElems rec a e fo vs = .ok bs) : ∀ b ∈ bs, SafeText b := by
  induction vs generalizing bs with
  | nil => cases h; nofun
  | cons v vs ih =>
    rw [jencElems] at h
    obtain ⟨b, hb, h⟩ := Res.bind_eq_ok h
    obtain ⟨bs', hbs, e⟩ := Res.bind_eq_ok h
    cases e
    intro x hx
    rcases List.mem_cons.1 hx with rfl | hx
    · exact hrec hb
    · exact ih hbs x hx

theorem jencFields_safe {a : Bool} {fs : List Field} {vs : List Val} {bs : List Bytes}
    (h : jencFields Γ c rec a fs vs = .ok bs) : ∀ b ∈ bs, SafeText b := by
  induction fs generalizing vs bs with
  | nil =>
    cases vs with
    | nil => cases h; nofun
    | cons => cases h
  | cons f fs ih =>
    cases vs with
    | nil => cases h
    | cons v vs =>
      rw [jencFields] at h
      split at h
      · obtain ⟨_, _, h⟩ := Res.bind_eq_ok h
        split at h
        · exact ih h
        · obtain ⟨b, hb, h⟩ := Res.bind_eq_ok h
          obtain ⟨bs', hbs, e⟩ := Res.bind_eq_ok h
          cases e
          intro x hx
          rcases List.mem_cons.1 hx with rfl | hx
          · exact (quoteStr_safe _).append (.cons (by decide) (hrec hb))
          · exact ih hbs x hx
      · exact ih h

theorem jencEntries_safe {e : Ty} {fo : FOpts} {kvs : List (Bytes × Val)} {bs : List Bytes}
    (h : jencEntries Γ c rec e fo kvs = .ok bs) : ∀ b ∈ bs, SafeText b := by
  induction kvs generalizing bs with
  | nil => cases h; nofun
  | cons kv kvs ih =>
    obtain ⟨k, v⟩ := kv
    rw [jencEntries] at h
    obtain ⟨b, hb, h⟩ := Res.bind_eq_ok h
    obtain ⟨bs', hbs, e⟩ := Res.bind_eq_ok h
    cases e
    intro x hx
    rcases List.mem_cons.1 hx with rfl | hx
    · refine (quoteStr_safe _).append (.cons (by decide) ?_)
      unfold jencEntry at hb
      split at hb
      · exact hrec hb
      · obtain ⟨_, _, hb⟩ := Res.bind_eq_ok hb
        exact hrec hb
    · exact ih hbs x hx

theorem jencShape_safe (hn : SafeNames c) (hJ : SafeLib J) {a : Bool} {id : TId} {v : Val} {fo : FOpts} {b : Bytes}
    (h : jencShape Γ c J rec a id v fo = .ok b) : SafeText b := by
  have opt : ∀ {o : Option Bytes}, (∀ {b}, o = some b → SafeText b) → ofOpt .json o = .ok b → SafeText b := by
    intro o ho h
    cases o with
    | none => cases h
    | some x => cases h; exact ho rfl
  have list : ∀ {a e vs}, jencList Γ c rec a e fo vs = .ok b → SafeText b := by
    intro a e vs h
    unfold jencList at h
    obtain ⟨_, _, h⟩ := Res.bind_eq_ok h
    obtain ⟨bs, hbs, h⟩ := Res.bind_eq_ok h
    cases h
    exact .cons (by decide) ((joinComma_safe (jencElems_safe hrec hbs)).append (.one (by decide)))
  have bytes : ∀ {e bb}, jencBytes Γ a e bb = .ok b → SafeText b := by
    intro e bb h
    unfold jencBytes at h
    split at h
    · cases h
    · cases h; exact .cons (by decide) ((b64Enc_safe _).append (.one (by decide)))
  unfold jencShape at h
  split at h
  · cases h; exact .ascii (by decide)
  · unfold jencIface at h
    split at h
    · cases h
    split at h
    · cases h
    obtain ⟨_, _, h⟩ := Res.bind_eq_ok h
    split at h
    · cases h
    · rename_i ci hci
      obtain ⟨x, hx, h⟩ := Res.bind_eq_ok h
      cases h
      exact wrapText_safe (hn _ _ hci) (hrec hx)
  · cases h; exact .ascii (by decide)
  · exact bytes h
  · exact bytes h
  · exact list h
  · exact list h
  · obtain ⟨bs, hbs, h⟩ := Res.bind_eq_ok h
    cases h
    exact .cons (by decide) ((joinComma_safe (jencFields_safe hrec hbs)).append (.one (by decide)))
  · cases h; exact .ascii (by decide)
  · obtain ⟨bs, hbs, h⟩ := Res.bind_eq_ok h
    cases h
    exact .cons (by decide) ((joinComma_safe (jencEntries_safe hrec hbs)).append (.one (by decide)))
  · split at h <;> cases h
    · exact .cons (by decide) ((intText_safe _).append (.one (by decide)))
    · exact intText_safe _
  · split at h
    · cases h
    · exact opt hJ.f32 h
  · split at h
    · cases h
    · exact opt hJ.f64 h
  · cases h; split <;> exact .ascii (by decide)
  · cases h; exact quoteStr_safe _
  · exact opt hJ.time h
  · cases h

theorem jencBase_safe (hn : SafeNames c) (hJ : SafeLib J) {a : Bool} {id : TId} {v : Val} {fo : FOpts} {b : Bytes}
    (h : jencBase Γ c J rec a id v fo = .ok b) : SafeText b := by
  unfold jencBase at h
  split at h
  · exact jencShape_safe hrec hn hJ h
  split at h
  · rename_i m hm
    exact hJ.marsh hm h
  split at h
  · obtain ⟨r, _, h⟩ := Res.bind_eq_ok h
    obtain ⟨_, _, h⟩ := Res.bind_eq_ok h
    exact hrec h
  · exact jencShape_safe hrec hn hJ h

end

theorem jenc_safe (hn : SafeNames c) (hJ : SafeLib J) {f : Nat} {a : Bool} {t : Ty} {v : Val} {fo : FOpts} {b : Bytes}
    (h : jenc Γ c J f a t v fo = .ok b) : SafeText b := by
  induction f generalizing a t v fo b with
  | zero => cases h
  | succ f ih =>
    rw [jenc] at h
    split at h
    · cases h; exact .ascii (by decide)
    · exact jencBase_safe ih hn hJ h

/-! ## C85 -/

/-- C85 (partial): MarshalJSON writes valid UTF-8 without control characters, `<`, `>`, `&` and line separators, whatever
the strings, keys and bytes in the value.  Missing for the full statement: names of registered types and what methods
MarshalJSON return are written as they are, see `C85_name_refuted` and `C85_method_refuted`. -/
theorem C85_safe_partial (hn : SafeNames c) (hJ : SafeLib J) {f : Nat} {o : Option (Ty × Val)} {b : Bytes}
    (h : marshalJSON Γ c J f o = .ok b) : SafeText b := by
  cases o with
  | none => cases h; exact .ascii (by decide)
  | some p =>
    obtain ⟨t, v⟩ := p
    rw [marshalJSON] at h
    obtain ⟨_, _, h⟩ := Res.bind_eq_ok h
    obtain ⟨b', hb, h⟩ := Res.bind_eq_ok h
    split at h
    · rename_i ci hci
      cases h
      exact wrapText_safe (hn _ _ hci) (jenc_safe hn hJ hb)
    · cases h
      exact jenc_safe hn hJ hb

/-- C85: floats in JSON notation, the times of package time, and the absence of MarshalJSON methods meet the assumptions. -/
theorem C85_lib (hf : ∀ {x b}, J.f32Text x = some b ∨ J.f64Text x = some b → NumText b) (hm : ∀ id a, J.marsh id a = none) :
    SafeLib J.withTime where
  f32 h := numText_safe (hf (.inl h))
  f64 h := numText_safe (hf (.inr h))
  time h := time_safe h
  marsh h _ := by
    have h' : J.marsh _ _ = some _ := h
    rw [hm] at h'
    cases h'

/-- C85: safe text has no byte below 0x20, so no line break, and no `<`, `>`, `&`. -/
theorem C85_bytes {b : Bytes} (h : SafeText b) : ∀ x ∈ b, 0x20 ≤ x ∧ x ≠ 0x3c ∧ x ≠ 0x3e ∧ x ≠ 0x26 := by
  obtain ⟨cs, rfl, h⟩ := h
  intro x hx
  obtain ⟨ch, hch, hx⟩ := List.mem_flatMap.1 hx
  have hs := h ch hch
  rcases Nat.lt_or_ge ch.toNat 0x80 with hlt | hge
  · rw [utf8_ascii_char hlt, List.mem_singleton] at hx
    have hv : x.toNat = ch.toNat := by rw [hx, UInt8.toNat_ofNat']; omega
    have ne : ∀ {y : UInt8} {d : Char}, d.toNat = y.toNat → ch ≠ d → x ≠ y := fun h1 h2 h3 =>
      h2 (char_eq rfl (by rw [← hv, h3, h1]))
    exact ⟨UInt8.le_iff_toNat_le.2 (by rw [hv]; exact hs.1), ne rfl hs.2.1, ne rfl hs.2.2.1, ne rfl hs.2.2.2.1⟩
  · have h8 : (0x80 : UInt8) ≤ x := by
      refine char_high (utf8Char_char ch) ?_ x hx
      exact utf8_two hge
    have h8' := UInt8.le_iff_toNat_le.1 h8
    have ne : ∀ {y : UInt8}, y.toNat < 0x80 → x ≠ y := fun h1 h2 => by
      rw [h2] at h8'; simp at h8'; omega
    exact ⟨UInt8.le_trans (by decide) h8, ne (by decide), ne (by decide), ne (by decide)⟩

namespace JDemo

theorem safeNames : SafeNames codec := by
  intro id ci h
  rw [(conc_foo h).1]
  exact .ascii (by decide)

theorem safeLib : SafeLib lib.withTime := by
  refine C85_lib (fun h => ?_) fun _ _ => rfl
  rcases h with h | h
  · cases h
  · exact (libOk.f64 h).1

/-- `"\u003c\u003e\u0026\n\ufffd\u2028"` -/
def nastyText : Bytes :=
  "\"\\u003c\\u003e\\u0026\\n\\ufffd\\u2028\"".toList.map fun ch => UInt8.ofNat ch.toNat

/-- The assumptions are met, and a string with all that is escaped is written. -/
example : marshalJSON prog codec lib.withTime 2
      (some (.base stringT, .str [0x3c, 0x3e, 0x26, 0x0a, 0xff, 0xe2, 0x80, 0xa8])) = .ok nastyText ∧ SafeText nastyText := by
  have h : marshalJSON prog codec lib.withTime 2
      (some (.base stringT, .str [0x3c, 0x3e, 0x26, 0x0a, 0xff, 0xe2, 0x80, 0xa8])) = .ok nastyText := by decide +kernel
  exact ⟨h, C85_safe_partial safeNames safeLib h⟩

/-- C85 does not hold for names of types: `RegisterConcrete(Bar{}, "<", nil)` is accepted, and the name is written with
`%s`. -/
theorem C85_name_refuted : ∃ (c : Codec) (b : Bytes), ({} : Codec).run prog Demo.hash [.conc (.base barT) [0x3c]] = some c ∧
    marshalJSON prog c lib 3 (some (.base barT, .struct [.str []])) = .ok b ∧ ¬ SafeText b := by
  refine ⟨(({} : Codec).run prog Demo.hash [.conc (.base barT) [0x3c]]).getD {}, wrapText [0x3c] [0x7b, 0x22, 0x42, 0x22, 0x3a, 0x22, 0x22, 0x7d],
    by decide +kernel, by decide +kernel, fun h => ?_⟩
  have := C85_bytes h 0x3c (by decide +kernel)
  exact this.2.1 rfl

/-- `Bar` with a method MarshalJSON that writes its JSON on two lines. -/
def lineLib : JLib := { lib with marsh := fun id _ => if id = barT then some fun _ => .ok [0x5b, 0x0a, 0x5d] else none }

/-- C85 does not hold for methods MarshalJSON: unlike `json.Marshal`, amino writes what they return as it is
(json-encode.go:416-423), for instance with line breaks. -/
theorem C85_method_refuted : ∃ b : Bytes, marshalJSON prog codec lineLib 3 (some (.base barT, .struct [.str []])) = .ok b ∧
    ¬ SafeText b := by
  refine ⟨[0x5b, 0x0a, 0x5d], by decide +kernel, fun h => ?_⟩
  have := C85_bytes h 0x0a (by decide +kernel)
  exact absurd this.1 (by decide)

end JDemo

end Amino
