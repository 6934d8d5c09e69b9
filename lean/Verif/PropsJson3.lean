import Verif.SpecJson3
import Verif.PropsJson2

/-!
# Strings and white space in JSON input
-/

namespace Amino
open Spec

variable {Γ : Prog} {c : Codec} {J : JLib}

/-! ## C65: every spelling of a string is understood -/

theorem hexVal_of {v : Nat} {d : UInt8} (h : HexIs v d) : hexVal d = some v ∧ HexDigit d := by
  unfold HexIs at h
  have e : ∀ n : Nat, d.toNat = n → n < 256 → d = UInt8.ofNat n := fun n hn _ => by rw [← hn, UInt8.ofNat_toNat]
  rcases h with ⟨hv, hd⟩ | ⟨hv, hv', hd | hd⟩
  · obtain rfl := e _ hd (by omega)
    exact (by decide +kernel : ∀ v : Fin 10, hexVal (UInt8.ofNat (48 + v.1)) = some v.1 ∧ HexDigit (UInt8.ofNat (48 + v.1))) ⟨v, hv⟩
  · obtain rfl := e _ hd (by omega)
    have := (by decide +kernel : ∀ v : Fin 16, 10 ≤ v.1 → hexVal (UInt8.ofNat (55 + v.1)) = some v.1 ∧
      HexDigit (UInt8.ofNat (55 + v.1)))
    exact this ⟨v, hv'⟩ hv
  · obtain rfl := e _ hd (by omega)
    have := (by decide +kernel : ∀ v : Fin 16, 10 ≤ v.1 → hexVal (UInt8.ofNat (87 + v.1)) = some v.1 ∧
      HexDigit (UInt8.ofNat (87 + v.1)))
    exact this ⟨v, hv'⟩ hv

theorem hex4_of {n : Nat} {ds : Bytes} (h : Hex4 n ds) :
    ∃ a b c d, ds = [a, b, c, d] ∧ hex4 a b c d = some n ∧ HexDigit a ∧ HexDigit b ∧ HexDigit c ∧ HexDigit d := by
  cases h with
  | @mk w x y z a b c d h1 h2 h3 h4 =>
    have h1 := hexVal_of h1; have h2 := hexVal_of h2; have h3 := hexVal_of h3; have h4 := hexVal_of h4
    refine ⟨a, b, c, d, rfl, ?_, h1.2, h2.2, h3.2, h4.2⟩
    simp only [hex4, h1.1, h2.1, h3.1, h4.1, Option.bind_some, Option.map_some]
    congr 1; omega

theorem char_valid (ch : Char) : ch.toNat < 0xd800 ∨ (0xe000 ≤ ch.toNat ∧ ch.toNat < 0x110000) := by
  have := ch.valid
  simp only [UInt32.isValidChar, Nat.isValidChar] at this
  simp only [Char.toNat]; omega

theorem encodeRune_char (ch : Char) : encodeRune ch.toNat = String.utf8EncodeChar ch := by
  have hv := char_valid ch
  unfold encodeRune String.utf8EncodeChar
  have e : ch.val.toNat = ch.toNat := rfl
  simp only [e]
  generalize ch.toNat = n at *
  by_cases h1 : n < 0x80
  · rw [if_pos h1, if_pos (by omega)]
  rw [if_neg h1, if_neg (by omega : ¬ n ≤ 0x7f)]
  by_cases h2 : n < 0x800
  · rw [if_pos h2, if_pos (by omega)]
    simp only [List.cons.injEq, and_true]
    constructor <;> congr 1 <;> omega
  rw [if_neg h2, if_neg (by omega : ¬ n ≤ 0x7ff), if_neg (by omega)]
  by_cases h3 : n < 0x10000
  · rw [if_pos h3, if_pos (by omega)]
    simp only [List.cons.injEq, and_true]
    refine ⟨?_, ?_, ?_⟩ <;> congr 1 <;> omega
  rw [if_neg h3, if_pos (by omega : n < 0x110000), if_neg (by omega)]
  simp only [List.cons.injEq, and_true]
  refine ⟨?_, ?_, ?_, ?_⟩ <;> congr 1 <;> omega

theorem utf8Char_char (ch : Char) : Utf8Char (String.utf8EncodeChar ch) := by
  have hv := char_valid ch
  unfold String.utf8EncodeChar
  have e : ch.val.toNat = ch.toNat := rfl
  simp only [e]
  generalize ch.toNat = n at *
  have tl : ∀ k, Tail (UInt8.ofNat (k % 64 + 128)) := fun k => by
    have := Nat.mod_lt k (by omega : 64 > 0)
    constructor <;> simp only [UInt8.le_iff_toNat_le, UInt8.toNat_ofNat'] <;> simp <;> omega
  have le : ∀ a b : Nat, a < 256 → b < 256 → a ≤ b → UInt8.ofNat a ≤ UInt8.ofNat b := fun a b h1 h2 h => by
    simp only [UInt8.le_iff_toNat_le, UInt8.toNat_ofNat']; omega
  split
  · refine .one ?_
    simp only [UInt8.lt_iff_toNat_lt, UInt8.toNat_ofNat']; simp; omega
  split
  · exact .two (le 0xc2 _ (by omega) (by omega) (by omega)) (le _ 0xdf (by omega) (by omega) (by omega)) (tl _)
  split
  · by_cases h0 : n / 4096 = 0
    · rw [show n / 4096 % 16 + 224 = 0xe0 by omega]
      exact .e0 (le 0xa0 _ (by omega) (by omega) (by omega)) (le _ 0xbf (by omega) (by omega) (by omega)) (tl _)
    by_cases hd : n / 4096 = 13
    · rw [show n / 4096 % 16 + 224 = 0xed by omega]
      exact .ed (le 0x80 _ (by omega) (by omega) (by omega)) (le _ 0x9f (by omega) (by omega) (by omega)) (tl _)
    · refine .three (le 0xe1 _ (by omega) (by omega) (by omega)) (le _ 0xef (by omega) (by omega) (by omega)) ?_ (tl _) (tl _)
      intro he
      have := congrArg UInt8.toNat he
      simp only [UInt8.toNat_ofNat'] at this
      have : (n / 4096 % 16 + 224) % 256 = 0xed := this
      omega
  · by_cases h0 : n / 262144 = 0
    · rw [show n / 262144 % 8 + 240 = 0xf0 by omega]
      exact .f0 (le 0x90 _ (by omega) (by omega) (by omega)) (le _ 0xbf (by omega) (by omega) (by omega)) (tl _) (tl _)
    by_cases hd : n / 262144 = 4
    · rw [show n / 262144 % 8 + 240 = 0xf4 by omega]
      exact .f4 (le 0x80 _ (by omega) (by omega) (by omega)) (le _ 0x8f (by omega) (by omega) (by omega)) (tl _) (tl _)
    · exact .four (le 0xf1 _ (by omega) (by omega) (by omega)) (le _ 0xf3 (by omega) (by omega) (by omega)) (tl _) (tl _) (tl _)

theorem unquoteBody_pair {a b c d a' b' c' d' : UInt8} {x y : Nat} (hx : hex4 a b c d = some x)
    (hy : hex4 a' b' c' d' = some y) (h1 : 0xd800 ≤ x) (h2 : x < 0xdc00) (h3 : 0xdc00 ≤ y) (h4 : y < 0xe000) (m : Nat)
    (r : Bytes) : unquoteBody (m + 1) (0x5c :: 0x75 :: a :: b :: c :: d :: 0x5c :: 0x75 :: a' :: b' :: c' :: d' :: r) =
      (unquoteBody m r).map fun s => encodeRune ((x - 0xd800) * 1024 + (y - 0xdc00) + 0x10000) ++ s := by
  rw [unquoteBody, if_pos rfl, unquoteEsc.eq_def]
  simp only [if_true, hx, Option.bind_some]
  have : surrogate x (0x5c :: 0x75 :: a' :: b' :: c' :: d' :: r) = ((x - 0xd800) * 1024 + (y - 0xdc00) + 0x10000, 6) := by
    unfold surrogate
    rw [if_pos ⟨h1, by omega⟩, if_pos h2]
    simp only [lowSurrogate, hy, Option.bind_some]
    rw [if_pos ⟨h3, h4⟩]
  rw [this]; rfl

theorem raw_ascii {ch : Char} (h0 : 0x20 ≤ ch.toNat) (hlt : ch.toNat < 0x80) (h1 : ch ≠ '"') (h2 : ch ≠ '\\') :
    ¬ UInt8.ofNat ch.toNat < 0x20 ∧ UInt8.ofNat ch.toNat ≠ 0x22 ∧ UInt8.ofNat ch.toNat ≠ 0x5c ∧
      UInt8.ofNat ch.toNat < 0x80 := by
  have h1 : ch.toNat ≠ 0x22 := fun h => h1 (by rw [← Char.ofNat_toNat ch, h])
  have h2 : ch.toNat ≠ 0x5c := fun h => h2 (by rw [← Char.ofNat_toNat ch, h])
  generalize ch.toNat = n at *
  have := (by decide +kernel : ∀ n : Fin 128, 0x20 ≤ n.1 → n.1 ≠ 0x22 → n.1 ≠ 0x5c →
    ¬ UInt8.ofNat n.1 < 0x20 ∧ UInt8.ofNat n.1 ≠ 0x22 ∧ UInt8.ofNat n.1 ≠ 0x5c ∧ UInt8.ofNat n.1 < 0x80)
  exact this ⟨n, hlt⟩ h0 h1 h2

theorem utf8_two {ch : Char} (h : 0x80 ≤ ch.toNat) : 2 ≤ (String.utf8EncodeChar ch).length := by
  rw [← encodeRune_char, encodeRune, if_neg (by omega)]
  split
  · simp
  split
  · simp
  split
  · simp
  split <;> simp

theorem short_esc : ∀ q ∈ shortEscapes, UInt8.ofNat q.2.toNat ≠ 0x75 ∧
    unescChar (UInt8.ofNat q.2.toNat) = some (UInt8.ofNat q.1.toNat) ∧
    String.utf8EncodeChar q.1 = [UInt8.ofNat q.1.toNat] ∧
    UInt8.ofNat q.2.toNat ∈ [0x22, 0x5c, 0x2f, 0x62, 0x66, 0x6e, 0x72, 0x74] := by decide +kernel

theorem spells_unquote {cs : List Char} {b : Bytes} (h : Spells cs b) :
    ∀ m, b.length ≤ m → unquoteBody m b = some (utf8 cs) := by
  induction h with
  | nil => intro m _; rw [unquoteBody_nil]; rfl
  | @raw ch cs b h0 h1 h2 _ ih =>
    intro m hm
    obtain ⟨m, rfl⟩ : ∃ k, m = k + 1 := by
      have := utf8Char_char ch
      refine ⟨m - 1, ?_⟩
      rw [List.length_append] at hm
      rcases char_cases this with ⟨c, hc, _⟩ | hl
      · rw [hc] at hm; simp at hm; omega
      · omega
    have hk : utf8 (ch :: cs) = String.utf8EncodeChar ch ++ utf8 cs := by simp [utf8]
    by_cases hlt : ch.toNat < 0x80
    · have he : String.utf8EncodeChar ch = [UInt8.ofNat ch.toNat] := by
        rw [← encodeRune_char, encodeRune, if_pos hlt]
      have hc := raw_ascii h0 hlt h1 h2
      rw [hk, he, List.singleton_append, unquoteBody_ascii hc.2.2.1 hc.2.1 hc.1 hc.2.2.2,
        ih m (by rw [he] at hm; simp at hm; omega)]
      rfl
    · have hl := utf8_two (Nat.not_lt.mp hlt)
      rw [unquoteBody_char (utf8Char_char ch) hl, ih m (by rw [List.length_append] at hm; omega), hk]; rfl
  | @short ch e cs b he _ ih =>
    intro m hm
    obtain ⟨m, rfl⟩ : ∃ k, m = k + 1 := ⟨m - 1, by simp at hm; omega⟩
    have hs := short_esc _ he
    rw [unquoteBody_esc hs.1 hs.2.1, ih m (by simp at hm; omega)]
    simp [utf8, hs.2.2.1]
  | @uni ch ds cs b hd _ ih =>
    intro m hm
    obtain ⟨a, b', c, d, rfl, hx, _⟩ := hex4_of hd
    obtain ⟨m, rfl⟩ : ∃ k, m = k + 1 := ⟨m - 1, by simp at hm; omega⟩
    have hv := char_valid ch
    simp only [List.cons_append, List.nil_append]
    rw [unquoteBody_uni hx (by omega), ih m (by simp at hm; omega), encodeRune_char]
    simp [utf8]
  | @pair ch hi lo cs b hc hh hl _ ih =>
    intro m hm
    have hv := char_valid ch
    obtain ⟨a, b', c, d, rfl, hx, _⟩ := hex4_of hh
    obtain ⟨a2, b2, c2, d2, rfl, hy, _⟩ := hex4_of hl
    obtain ⟨m, rfl⟩ : ∃ k, m = k + 1 := ⟨m - 1, by simp at hm; omega⟩
    simp only [List.cons_append, List.nil_append]
    rw [unquoteBody_pair hx hy (by omega) (by omega) (by omega) (by omega), ih m (by simp at hm; omega)]
    rw [show (0xd800 + (ch.toNat - 0x10000) / 0x400 - 0xd800) * 1024 + (0xdc00 + (ch.toNat - 0x10000) % 0x400 - 0xdc00) +
      0x10000 = ch.toNat by omega, encodeRune_char]
    simp [utf8]

theorem spells_body {cs : List Char} {b : Bytes} (h : Spells cs b) : StrBody b := by
  induction h with
  | nil => exact .nil
  | @raw ch cs b h0 h1 h2 _ ih =>
    by_cases hlt : ch.toNat < 0x80
    · have he : String.utf8EncodeChar ch = [UInt8.ofNat ch.toNat] := by
        rw [← encodeRune_char, encodeRune, if_pos hlt]
      have hc := raw_ascii h0 hlt h1 h2
      rw [he]
      exact .plain (UInt8.not_lt.mp hc.1) hc.2.1 hc.2.2.1 ih
    · exact strBody_high (char_high (utf8Char_char ch) (utf8_two (Nat.not_lt.mp hlt))) ih
  | @short ch e cs b he _ ih => exact .esc (short_esc _ he).2.2.2 ih
  | @uni ch ds cs b hd _ ih =>
    obtain ⟨a, b', c, d, rfl, _, h1, h2, h3, h4⟩ := hex4_of hd
    exact .uni h1 h2 h3 h4 ih
  | @pair ch hi lo cs b hc hh hl _ ih =>
    obtain ⟨a, b', c, d, rfl, _, h1, h2, h3, h4⟩ := hex4_of hh
    obtain ⟨a2, b2, c2, d2, rfl, _, g1, g2, g3, g4⟩ := hex4_of hl
    exact .uni h1 h2 h3 h4 (.uni g1 g2 g3 g4 ih)

theorem skipWs_app {w : Bytes} (hw : White w) (b : Bytes) : skipWs (w ++ b) = skipWs b := by
  induction w with
  | nil => rfl
  | cons x w ih =>
    have hx : isWs x = true := by
      rcases hw x (by simp) with rfl | rfl | rfl | rfl <;> rfl
    rw [List.cons_append, skipWs, if_pos hx, ih fun y hy => hw y (List.mem_cons_of_mem _ hy)]

/-- White space around a JSON text is skipped. -/
theorem wholeVal_white {b w1 w2 : Bytes} (h : JText b) (h1 : White w1) (h2 : White w2) :
    wholeVal (w1 ++ (b ++ w2)) = some b := by
  obtain ⟨x, r, hb, hw, _⟩ := jtext_head h
  have hs : skipWs (w1 ++ (b ++ w2)) = b ++ w2 := by
    rw [skipWs_app h1, hb, List.cons_append, skipWs_cons hw]
  have hd : Delim w2 := by
    intro y r' hy
    rcases h2 y (by simp [hy]) with rfl | rfl | rfl | rfl <;> decide
  have := skipVal_jtext (n := (w1 ++ (b ++ w2)).length + 1) h (by simp; omega) w2 hd
  unfold wholeVal
  rw [hs, this]
  have hw2 : skipWs w2 = [] := by rw [← List.append_nil w2, skipWs_app h2]; rfl
  simp [hw2, before_append]

theorem unmStr_spells {cs : List Char} {b w1 w2 : Bytes} (h : Spells cs b) (h1 : White w1) (h2 : White w2) (old : Bytes) :
    unmStr old (w1 ++ (0x22 :: (b ++ [0x22]) ++ w2)) = some (utf8 cs) := by
  unfold unmStr
  rw [wholeVal_white (.str (.mk (spells_body h))) h1 h2]
  simp only [Option.bind_some]
  rw [if_neg (by simp [jNull]), if_pos (by simp), unquote_mk, spells_unquote h _ (by omega)]

theorem jdec_string {id : TId} (hs : Γ.shape id = .string) (hm : NoMethods Γ J id) (g : Nat) (p : Val)
    (fo : FOpts) (bz : Bytes) (hn : bz ≠ jNull) :
    jdec Γ c J (g + 1) (.base id) p fo bz = (ofOpt .json (unmStr [] bz)).bind fun s => .ok (.str s) := by
  have h1 : Γ.isIface id = false := by simp [Prog.isIface, hs]
  rw [jdec]
  simp only [Ty.deref, h1, Bool.false_and]
  rw [if_neg (by simp), if_neg hn, jdecBase, if_neg (by rw [hs]; simp), hm.unjson, hm.unmarsh]
  simp only [jdecShape, hs]
  cases unmStr [] bz <;> rfl

/-- C65: whatever way a text is spelled in JSON, with any white space around it, reading it into a string (of a type
without methods of its own, anywhere inside a value) stores exactly that text in UTF-8. -/
theorem C65_json_string {id : TId} (hs : Γ.shape id = .string) (hm : NoMethods Γ J id) {cs : List Char}
    {b w1 w2 : Bytes} (h : Spells cs b) (h1 : White w1) (h2 : White w2) (g : Nat) (p : Val) (fo : FOpts) :
    jdec Γ c J (g + 1) (.base id) p fo (w1 ++ (0x22 :: (b ++ [0x22]) ++ w2)) = .ok (.str (utf8 cs)) := by
  have hn : w1 ++ (0x22 :: (b ++ [0x22]) ++ w2) ≠ jNull := by
    intro he
    have : (0x22 : UInt8) ∈ jNull := by rw [← he]; simp
    exact absurd this (by decide)
  rw [jdec_string hs hm _ _ _ _ hn, unmStr_spells h h1 h2]; rfl

/-- C65 for the call UnmarshalJSON. -/
theorem C65_json_string_top {id : TId} (hs : Γ.shape id = .string) (hm : NoMethods Γ J id) (hr : c.conc? id = none)
    {cs : List Char} {b w1 w2 : Bytes} (h : Spells cs b) (h1 : White w1) (h2 : White w2) (g : Nat) (p : Val) :
    unmarshalJSON Γ c J (g + 1) (.base id) p (w1 ++ (0x22 :: (b ++ [0x22]) ++ w2)) = .ok (.str (utf8 cs)) := by
  rw [unmarshalJSON, if_neg (by simp)]
  simp only [Ty.deref, getInfo, hs, Res.bind_ok, hr]
  exact C65_json_string hs hm h h1 h2 g p {}

theorem utf8Char_rune (x : Nat) : Utf8Char (encodeRune x) := by
  by_cases h : x < 0xd800 ∨ (0xe000 ≤ x ∧ x < 0x110000)
  · have hv : x.isValidChar := by simp only [Nat.isValidChar]; omega
    have := encodeRune_char (Char.ofNatAux x hv)
    rw [show (Char.ofNatAux x hv).toNat = x by simp [Char.toNat, Char.ofNatAux]] at this
    rw [this]; exact utf8Char_char _
  · have : encodeRune x = [0xef, 0xbf, 0xbd] := by
      unfold encodeRune
      rw [if_neg (by omega), if_neg (by omega)]
      split
      · rfl
      rw [if_neg (by omega), if_neg (by omega)]
    rw [this]
    exact .three (by decide) (by decide) (by decide) ⟨by decide, by decide⟩ ⟨by decide, by decide⟩

theorem utf8_unquoteBody {n : Nat} {b s : Bytes} (h : unquoteBody n b = some s) : Utf8 s := by
  induction n generalizing b s with
  | zero =>
    rw [unquoteBody] at h
    split at h <;> cases h
    exact .nil
  | succ n ih =>
    cases b with
    | nil => cases h; exact .nil
    | cons x r =>
      rw [unquoteBody] at h
      split at h
      · rw [unquoteEsc.eq_def] at h
        split at h
        · cases h
        split at h
        · split at h
          · obtain ⟨y, _, h⟩ := Option.bind_eq_some_iff.mp h
            obtain ⟨t, ht, rfl⟩ := Option.map_eq_some_iff.mp h
            exact .cons (utf8Char_rune _) (ih ht)
          · cases h
        · obtain ⟨y, hy, h⟩ := Option.bind_eq_some_iff.mp h
          obtain ⟨t, ht, rfl⟩ := Option.map_eq_some_iff.mp h
          refine .cons (u := [y]) (.one ?_) (ih ht)
          have ha := u8_decide (P := fun e => (unescChar e).all fun y => y < 0x80) (by decide +kernel)
          have := hy ▸ ha _
          simpa using this
      split at h
      · cases h
      split at h
      · rename_i hlt
        obtain ⟨t, ht, rfl⟩ := Option.map_eq_some_iff.mp h
        exact .cons (u := [x]) (.one hlt) (ih ht)
      split at h
      · obtain ⟨t, ht, rfl⟩ := Option.map_eq_some_iff.mp h
        exact .cons (.three (by decide) (by decide) (by decide) ⟨by decide, by decide⟩ ⟨by decide, by decide⟩) (ih ht)
      · rename_i hne
        obtain ⟨t, ht, rfl⟩ := Option.map_eq_some_iff.mp h
        obtain ⟨h1, _⟩ := utf8Len_inv hne
        exact .cons h1 (ih ht)

/-- C65: whatever bytes are read into a string, the string is well formed UTF-8. -/
theorem C65_json_string_utf8 {id : TId} (hs : Γ.shape id = .string) (hm : NoMethods Γ J id) {g : Nat} {p v : Val}
    {fo : FOpts} {bz : Bytes} (hn : bz ≠ jNull) (h : jdec Γ c J (g + 1) (.base id) p fo bz = .ok v) :
    ∃ s, v = .str s ∧ Utf8 s := by
  rw [jdec_string hs hm _ _ _ _ hn] at h
  obtain ⟨s, hs', hv⟩ := Res.bind_eq_ok h
  cases hv
  cases hq : unmStr [] bz with
  | none => rw [hq] at hs'; cases hs'
  | some x =>
    rw [hq] at hs'; cases hs'
    unfold unmStr at hq
    obtain ⟨raw, hr, hq⟩ := Option.bind_eq_some_iff.mp hq
    split at hq
    · rename_i hraw
      subst hraw
      cases hq
      exact ⟨[], rfl, .nil⟩
    split at hq
    · exact ⟨s, rfl, utf8_unquoteBody hq⟩
    · cases hq

namespace JDemo
/-- U+1F600 in four bytes, in a short escape's company, and as a surrogate pair. -/
example : unmarshalJSON prog codec lib 1 (.base stringT) (.str [1])
    ([0x20] ++ (0x22 :: ([0x5c, 0x75, 0x64, 0x38, 0x33, 0x44, 0x5c, 0x75, 0x44, 0x65, 0x30, 0x30, 0x5c, 0x6e,
      0x5c, 0x75, 0x30, 0x30, 0x34, 0x31] ++ [0x22]) ++ [0x0a])) = .ok (.str (utf8 [Char.ofNat 0x1f600, '\n', 'A'])) := by
  refine C65_json_string_top rfl (noMethods (by decide)) rfl ?_ (by simp [White]) (by simp [White]) 0 _
  refine .pair (hi := [0x64, 0x38, 0x33, 0x44]) (lo := [0x44, 0x65, 0x30, 0x30]) (by decide)
    (.mk (w := 13) (x := 8) (y := 3) (z := 13) ?_ ?_ ?_ ?_) (.mk (w := 13) (x := 14) (y := 0) (z := 0) ?_ ?_ ?_ ?_)
    (.short (e := 'n') (by decide) (.uni (ch := 'A') (ds := [0x30, 0x30, 0x34, 0x31])
      (.mk (w := 0) (x := 0) (y := 4) (z := 1) ?_ ?_ ?_ ?_) .nil)) <;> simp [HexIs]
end JDemo

end Amino
