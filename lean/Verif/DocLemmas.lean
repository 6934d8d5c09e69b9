import Verif.SpecDoc
import Verif.JsonExact
import Verif.PropsJson3

/-!
# MarshalJSON writes the document a value stands for
-/

namespace Amino
open Spec

/-! ## Strings -/

theorem char_of {n : Nat} (h : n < 0xd800 ∨ (0xe000 ≤ n ∧ n < 0x110000)) : ∃ ch : Char, ch.toNat = n := by
  refine ⟨⟨UInt32.ofNat n, ?_⟩, ?_⟩
  · simp only [UInt32.isValidChar, Nat.isValidChar, UInt32.toNat_ofNat']; omega
  · simp only [Char.toNat, UInt32.toNat_ofNat']; omega

/-- Every well formed sequence is the encoding of a character. -/
theorem utf8Char_inv {u : Bytes} (h : Utf8Char u) : ∃ ch : Char, String.utf8EncodeChar ch = u := by
  have key : ∀ n, (n < 0xd800 ∨ (0xe000 ≤ n ∧ n < 0x110000)) → encodeRune n = u → ∃ ch : Char, String.utf8EncodeChar ch = u := by
    intro n hn he
    obtain ⟨ch, rfl⟩ := char_of hn
    exact ⟨ch, by rw [← encodeRune_char, he]⟩
  have le : ∀ {a b : UInt8}, a ≤ b → a.toNat ≤ b.toNat := fun h => UInt8.le_iff_toNat_le.mp h
  have tl : ∀ {b : UInt8}, Tail b → 128 ≤ b.toNat ∧ b.toNat ≤ 191 := fun h => ⟨le h.1, le h.2⟩
  cases h with
  | @one a h1 =>
    have : a.toNat < 128 := UInt8.lt_iff_toNat_lt.mp h1
    exact key a.toNat (by omega) (by rw [encodeRune, if_pos (by omega), u8_eq rfl])
  | @two a b h1 h2 h3 =>
    have h1 := le h1; have h2 := le h2; have h3 := tl h3
    simp at h1 h2
    refine key ((a.toNat - 192) * 64 + (b.toNat - 128)) (by omega) ?_
    rw [encodeRune, if_neg (by omega), if_pos (by omega), u8_eq (a := a) (by omega), u8_eq (a := b) (by omega)]
  | @e0 b c h1 h2 h3 =>
    have h1 := le h1; have h2 := le h2; have h3 := tl h3
    simp at h1 h2
    refine key ((b.toNat - 128) * 64 + (c.toNat - 128)) (by omega) ?_
    rw [encodeRune, if_neg (by omega), if_neg (by omega), if_neg (by omega), if_pos (by omega),
      u8_eq (a := 0xe0) (by simp; omega), u8_eq (a := b) (by omega), u8_eq (a := c) (by omega)]
  | @three a b c h1 h2 h0 h3 h4 =>
    have h1 := le h1; have h2 := le h2; have h3 := tl h3; have h4 := tl h4
    simp at h1 h2
    have h0 : a.toNat ≠ 237 := fun h => h0 (by rw [← u8_eq (a := a) rfl, h]; rfl)
    refine key ((a.toNat - 224) * 4096 + (b.toNat - 128) * 64 + (c.toNat - 128)) (by omega) ?_
    rw [encodeRune, if_neg (by omega), if_neg (by omega), if_neg (by omega), if_pos (by omega),
      u8_eq (a := a) (by omega), u8_eq (a := b) (by omega), u8_eq (a := c) (by omega)]
  | @ed b c h1 h2 h3 =>
    have h1 := le h1; have h2 := le h2; have h3 := tl h3
    simp at h1 h2
    refine key (13 * 4096 + (b.toNat - 128) * 64 + (c.toNat - 128)) (by omega) ?_
    rw [encodeRune, if_neg (by omega), if_neg (by omega), if_neg (by omega), if_pos (by omega),
      u8_eq (a := 0xed) (by simp; omega), u8_eq (a := b) (by omega), u8_eq (a := c) (by omega)]
  | @f0 b c d h1 h2 h3 h4 =>
    have h1 := le h1; have h2 := le h2; have h3 := tl h3; have h4 := tl h4
    simp at h1 h2
    refine key ((b.toNat - 128) * 4096 + (c.toNat - 128) * 64 + (d.toNat - 128)) (by omega) ?_
    rw [encodeRune, if_neg (by omega), if_neg (by omega), if_neg (by omega), if_neg (by omega), if_pos (by omega),
      u8_eq (a := 0xf0) (by simp; omega), u8_eq (a := b) (by omega), u8_eq (a := c) (by omega), u8_eq (a := d) (by omega)]
  | @four a b c d h1 h2 h3 h4 h5 =>
    have h1 := le h1; have h2 := le h2; have h3 := tl h3; have h4 := tl h4; have h5 := tl h5
    simp at h1 h2
    refine key ((a.toNat - 240) * 262144 + (b.toNat - 128) * 4096 + (c.toNat - 128) * 64 + (d.toNat - 128)) (by omega) ?_
    rw [encodeRune, if_neg (by omega), if_neg (by omega), if_neg (by omega), if_neg (by omega), if_pos (by omega),
      u8_eq (a := a) (by omega), u8_eq (a := b) (by omega), u8_eq (a := c) (by omega), u8_eq (a := d) (by omega)]
  | @f4 b c d h1 h2 h3 h4 =>
    have h1 := le h1; have h2 := le h2; have h3 := tl h3; have h4 := tl h4
    simp at h1 h2
    refine key (4 * 262144 + (b.toNat - 128) * 4096 + (c.toNat - 128) * 64 + (d.toNat - 128)) (by omega) ?_
    rw [encodeRune, if_neg (by omega), if_neg (by omega), if_neg (by omega), if_neg (by omega), if_pos (by omega),
      u8_eq (a := 0xf4) (by simp; omega), u8_eq (a := b) (by omega), u8_eq (a := c) (by omega), u8_eq (a := d) (by omega)]

theorem utf8EncodeChar_inj {x y : Char} (h : String.utf8EncodeChar x = String.utf8EncodeChar y) : x = y := by
  have h1 := ByteArray.utf8DecodeChar?_utf8EncodeChar_append (b := .empty) (c := x)
  rw [h, ByteArray.utf8DecodeChar?_utf8EncodeChar_append] at h1
  exact (Option.some.inj h1).symm

theorem utf8_ascii_char {ch : Char} (h : ch.toNat < 0x80) : String.utf8EncodeChar ch = [UInt8.ofNat ch.toNat] := by
  rw [← encodeRune_char, encodeRune, if_pos h]

theorem ascii_char {a : UInt8} (h : a < 0x80) : ∃ ch : Char, ch.toNat = a.toNat ∧ String.utf8EncodeChar ch = [a] := by
  have : a.toNat < 128 := UInt8.lt_iff_toNat_lt.mp h
  obtain ⟨ch, hc⟩ := char_of (n := a.toNat) (by omega)
  exact ⟨ch, hc, by rw [utf8_ascii_char (by omega), hc, UInt8.ofNat_toNat]⟩

theorem high_char {ch : Char} (h : 2 ≤ (String.utf8EncodeChar ch).length) : 0x80 ≤ ch.toNat := by
  apply Classical.byContradiction
  intro hn
  rw [utf8_ascii_char (by omega)] at h
  simp at h

/-- A character that stands for itself. -/
theorem spells_raw {ch : Char} (h : 0x80 ≤ ch.toNat) {cs : List Char} {b : Bytes} (hs : Spells cs b) :
    Spells (ch :: cs) (String.utf8EncodeChar ch ++ b) := by
  refine .raw (by omega) ?_ ?_ hs <;> (intro he; rw [he] at h; revert h; decide)

theorem char_ne {ch : Char} {n : Nat} (h : ch.toNat = n) {ch' : Char} (hn : n ≠ ch'.toNat) : ch ≠ ch' := by
  intro he; rw [he] at h; exact hn h.symm

theorem char_eq {ch : Char} {n : Nat} (h : ch.toNat = n) {ch' : Char} (hn : n = ch'.toNat) : ch = ch' := by
  rw [← Char.ofNat_toNat ch, h, hn, Char.ofNat_toNat]

theorem hexDigit_is {n : Nat} (h : n < 16) : HexIs n (hexDigit n) := by
  unfold HexIs hexDigit
  split
  · refine .inl ⟨‹_›, ?_⟩; simp; omega
  · refine .inr ⟨by omega, h, .inr ?_⟩; simp; omega

theorem spells_escByte {c : UInt8} (hc : c < 0x80) {ch : Char} (hch : ch.toNat = c.toNat) {cs : List Char} {b : Bytes}
    (hs : Spells cs b) : Spells (ch :: cs) (escByte c ++ b) := by
  have hlt : c.toNat < 128 := UInt8.lt_iff_toNat_lt.mp hc
  have eq : ∀ {m : UInt8}, c = m → c.toNat = m.toNat := fun h => by rw [h]
  have ne : ∀ {m : UInt8}, c ≠ m → c.toNat ≠ m.toNat := fun h h' => h (UInt8.toNat_inj.mp h')
  unfold escByte
  split
  · rename_i h
    rcases h with h | h <;> subst h
    · have : ch = '"' := char_eq hch (by decide)
      exact .short (ch := ch) (e := '"') (by rw [this]; decide) hs
    · have : ch = '\\' := char_eq hch (by decide)
      exact .short (ch := ch) (e := '\\') (by rw [this]; decide) hs
  split
  · rename_i h; subst h
    have : ch = '\n' := char_eq hch (by decide)
    exact .short (ch := ch) (e := 'n') (by rw [this]; decide) hs
  split
  · rename_i h; subst h
    have : ch = '\x0d' := char_eq hch (by decide)
    exact .short (ch := ch) (e := 'r') (by rw [this]; decide) hs
  split
  · rename_i h; subst h
    have : ch = '\t' := char_eq hch (by decide)
    exact .short (ch := ch) (e := 't') (by rw [this]; decide) hs
  split
  · have h4 : Hex4 ch.toNat [0x30, 0x30, hexDigit (c.toNat / 16), hexDigit (c.toNat % 16)] := by
      have := Hex4.mk (w := 0) (x := 0) (a := 0x30) (b := 0x30) (.inl ⟨by omega, by decide⟩) (.inl ⟨by omega, by decide⟩)
        (hexDigit_is (n := c.toNat / 16) (by omega)) (hexDigit_is (n := c.toNat % 16) (by omega))
      rw [show ch.toNat = 4096 * 0 + 256 * 0 + 16 * (c.toNat / 16) + c.toNat % 16 by omega]
      exact this
    exact Spells.uni (ds := [0x30, 0x30, hexDigit (c.toNat / 16), hexDigit (c.toNat % 16)]) h4 hs
  · rename_i h0 _ _ _ h5
    have h20 : 0x20 ≤ c.toNat := by
      apply Classical.byContradiction
      intro hn
      exact h5 (.inl (UInt8.lt_iff_toNat_lt.mpr (by simpa using hn)))
    have := Spells.raw (ch := ch) (by omega) (char_ne hch (ne fun h => h0 (.inl h))) (char_ne hch (ne fun h => h0 (.inr h))) hs
    rw [utf8_ascii_char (by omega), hch, UInt8.ofNat_toNat] at this
    exact this

theorem quoteBody_spells {n : Nat} {s : Bytes} (h : s.length ≤ n) : ∃ cs, Decodes s cs ∧ Spells cs (quoteBody n s) := by
  induction n generalizing s with
  | zero =>
    cases s with
    | nil => exact ⟨[], .nil, .nil⟩
    | cons => simp at h
  | succ n ih =>
    cases s with
    | nil => exact ⟨[], .nil, .nil⟩
    | cons c r =>
      rw [quoteBody]
      split
      · rename_i hc
        obtain ⟨cs, h1, h2⟩ := ih (s := r) (by simpa using h)
        obtain ⟨ch, hch, he⟩ := ascii_char hc
        exact ⟨ch :: cs, by have := Decodes.char (ch := ch) h1; rwa [he] at this, spells_escByte hc hch h2⟩
      rename_i hc
      split
      · rename_i hz
        obtain ⟨cs, h1, h2⟩ := ih (s := r) (by simpa using h)
        refine ⟨_, .bad ?_ h1, ?_⟩
        · intro ch s he
          rcases char_cases (utf8Char_char ch) with ⟨a, ha, hlt⟩ | ⟨hl, _⟩
          · rw [ha] at he
            cases he
            exact hc hlt
          · rw [he, utf8Len_char (utf8Char_char ch) hl] at hz
            omega
        · have h4 : Hex4 '�'.toNat [0x66, 0x66, 0x66, 0x64] :=
            Hex4.mk (w := 15) (x := 15) (y := 15) (z := 13) (.inr ⟨by omega, by omega, .inr (by decide)⟩)
              (.inr ⟨by omega, by omega, .inr (by decide)⟩) (.inr ⟨by omega, by omega, .inr (by decide)⟩)
              (.inr ⟨by omega, by omega, .inr (by decide)⟩)
          exact Spells.uni (ds := [0x66, 0x66, 0x66, 0x64]) h4 h2
      · rename_i hz
        obtain ⟨hu, hl, hle⟩ := utf8Len_inv hz
        obtain ⟨ch, hch⟩ := utf8Char_inv hu
        have hlen : (String.utf8EncodeChar ch).length = utf8Len (c :: r) := by rw [hch, List.length_take]; omega
        obtain ⟨cs, h1, h2⟩ := ih (s := (c :: r).drop (utf8Len (c :: r))) (by
          rw [List.length_drop]; simp only [List.length_cons] at h ⊢; omega)
        have hd : Decodes (c :: r) (ch :: cs) := by
          have := Decodes.char (ch := ch) h1
          rwa [hch, List.take_append_drop] at this
        refine ⟨ch :: cs, hd, ?_⟩
        have two : ∀ (x : Char) (b : Bytes), String.utf8EncodeChar x = b → b.length = 3 → (c :: r).take 3 = b → ch = x := by
          intro x b hx hb ht
          have h3 : utf8Len (c :: r) = 3 := by
            have e : c :: r = String.utf8EncodeChar x ++ (c :: r).drop 3 := by
              rw [hx, ← ht, List.take_append_drop]
            rw [e, utf8Len_char (utf8Char_char x) (by rw [hx, hb]; omega), hx, hb]
          rw [h3] at hch
          have e2 : String.utf8EncodeChar ch = String.utf8EncodeChar x := by rw [hch, ht, hx]
          exact utf8EncodeChar_inj e2
        split
        · rename_i ht
          have := two ' ' _ (by decide) rfl ht
          subst this
          exact Spells.uni (ds := [0x32, 0x30, 0x32, 0x38]) (Hex4.mk (w := 2) (x := 0) (y := 2) (z := 8)
            (.inl ⟨by omega, by decide⟩) (.inl ⟨by omega, by decide⟩) (.inl ⟨by omega, by decide⟩) (.inl ⟨by omega, by decide⟩)) h2
        split
        · rename_i ht
          have := two ' ' _ (by decide) rfl ht
          subst this
          exact Spells.uni (ds := [0x32, 0x30, 0x32, 0x39]) (Hex4.mk (w := 2) (x := 0) (y := 2) (z := 9)
            (.inl ⟨by omega, by decide⟩) (.inl ⟨by omega, by decide⟩) (.inl ⟨by omega, by decide⟩) (.inl ⟨by omega, by decide⟩)) h2
        · rw [← hch]
          exact spells_raw (high_char (by omega)) h2

theorem quoteStr_spells (s : Bytes) : ∃ cs b, Decodes s cs ∧ Spells cs b ∧ quoteStr s = 0x22 :: (b ++ [0x22]) := by
  obtain ⟨cs, h1, h2⟩ := quoteBody_spells (n := s.length) (s := s) (Nat.le_refl _)
  exact ⟨cs, _, h1, h2, rfl⟩

/-- Text without quotes, backslashes and control characters stands for itself. -/
theorem spells_plain {b : Bytes} (hu : Utf8 b) (h : ∀ c ∈ b, 0x20 ≤ c ∧ c ≠ 0x22 ∧ c ≠ 0x5c) :
    ∃ cs, utf8 cs = b ∧ Decodes b cs ∧ Spells cs b := by
  induction hu with
  | nil => exact ⟨[], rfl, .nil, .nil⟩
  | @cons u s h1 _ ih =>
    obtain ⟨cs, e, hd, hs⟩ := ih fun c hc => h c (List.mem_append_right _ hc)
    obtain ⟨ch, rfl⟩ := utf8Char_inv h1
    refine ⟨ch :: cs, by simp [utf8, ← e], .char hd, ?_⟩
    rcases Nat.lt_or_ge ch.toNat 0x80 with hlt | hge
    · have := h (UInt8.ofNat ch.toNat) (by rw [utf8_ascii_char hlt]; simp)
      refine .raw ?_ ?_ ?_ hs
      · have := UInt8.le_iff_toNat_le.mp this.1
        rw [UInt8.toNat_ofNat'] at this
        simp at this; omega
      · intro he; exact this.2.1 (by rw [he]; rfl)
      · intro he; exact this.2.2 (by rw [he]; rfl)
    · exact spells_raw hge hs

theorem spells_self {cs : List Char} (h : ∀ ch ∈ cs, 0x20 ≤ ch.toNat ∧ ch ≠ '"' ∧ ch ≠ '\\') : Spells cs (utf8 cs) := by
  induction cs with
  | nil => exact .nil
  | cons ch cs ih =>
    have := h ch (by simp)
    rw [show utf8 (ch :: cs) = String.utf8EncodeChar ch ++ utf8 cs by simp [utf8]]
    exact .raw this.1 this.2.1 this.2.2 (ih fun x hx => h x (by simp [hx]))

/-! ## Base64 -/

theorem b64_letter {n : Nat} (h : n < 64) : [b64Char n] = String.utf8EncodeChar (base64Alphabet.getD n '=') := by
  have : ∀ n, n < 64 → [b64Char n] = String.utf8EncodeChar (base64Alphabet.getD n '=') := by decide +kernel
  exact this n h

theorem letter_plain (n : Nat) : 0x20 ≤ (base64Alphabet.getD n '=').toNat ∧ base64Alphabet.getD n '=' ≠ '"' ∧
    base64Alphabet.getD n '=' ≠ '\\' := by
  rcases Nat.lt_or_ge n 64 with h | h
  · have : ∀ n, n < 64 → 0x20 ≤ (base64Alphabet.getD n '=').toNat ∧ base64Alphabet.getD n '=' ≠ '"' ∧
      base64Alphabet.getD n '=' ≠ '\\' := by decide +kernel
    exact this n h
  · have hl : base64Alphabet.length = 64 := by decide +kernel
    rw [List.getD_eq_getElem?_getD, List.getElem?_eq_none (by rw [hl]; exact h)]
    decide

theorem base64_plain (b : Bytes) : ∀ ch ∈ base64 b, 0x20 ≤ ch.toNat ∧ ch ≠ '"' ∧ ch ≠ '\\' := by
  intro ch h
  simp only [base64, List.mem_append, List.mem_map, List.mem_replicate] at h
  rcases h with ⟨n, _, rfl⟩ | ⟨_, rfl⟩
  · exact letter_plain n
  · decide

theorem hi6 {x : Nat} (h : x < 256) : x / 4 = 32 * (x / 128 % 2) + 16 * (x / 64 % 2) + 8 * (x / 32 % 2) +
    4 * (x / 16 % 2) + 2 * (x / 8 % 2) + x / 4 % 2 := by omega
theorem lo2 (x : Nat) : x % 4 * 16 = 32 * (x / 2 % 2) + 16 * (x / 1 % 2) := by omega
theorem hi4 {x : Nat} (h : x < 256) : x / 16 = 8 * (x / 128 % 2) + 4 * (x / 64 % 2) + 2 * (x / 32 % 2) + x / 16 % 2 := by omega
theorem lo4 (x : Nat) : x % 16 * 4 = 32 * (x / 8 % 2) + 16 * (x / 4 % 2) + 8 * (x / 2 % 2) + 4 * (x / 1 % 2) := by omega
theorem hi2 {x : Nat} (h : x < 256) : x / 64 = 2 * (x / 128 % 2) + x / 64 % 2 := by omega
theorem lo6 (x : Nat) : x % 64 = 32 * (x / 32 % 2) + 16 * (x / 16 % 2) + 8 * (x / 8 % 2) + 4 * (x / 4 % 2) +
    2 * (x / 2 % 2) + x / 1 % 2 := by omega

theorem sextets1 (a : UInt8) : sextets ([a].flatMap bits) = [a.toNat / 4, a.toNat % 4 * 16] := by
  rw [hi6 a.toNat_lt, lo2]; rfl

theorem sextets2 (a b : UInt8) : sextets ([a, b].flatMap bits) =
    [a.toNat / 4, a.toNat % 4 * 16 + b.toNat / 16, b.toNat % 16 * 4] := by
  rw [hi6 a.toNat_lt, lo2, hi4 b.toNat_lt, lo4]
  simp only [← Nat.add_assoc]
  rfl

theorem sextets3 (a b c : UInt8) (r : Bytes) : sextets ((a :: b :: c :: r).flatMap bits) =
    a.toNat / 4 :: (a.toNat % 4 * 16 + b.toNat / 16) :: (b.toNat % 16 * 4 + c.toNat / 64) :: c.toNat % 64 ::
      sextets (r.flatMap bits) := by
  rw [hi6 a.toNat_lt, lo2, hi4 b.toNat_lt, lo4, hi2 c.toNat_lt, lo6]
  simp only [← Nat.add_assoc]
  rfl

attribute [local irreducible] base64Alphabet

theorem base64_3 (a b c : UInt8) (r : Bytes) : base64 (a :: b :: c :: r) =
    base64Alphabet.getD (a.toNat / 4) '=' :: base64Alphabet.getD (a.toNat % 4 * 16 + b.toNat / 16) '=' ::
    base64Alphabet.getD (b.toNat % 16 * 4 + c.toNat / 64) '=' :: base64Alphabet.getD (c.toNat % 64) '=' :: base64 r := by
  unfold base64
  rw [sextets3]
  simp only [List.map_cons, List.length_cons, List.cons_append, List.length_map, Nat.reduceAdd, Nat.add_assoc, Nat.add_mod_right]

theorem utf8_cons (ch : Char) (cs : List Char) : utf8 (ch :: cs) = String.utf8EncodeChar ch ++ utf8 cs := rfl

theorem b64Enc_base64 (b : Bytes) : b64Enc b = utf8 (base64 b) := by
  fun_induction b64Enc b with
  | case1 => rfl
  | case2 a =>
    have ha := a.toNat_lt
    unfold base64
    rw [sextets1]
    simp only [List.map_cons, List.map_nil, List.cons_append, utf8_cons, List.length_cons, List.length_nil]
    rw [← b64_letter (by omega), ← b64_letter (by omega)]
    rfl
  | case3 a b =>
    have ha := a.toNat_lt
    have hb := b.toNat_lt
    unfold base64
    rw [sextets2]
    simp only [List.map_cons, List.map_nil, List.cons_append, utf8_cons, List.length_cons, List.length_nil]
    rw [← b64_letter (by omega), ← b64_letter (by omega), ← b64_letter (by omega)]
    rfl
  | case4 a b c r ih =>
    have ha := a.toNat_lt
    have hb := b.toNat_lt
    have hc := c.toNat_lt
    rw [ih, base64_3, utf8_cons, utf8_cons, utf8_cons, utf8_cons]
    rw [← b64_letter (by omega), ← b64_letter (by omega), ← b64_letter (by omega), ← b64_letter (by omega)]
    rfl

theorem spells_b64 (b : Bytes) : Spells (base64 b) (b64Enc b) := by
  rw [b64Enc_base64]
  exact spells_self (base64_plain b)

end Amino
