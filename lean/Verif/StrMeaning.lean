import Verif.SpecReads
import Verif.B64Inv
import Verif.DocUnique

/-!
# What string literals are read as
-/

namespace Amino
open Spec

theorem denotes_body {cs : List Char} {b : Bytes} (h : Denotes b cs) : StrBody b := by
  induction h with
  | nil => exact .nil
  | @raw ch cs b h0 h1 h2 _ ih =>
    by_cases hlt : ch.toNat < 0x80
    · have he : String.utf8EncodeChar ch = [UInt8.ofNat ch.toNat] := utf8_ascii_char hlt
      have hc := raw_ascii h0 hlt h1 h2
      rw [he]
      exact .plain (UInt8.not_lt.mp hc.1) hc.2.1 hc.2.2.1 ih
    · exact strBody_high (char_high (utf8Char_char ch) (utf8_two (Nat.not_lt.mp hlt))) ih
  | @short ch e cs b he _ ih => exact .esc (short_esc _ he).2.2.2 ih
  | @uni ch ds cs b hd _ ih =>
    obtain ⟨a, b', c, d, rfl, _, h1, h2, h3, h4⟩ := hex4_of hd
    exact .uni h1 h2 h3 h4 ih
  | @pair ch hi lo cs b hc hh hl _ ih =>
    obtain ⟨a, b', c, d, rfl, _, h1, h2, h3, h4⟩ := hex4_of hh
    obtain ⟨a2, b2, c2, d2, rfl, _, g1, g2, g3, g4⟩ := hex4_of hl
    exact .uni h1 h2 h3 h4 (.uni g1 g2 g3 g4 ih)
  | @lone v ds cs b hd _ _ _ _ ih =>
    obtain ⟨a, b', c, d, rfl, _, h1, h2, h3, h4⟩ := hex4_of hd
    exact .uni h1 h2 h3 h4 ih
  | @bad x cs b hx _ _ ih => exact strBody_high (u := [x]) (by simpa using hx) ih

theorem utf8_bad : String.utf8EncodeChar '�' = [0xef, 0xbf, 0xbd] := by decide +kernel

theorem lowSurrogate_inv {r : Bytes} {y : Nat} (h : lowSurrogate r = some y) :
    ∃ lo r', r = 0x5c :: 0x75 :: (lo ++ r') ∧ Hex4 y lo ∧ lo.length = 4 ∧ 0xdc00 ≤ y ∧ y < 0xe000 := by
  unfold lowSurrogate at h
  split at h
  · rename_i a b c d r'
    obtain ⟨x, hx, h⟩ := Option.bind_eq_some_iff.mp h
    split at h
    · rename_i hr
      cases h
      exact ⟨[a, b, c, d], r', rfl, (hex4_inv hx).1, rfl, hr.1, hr.2⟩
    · cases h
  · cases h

theorem lowSurrogate_of {y : Nat} {lo r' : Bytes} (hy : Hex4 y lo) (h1 : 0xdc00 ≤ y) (h2 : y < 0xe000) :
    lowSurrogate (0x5c :: 0x75 :: (lo ++ r')) = some y := by
  obtain ⟨a, b, c, d, rfl, hx, _⟩ := hex4_of hy
  simp only [List.cons_append, List.nil_append, lowSurrogate, hx, Option.bind_some]
  rw [if_pos ⟨h1, h2⟩]

/-- A byte that begins no character. -/
theorem utf8Len_zero {x : UInt8} {b : Bytes} (hx : 0x80 ≤ x) :
    utf8Len (x :: b) = 0 ↔ ∀ ch s, x :: b ≠ String.utf8EncodeChar ch ++ s := by
  constructor
  · intro h ch s he
    rcases char_cases (utf8Char_char ch) with ⟨a, ha, hlt⟩ | ⟨hl, _⟩
    · rw [ha] at he
      simp only [List.singleton_append, List.cons.injEq] at he
      obtain ⟨rfl, _⟩ := he
      exact absurd hlt (UInt8.not_lt.mpr hx)
    · rw [he, utf8Len_char (utf8Char_char ch) hl] at h
      omega
  · intro h
    apply Classical.byContradiction
    intro hn
    obtain ⟨hu, h1, h2⟩ := utf8Len_inv hn
    obtain ⟨ch, hc⟩ := utf8Char_inv hu
    exact h ch _ (by rw [hc, List.take_append_drop])

theorem unquoteBody_denotes {n : Nat} {b s : Bytes} (hb : StrBody b) (h : unquoteBody n b = some s) :
    ∃ cs, Denotes b cs ∧ s = utf8 cs := by
  induction n generalizing b s with
  | zero =>
    rw [unquoteBody] at h
    split at h
    · rename_i hn; cases h; subst hn; exact ⟨[], .nil, rfl⟩
    · cases h
  | succ n ih =>
    cases hb with
    | nil => cases h; exact ⟨[], .nil, rfl⟩
    | @plain c r h0 h1 h2 hr =>
      rw [unquoteBody, if_neg h2, if_neg (by simp only [not_or]; exact ⟨h1, UInt8.not_lt.mpr h0⟩)] at h
      split at h
      · rename_i hc
        obtain ⟨s', hs', rfl⟩ := Option.map_eq_some_iff.mp h
        obtain ⟨cs, hsp, rfl⟩ := ih hr hs'
        obtain ⟨e1, e2⟩ := utf8Enc_ascii hc
        refine ⟨Char.ofNat c.toNat :: cs, ?_, by simp [utf8, e2]⟩
        have := Denotes.raw (ch := Char.ofNat c.toNat) (b := r) (cs := cs) (by rw [e1]; exact UInt8.le_iff_toNat_le.mp h0)
          (fun he => h1 (by have := congrArg Char.toNat he; rw [e1] at this; exact UInt8.toNat_inj.mp this))
          (fun he => h2 (by have := congrArg Char.toNat he; rw [e1] at this; exact UInt8.toNat_inj.mp this)) hsp
        rw [e2] at this
        exact this
      rename_i hc
      have hc := UInt8.not_lt.mp hc
      split at h
      · rename_i hu
        obtain ⟨s', hs', rfl⟩ := Option.map_eq_some_iff.mp h
        obtain ⟨cs, hsp, rfl⟩ := ih hr hs'
        exact ⟨'�' :: cs, .bad hc ((utf8Len_zero hc).mp hu) hsp, by simp [utf8, utf8_bad]⟩
      · rename_i hu
        obtain ⟨s', hs', rfl⟩ := Option.map_eq_some_iff.mp h
        obtain ⟨hu', h3, h4⟩ := utf8Len_inv hu
        have hh := char_high hu' (by rw [List.length_take]; omega)
        obtain ⟨ch, hch⟩ := utf8Char_inv hu'
        have hd : StrBody ((c :: r).drop (utf8Len (c :: r))) := by
          have : ∀ (k : Nat) (b : Bytes), StrBody b → (∀ x ∈ b.take k, (0x80 : UInt8) ≤ x) → StrBody (b.drop k) := by
            intro k
            induction k with
            | zero => intro b hb _; exact hb
            | succ k ihk =>
              intro b hb hx
              cases hb with
              | nil => exact .nil
              | plain _ _ _ hr => exact ihk _ hr fun x hx' => hx x (by simp [hx'])
              | esc _ _ => exact absurd (hx 0x5c (by simp)) (by decide)
              | uni _ _ _ _ _ => exact absurd (hx 0x5c (by simp)) (by decide)
          exact this _ _ (.plain h0 h1 h2 hr) hh
        obtain ⟨cs, hsp, rfl⟩ := ih hd hs'
        have h80 : 0x80 ≤ ch.toNat := high_char (by rw [hch, List.length_take]; omega)
        refine ⟨ch :: cs, ?_, by simp [utf8, hch]⟩
        have := Denotes.raw (ch := ch) (by omega) (by intro he; rw [he] at h80; revert h80; decide)
          (by intro he; rw [he] at h80; revert h80; decide) hsp
        rw [hch, List.take_append_drop] at this
        exact this
    | @esc e r he hr =>
      rw [unquoteBody, if_pos rfl, unquoteEsc.eq_def] at h
      simp only at h
      rw [if_neg (by rintro rfl; simp at he)] at h
      obtain ⟨ch, hch, h⟩ := Option.bind_eq_some_iff.mp h
      obtain ⟨s', hs', rfl⟩ := Option.map_eq_some_iff.mp h
      obtain ⟨cs, hsp, rfl⟩ := ih hr hs'
      obtain ⟨p, hp, rfl, rfl, e3⟩ := unescChar_short he hch
      exact ⟨p.1 :: cs, .short hp hsp, by simp [utf8, e3]⟩
    | @uni a b c d r h1 h2 h3 h4 hr =>
      rw [unquoteBody, if_pos rfl, unquoteEsc.eq_def] at h
      simp only [if_true] at h
      obtain ⟨x, hx, h⟩ := Option.bind_eq_some_iff.mp h
      obtain ⟨s', hs', rfl⟩ := Option.map_eq_some_iff.mp h
      obtain ⟨hh, hx16⟩ := hex4_inv hx
      unfold surrogate at hs' ⊢
      split at hs'
      · rename_i hsu
        simp only [if_pos hsu]
        cases hl : (if x < 0xdc00 then lowSurrogate r else none) with
        | none =>
          rw [hl] at hs'
          obtain ⟨cs, hsp, rfl⟩ := ih hr (by simpa using hs')
          refine ⟨'�' :: cs, .lone (ds := [a, b, c, d]) hh hsu.1 hsu.2 ?_ hsp, ?_⟩
          · intro hlt v' lo r' hv h5 h6 he
            rw [if_pos hlt, he, lowSurrogate_of hv h5 h6] at hl
            cases hl
          · simp only [utf8, List.flatMap_cons, utf8_bad]; rfl
        | some y =>
          rw [hl] at hs'
          split at hl
          · rename_i hlt
            obtain ⟨lo, r', rfl, hy, hlen, h5, h6⟩ := lowSurrogate_inv hl
            have hd : (0x5c :: 0x75 :: (lo ++ r') : Bytes).drop 6 = r' := by
              simp [hlen]
            simp only [hd] at hs'
            obtain ⟨p, q, s, t, rfl, _, _⟩ := hex4_of hy
            have hr' : StrBody r' := by
              cases hr with
              | plain _ _ h _ => exact absurd rfl h
              | esc he _ => exact absurd he (by decide)
              | uni _ _ _ _ h => exact h
            obtain ⟨cs, hsp, rfl⟩ := ih hr' hs'
            obtain ⟨ch, hch⟩ := char_of (n := (x - 0xd800) * 1024 + (y - 0xdc00) + 0x10000) (by omega)
            refine ⟨ch :: cs, .pair (hi := [a, b, c, d]) (lo := [p, q, s, t]) (by omega) ?_ ?_ hsp, ?_⟩
            · rw [hch, show 0xd800 + ((x - 0xd800) * 1024 + (y - 0xdc00) + 0x10000 - 0x10000) / 0x400 = x by omega]; exact hh
            · rw [hch, show 0xdc00 + ((x - 0xd800) * 1024 + (y - 0xdc00) + 0x10000 - 0x10000) % 0x400 = y by omega]; exact hy
            · simp only [utf8, List.flatMap_cons]
              rw [← encodeRune_char, hch]
          · cases hl
      · rename_i hsu
        simp only [if_neg hsu]
        obtain ⟨cs, hsp, rfl⟩ := ih hr (by simpa using hs')
        obtain ⟨ch, rfl⟩ := char_of (n := x) (by omega)
        refine ⟨ch :: cs, .uni (ds := [a, b, c, d]) hh hsp, ?_⟩
        simp only [utf8, List.flatMap_cons]
        rw [← encodeRune_char]

theorem denotes_unquote {cs : List Char} {b : Bytes} (h : Denotes b cs) :
    ∀ m, b.length ≤ m → unquoteBody m b = some (utf8 cs) := by
  induction h with
  | nil => intro m _; rw [unquoteBody_nil]; rfl
  | @raw ch cs b h0 h1 h2 _ ih =>
    intro m hm
    obtain ⟨m, rfl⟩ : ∃ k, m = k + 1 := by
      have := utf8Char_char ch
      refine ⟨m - 1, ?_⟩
      rw [List.length_append] at hm
      rcases char_cases this with ⟨c, hc, _⟩ | hl
      · rw [hc] at hm; simp at hm; omega
      · omega
    have hk : utf8 (ch :: cs) = String.utf8EncodeChar ch ++ utf8 cs := by simp [utf8]
    by_cases hlt : ch.toNat < 0x80
    · have he : String.utf8EncodeChar ch = [UInt8.ofNat ch.toNat] := utf8_ascii_char hlt
      have hc := raw_ascii h0 hlt h1 h2
      rw [hk, he, List.singleton_append, unquoteBody_ascii hc.2.2.1 hc.2.1 hc.1 hc.2.2.2,
        ih m (by rw [he] at hm; simp at hm; omega)]
      rfl
    · have hl := utf8_two (Nat.not_lt.mp hlt)
      rw [unquoteBody_char (utf8Char_char ch) hl, ih m (by rw [List.length_append] at hm; omega), hk]; rfl
  | @short ch e cs b he _ ih =>
    intro m hm
    obtain ⟨m, rfl⟩ : ∃ k, m = k + 1 := ⟨m - 1, by simp at hm; omega⟩
    have hs := short_esc _ he
    rw [unquoteBody_esc hs.1 hs.2.1, ih m (by simp at hm; omega)]
    simp [utf8, hs.2.2.1]
  | @uni ch ds cs b hd _ ih =>
    intro m hm
    obtain ⟨a, b', c, d, rfl, hx, _⟩ := hex4_of hd
    obtain ⟨m, rfl⟩ : ∃ k, m = k + 1 := ⟨m - 1, by simp at hm; omega⟩
    have hv := char_valid ch
    simp only [List.cons_append, List.nil_append]
    rw [unquoteBody_uni hx (by omega), ih m (by simp at hm; omega), encodeRune_char]
    simp [utf8]
  | @pair ch hi lo cs b hc hh hl _ ih =>
    intro m hm
    have hv := char_valid ch
    obtain ⟨a, b', c, d, rfl, hx, _⟩ := hex4_of hh
    obtain ⟨a2, b2, c2, d2, rfl, hy, _⟩ := hex4_of hl
    obtain ⟨m, rfl⟩ : ∃ k, m = k + 1 := ⟨m - 1, by simp at hm; omega⟩
    simp only [List.cons_append, List.nil_append]
    rw [unquoteBody_pair hx hy (by omega) (by omega) (by omega) (by omega), ih m (by simp at hm; omega)]
    rw [show (0xd800 + (ch.toNat - 0x10000) / 0x400 - 0xd800) * 1024 + (0xdc00 + (ch.toNat - 0x10000) % 0x400 - 0xdc00) +
      0x10000 = ch.toNat by omega, encodeRune_char]
    simp [utf8]
  | @lone v ds cs b hd h1 h2 h3 _ ih =>
    intro m hm
    obtain ⟨a, b', c, d, rfl, hx, _⟩ := hex4_of hd
    obtain ⟨m, rfl⟩ : ∃ k, m = k + 1 := ⟨m - 1, by simp at hm; omega⟩
    simp only [List.cons_append, List.nil_append]
    have hn : (if v < 0xdc00 then lowSurrogate b else none) = none := by
      split
      · rename_i hlt
        cases hl : lowSurrogate b with
        | none => rfl
        | some y =>
          obtain ⟨lo, r', rfl, hy, _, h5, h6⟩ := lowSurrogate_inv hl
          exact absurd rfl (h3 hlt y lo r' hy h5 h6)
      · rfl
    have hsu : surrogate v b = (0xfffd, 0) := by
      unfold surrogate
      rw [if_pos ⟨h1, h2⟩, hn]
    rw [unquoteBody, if_pos rfl, unquoteEsc.eq_def]
    simp only [if_true, hx, Option.bind_some, hsu, List.drop_zero]
    rw [ih m (by simp at hm; omega)]
    simp only [utf8, List.flatMap_cons, utf8_bad]
    rfl
  | @bad x cs b hx hn _ ih =>
    intro m hm
    obtain ⟨m, rfl⟩ : ∃ k, m = k + 1 := ⟨m - 1, by simp at hm; omega⟩
    have h1 : ¬ x < 0x80 := UInt8.not_lt.mpr hx
    rw [unquoteBody, if_neg (by rintro rfl; exact absurd hx (by decide)), if_neg, if_neg h1, if_pos ((utf8Len_zero hx).mpr hn),
      ih m (by simp at hm; omega)]
    · simp only [utf8, List.flatMap_cons, utf8_bad]; rfl
    · rintro (rfl | h)
      · exact absurd hx (by decide)
      · exact h1 (UInt8.lt_trans h (by decide))

/-- The reading of a string literal. -/
theorem unquote_iff {b s : Bytes} (hb : StrBody b) : unquote (0x22 :: (b ++ [0x22])) = some s ↔ ∃ cs, Denotes b cs ∧ s = utf8 cs := by
  rw [unquote_mk]
  constructor
  · exact unquoteBody_denotes hb
  · rintro ⟨cs, h, rfl⟩
    exact denotes_unquote h _ (by omega)

theorem denotes_unique {b : Bytes} {cs ds : List Char} (h : Denotes b cs) (h' : Denotes b ds) : cs = ds := by
  have h1 := denotes_unquote h _ (Nat.le_refl _)
  rw [denotes_unquote h' _ (Nat.le_refl _)] at h1
  exact utf8_inj (Option.some.inj h1).symm

/-- Every string literal is read. -/
theorem unquoteBody_total {n : Nat} {b : Bytes} (hb : StrBody b) (hl : b.length ≤ n) : unquoteBody n b ≠ none := by
  induction n generalizing b with
  | zero =>
    have : b = [] := List.length_eq_zero_iff.mp (by omega)
    subst this
    rw [unquoteBody_nil]; simp
  | succ n ih =>
    have key : ∀ {r : Bytes} {f : Bytes → Bytes}, StrBody r → r.length ≤ n → (unquoteBody n r).map f ≠ none := by
      intro r f hr hl h
      exact ih hr hl (Option.map_eq_none_iff.mp h)
    have drop : ∀ (k : Nat) (b : Bytes), StrBody b → (∀ x ∈ b.take k, (0x80 : UInt8) ≤ x) → StrBody (b.drop k) := by
      intro k
      induction k with
      | zero => intro b hb _; exact hb
      | succ k ihk =>
        intro b hb hx
        cases hb with
        | nil => exact .nil
        | plain _ _ _ hr => exact ihk _ hr fun x hx' => hx x (by simp [hx'])
        | esc _ _ => exact absurd (hx 0x5c (by simp)) (by decide)
        | uni _ _ _ _ _ => exact absurd (hx 0x5c (by simp)) (by decide)
    cases hb with
    | nil => rw [unquoteBody_nil]; simp
    | @plain c r h0 h1 h2 hr =>
      simp only [List.length_cons] at hl
      rw [unquoteBody, if_neg h2, if_neg (by simp only [not_or]; exact ⟨h1, UInt8.not_lt.mpr h0⟩)]
      split
      · exact key hr (by omega)
      split
      · exact key hr (by omega)
      · rename_i hu
        obtain ⟨hu', h3, h4⟩ := utf8Len_inv hu
        have hh := char_high hu' (by rw [List.length_take]; omega)
        refine key (drop _ _ (.plain h0 h1 h2 hr) hh) ?_
        rw [List.length_drop, List.length_cons]; omega
    | @esc e r he hr =>
      simp only [List.length_cons] at hl
      have : ∃ ch, unescChar e = some ch ∧ e ≠ 0x75 := by
        revert e; decide +kernel
      obtain ⟨ch, hch, hne⟩ := this
      rw [unquoteBody_esc hne hch]
      exact key hr (by omega)
    | @uni a b c d r h1 h2 h3 h4 hr =>
      simp only [List.length_cons] at hl
      have hx : ∀ {c : UInt8}, HexDigit c → ∃ v, hexVal c = some v := by
        intro c hc
        unfold hexVal
        rcases hc with ⟨p, q⟩ | ⟨p, q⟩ | ⟨p, q⟩
        · rw [if_pos (by simp [p, q])]; exact ⟨_, rfl⟩
        · split
          · exact ⟨_, rfl⟩
          · rw [if_pos (by simp [p, q])]; exact ⟨_, rfl⟩
        · split
          · exact ⟨_, rfl⟩
          split
          · exact ⟨_, rfl⟩
          · rw [if_pos (by simp [p, q])]; exact ⟨_, rfl⟩
      obtain ⟨w, e1⟩ := hx h1
      obtain ⟨x, e2⟩ := hx h2
      obtain ⟨y, e3⟩ := hx h3
      obtain ⟨z, e4⟩ := hx h4
      have hh : hex4 a b c d = some (((w * 16 + x) * 16 + y) * 16 + z) := by simp [hex4, e1, e2, e3, e4]
      rw [unquoteBody, if_pos rfl, unquoteEsc.eq_def]
      simp only [if_true, hh, Option.bind_some]
      generalize ((w * 16 + x) * 16 + y) * 16 + z = v
      unfold surrogate
      split
      · cases hlow : (if v < 0xdc00 then lowSurrogate r else none) with
        | none => exact key (by simpa using hr) (by simp; omega)
        | some u =>
          split at hlow
          · obtain ⟨lo, r', rfl, hy, hlen, _, _⟩ := lowSurrogate_inv hlow
            have hd : (0x5c :: 0x75 :: (lo ++ r') : Bytes).drop 6 = r' := by simp [hlen]
            simp only [hd]
            obtain ⟨p, q, s, t, rfl, _, _⟩ := hex4_of hy
            have hr' : StrBody r' := by
              cases hr with
              | plain _ _ h _ => exact absurd rfl h
              | esc he _ => exact absurd he (by decide)
              | uni _ _ _ _ h => exact h
            refine key hr' ?_
            simp at hl; omega
          · cases hlow
      · exact key (by simpa using hr) (by simp; omega)

theorem unquote_total {b : Bytes} (hb : StrBody b) : unquote (0x22 :: (b ++ [0x22])) ≠ none := by
  rw [unquote_mk]
  exact unquoteBody_total hb (by omega)

/-! ## Upper and lower case -/

theorem lower_ascii : ∀ i : Fin 128, [lowerAscii (UInt8.ofNat i.1)] = String.utf8EncodeChar (Char.ofNat i.1).toLower := by
  decide +kernel

theorem toLower_high {ch : Char} (h : 0x80 ≤ ch.toNat) : ch.toLower = ch := by
  unfold Char.toLower
  rw [dif_neg]
  rintro ⟨_, h2⟩
  have : ch.val.toNat ≤ 'Z'.val.toNat := UInt32.le_iff_toNat_le.mp h2
  have e : ch.val.toNat = ch.toNat := rfl
  rw [e] at this
  exact absurd this (by simp; omega)

theorem lower_utf8 (cs : List Char) : (utf8 cs).map lowerAscii = utf8 (cs.map Char.toLower) := by
  induction cs with
  | nil => rfl
  | cons ch cs ih =>
    have hk : ∀ (ch : Char) cs, utf8 (ch :: cs) = String.utf8EncodeChar ch ++ utf8 cs := by simp [utf8]
    rw [hk, List.map_append, ih, List.map_cons, hk]
    congr 1
    by_cases hlt : ch.toNat < 0x80
    · rw [utf8_ascii_char hlt]
      have := lower_ascii ⟨ch.toNat, hlt⟩
      rw [Char.ofNat_toNat] at this
      exact this
    · have h80 := Nat.not_lt.mp hlt
      rw [toLower_high h80]
      have hh := char_high (utf8Char_char ch) (utf8_two h80)
      rw [List.map_congr_left (g := id), List.map_id]
      intro x hx
      have := hh x hx
      unfold lowerAscii
      rw [if_neg]
      · rfl
      · simp only [Bool.and_eq_true, decide_eq_true_eq, not_and]
        intro _ h
        exact absurd (UInt8.le_trans this h) (by decide)

theorem lower_iff {cs ds : List Char} : (utf8 cs).map lowerAscii = utf8 ds ↔ cs.map Char.toLower = ds := by
  rw [lower_utf8]
  exact ⟨utf8_inj, fun h => by rw [h]⟩

end Amino
