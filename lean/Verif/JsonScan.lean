import Verif.SpecJson

/-!
# The scanner reads JSON texts: every `JText` is recognised as one value
-/

namespace Amino
open Spec

theorem before_append (t rest : Bytes) : before (t ++ rest) rest = t := by
  unfold before
  rw [List.length_append, Nat.add_sub_cancel, List.take_left]

theorem skipStr_body {b : Bytes} (h : StrBody b) (rest : Bytes) :
    skipStr .norm (b ++ 0x22 :: rest) = some rest := by
  induction h with
  | nil => simp [skipStr]
  | plain h1 h2 h3 _ ih =>
    rw [List.cons_append, skipStr, if_neg h2, if_neg h3, if_neg (by simpa using h1), ih]
  | esc hc _ ih =>
    simp only [List.mem_cons, List.not_mem_nil, or_false] at hc
    rw [List.cons_append, List.cons_append, skipStr, if_neg (by decide), if_pos rfl, skipStr]
    rcases hc with rfl | rfl | rfl | rfl | rfl | rfl | rfl | rfl <;>
      (rw [if_neg (by decide), if_pos (by decide)]; exact ih)
  | uni ha hb hc hd _ ih =>
    have hx : ∀ x, HexDigit x → (hexVal x).isSome = true := by
      intro x hx
      unfold hexVal
      rcases hx with hx | hx | hx
      · simp [hx.1, hx.2]
      · split
        · rfl
        · simp [hx.1, hx.2]
      · split
        · rfl
        · split
          · rfl
          · simp [hx.1, hx.2]
    simp only [List.cons_append]
    rw [skipStr, if_neg (by decide), if_pos rfl, skipStr, if_pos rfl, skipStr, if_pos (hx _ ha), skipStr,
      if_pos (hx _ hb), skipStr, if_pos (hx _ hc), skipStr, if_pos (hx _ hd)]
    exact ih

/-- The text after a number: not something that would continue it. -/
def Delim (rest : Bytes) : Prop :=
  ∀ c r, rest = c :: r → isDigit c = false ∧ c ≠ 0x2e ∧ c ≠ 0x65 ∧ c ≠ 0x45

theorem isDigit_of {c : UInt8} (h : Digit c) : isDigit c = true := by
  unfold isDigit; simp [h.1, h.2]

theorem skipDigits_rest {rest : Bytes} (h : ∀ c r, rest = c :: r → isDigit c = false) : skipDigits rest = rest := by
  cases rest with
  | nil => rfl
  | cons c r => rw [skipDigits, if_neg (by simp [h c r rfl])]

theorem skipDigits_app {ds rest : Bytes} (hd : ∀ x ∈ ds, Digit x)
    (h : ∀ c r, rest = c :: r → isDigit c = false) : skipDigits (ds ++ rest) = rest := by
  induction ds with
  | nil => exact skipDigits_rest h
  | cons d ds ih =>
    rw [List.cons_append, skipDigits, if_pos (isDigit_of (hd d (by simp)))]
    exact ih fun x hx => hd x (by simp [hx])

theorem skipDigits1_app {ds rest : Bytes} (hn : ds ≠ []) (hd : ∀ x ∈ ds, Digit x)
    (h : ∀ c r, rest = c :: r → isDigit c = false) : skipDigits1 (ds ++ rest) = some rest := by
  cases ds with
  | nil => exact absurd rfl hn
  | cons d ds =>
    rw [List.cons_append, skipDigits1, if_pos (isDigit_of (hd d (by simp))),
      skipDigits_app (fun x hx => hd x (by simp [hx])) h]

theorem skipExp_app {e rest : Bytes} (he : ExpPart e) (h : Delim rest) : skipExp (e ++ rest) = some rest := by
  have hr : ∀ c r, rest = c :: r → isDigit c = false := fun c r hc => (h c r hc).1
  cases he with
  | none =>
    cases rest with
    | nil => rfl
    | cons c r =>
      have := h c r rfl
      simp only [List.nil_append, skipExp.eq_def]
      rw [if_neg (by simp [this])]
  | @bare ec r hc hn hd =>
    cases r with
    | nil => exact absurd rfl hn
    | cons d ds =>
      have hdd := hd d (by simp)
      simp only [List.cons_append, skipExp.eq_def]
      rw [if_pos hc]
      have : ¬ (d = 0x2b ∨ d = 0x2d) := by
        rintro (rfl | rfl)
        · exact absurd hdd.1 (by decide)
        · exact absurd hdd.1 (by decide)
      simp only [if_neg this]
      exact skipDigits1_app (ds := d :: ds) hn hd hr
  | @sign ec s r hc hs hn hd =>
    simp only [List.cons_append, skipExp.eq_def]
    rw [if_pos hc]
    simp only [if_pos hs]
    exact skipDigits1_app hn hd hr

/-- The exponent part (and what follows) does not start with a digit or a dot. -/
theorem exp_head {e rest : Bytes} (he : ExpPart e) (h : Delim rest) :
    ∀ c r, e ++ rest = c :: r → isDigit c = false ∧ c ≠ 0x2e := by
  intro c r hc
  cases he with
  | none => exact ⟨(h c r hc).1, (h c r hc).2.1⟩
  | bare he _ _ =>
    simp only [List.cons_append, List.cons.injEq] at hc
    rcases he with he | he <;> (rw [← hc.1, he]; decide)
  | sign he _ _ _ =>
    simp only [List.cons_append, List.cons.injEq] at hc
    rcases he with he | he <;> (rw [← hc.1, he]; decide)

theorem skipFrac_app {f e rest : Bytes} (hf : FracPart f) (he : ExpPart e) (h : Delim rest) :
    skipFrac (f ++ (e ++ rest)) = some rest := by
  have hh := exp_head he h
  cases hf with
  | none =>
    rw [List.nil_append, ← skipExp_app he h]
    cases hx : e ++ rest with
    | nil => rfl
    | cons c r => rw [skipFrac, if_neg (hh c r hx).2]
  | @some r hn hd =>
    rw [List.cons_append, skipFrac, if_pos rfl, skipDigits1_app hn hd fun c r hc => (hh c r hc).1]
    exact skipExp_app he h

theorem frac_head {f e rest : Bytes} (hf : FracPart f) (he : ExpPart e) (h : Delim rest) :
    ∀ c r, f ++ (e ++ rest) = c :: r → isDigit c = false := by
  intro c r hc
  cases hf with
  | none => exact (exp_head he h c r hc).1
  | some _ _ =>
    simp only [List.cons_append, List.cons.injEq] at hc
    rw [← hc.1]; decide

theorem skipNumAbs_app {i f e rest : Bytes} (hi : IntPart i) (hf : FracPart f) (he : ExpPart e) (h : Delim rest) :
    skipNumAbs (i ++ f ++ e ++ rest) = some rest := by
  rw [List.append_assoc, List.append_assoc]
  cases hi with
  | zero =>
    rw [List.cons_append, List.nil_append, skipNumAbs, if_pos rfl]
    exact skipFrac_app hf he h
  | @pos c r h1 h2 hd =>
    have h0 : c ≠ 0x30 := by rintro rfl; exact absurd h1 (by decide)
    have hc : isDigit c = true := isDigit_of ⟨UInt8.le_trans (by decide) h1, h2⟩
    rw [List.cons_append, skipNumAbs, if_neg h0, if_pos hc, skipDigits_app hd (frac_head hf he h)]
    exact skipFrac_app hf he h

/-- First characters of an integer part. -/
theorem intPart_head {i : Bytes} (hi : IntPart i) : ∃ c r, i = c :: r ∧ Digit c := by
  cases hi with
  | zero => exact ⟨_, _, rfl, by constructor <;> decide⟩
  | @pos c r h1 h2 _ => exact ⟨c, r, rfl, UInt8.le_trans (by decide) h1, h2⟩

theorem digit_ne {c : UInt8} (h : Digit c) {x : UInt8} (hx : isDigit x = false) : c ≠ x := by
  rintro rfl
  rw [isDigit_of h] at hx
  exact absurd hx (by decide)

theorem skipNum_app {b rest : Bytes} (hb : NumText b) (h : Delim rest) : skipNum (b ++ rest) = some rest := by
  cases hb with
  | @pos i f e hi hf he =>
    obtain ⟨c, r, rfl, hc⟩ := intPart_head hi
    have := skipNumAbs_app hi hf he h
    simp only [List.cons_append] at this ⊢
    rw [skipNum, if_neg (digit_ne hc (by decide))]
    exact this
  | @neg i f e hi hf he =>
    rw [List.cons_append, skipNum, if_pos rfl]
    exact skipNumAbs_app hi hf he h

/-- The first character of a number: a minus sign or a digit. -/
theorem num_head {b : Bytes} (hb : NumText b) : ∃ c r, b = c :: r ∧ (c = 0x2d ∨ Digit c) := by
  cases hb with
  | pos hi _ _ =>
    obtain ⟨c, r, rfl, hc⟩ := intPart_head hi
    exact ⟨c, _, rfl, .inr hc⟩
  | neg _ _ _ => exact ⟨_, _, rfl, .inl rfl⟩

theorem skipWord_app (w rest : Bytes) : skipWord w (w ++ rest) = some rest := by
  induction w with
  | nil => rfl
  | cons c w ih => rw [List.cons_append, skipWord, if_pos rfl, ih]

theorem skipWs_cons {c : UInt8} (h : isWs c = false) (r : Bytes) : skipWs (c :: r) = c :: r := by
  rw [skipWs, if_neg (by simp [h])]

/-- The first character of a JSON text is not white space, a comma or a closing bracket. -/
theorem jtext_head {b : Bytes} (h : JText b) :
    ∃ c r, b = c :: r ∧ isWs c = false ∧ c ≠ 0x2c ∧ c ≠ 0x5d ∧ c ≠ 0x7d := by
  cases h with
  | null => exact ⟨_, _, rfl, by decide⟩
  | true => exact ⟨_, _, rfl, by decide⟩
  | false => exact ⟨_, _, rfl, by decide⟩
  | num hn =>
    obtain ⟨c, r, rfl, hc⟩ := num_head hn
    refine ⟨c, r, rfl, ?_⟩
    rcases hc with rfl | hc
    · decide
    · refine ⟨?_, digit_ne hc (by decide), digit_ne hc (by decide), digit_ne hc (by decide)⟩
      simp only [isWs, Bool.or_eq_false_iff, beq_eq_false_iff_ne]
      exact ⟨⟨⟨digit_ne hc (by decide), digit_ne hc (by decide)⟩, digit_ne hc (by decide)⟩,
        digit_ne hc (by decide)⟩
  | str hs => cases hs; exact ⟨_, _, rfl, by decide⟩
  | arr _ => exact ⟨_, _, rfl, by decide⟩
  | obj _ _ => exact ⟨_, _, rfl, by decide⟩

theorem delim_cons {c : UInt8} (h : isDigit c = false ∧ c ≠ 0x2e ∧ c ≠ 0x65 ∧ c ≠ 0x45) (r : Bytes) :
    Delim (c :: r) := by
  intro c' r' hc
  simp only [List.cons.injEq] at hc
  rw [← hc.1]; exact h

theorem delim_nil : Delim [] := by intro c r h; cases h

/-- `val` reads each of the texts, whatever delimiter follows. -/
def Reads (val : Bytes → Option Bytes) (b : Bytes) : Prop := ∀ rest, Delim rest → val (b ++ rest) = some rest

section
variable {val : Bytes → Option Bytes}

theorem arrElems_app {bs : List Bytes} (hn : bs ≠ []) (hj : ∀ b ∈ bs, JText b) (hr : ∀ b ∈ bs, Reads val b)
    {n : Nat} (hl : bs.length ≤ n) (rest : Bytes) :
    arrElems val n (commas bs ++ 0x5d :: rest) = some (bs, rest) := by
  induction bs generalizing n with
  | nil => exact absurd rfl hn
  | cons b bs ih =>
    obtain ⟨n, rfl⟩ : ∃ m, n = m + 1 := ⟨n - 1, by simp at hl; omega⟩
    cases bs with
    | nil =>
      rw [commas, arrElems, hr b (by simp) _ (delim_cons (by decide) _)]
      simp only [Option.bind_some, before_append]
      rw [skipWs_cons (by decide)]
      simp
    | cons b' bs =>
      have hi := ih (by simp) (fun b hb => hj b (by simp [hb])) (fun b hb => hr b (by simp [hb])) (n := n)
        (by simpa using hl)
      have hc : commas (b :: b' :: bs) = b ++ 0x2c :: commas (b' :: bs) := rfl
      rw [hc, List.append_assoc, List.cons_append, arrElems, hr b (by simp) _ (delim_cons (by decide) _)]
      simp only [Option.bind_some, before_append]
      rw [skipWs_cons (by decide)]
      simp only [if_true]
      have hw : skipWs (commas (b' :: bs) ++ 0x5d :: rest) = commas (b' :: bs) ++ 0x5d :: rest := by
        obtain ⟨c, r, hb, hw, _⟩ := jtext_head (hj b' (by simp))
        have : ∃ r', commas (b' :: bs) = c :: r' := by
          cases bs with
          | nil => exact ⟨r, hb⟩
          | cons b'' bs => exact ⟨r ++ 0x2c :: commas (b'' :: bs), by rw [commas, hb]; rfl; simp⟩
        obtain ⟨r', hr'⟩ := this
        rw [hr', List.cons_append, skipWs_cons hw]
      rw [hw, hi]
      rfl

theorem commas_length (bs : List Bytes) (h : ∀ b ∈ bs, b ≠ []) : bs.length ≤ (commas bs).length := by
  induction bs with
  | nil => simp
  | cons b bs ih =>
    have hb : b.length ≠ 0 := by simpa using h b (by simp)
    have := ih fun b hb => h b (by simp [hb])
    cases bs with
    | nil => simp [commas]; omega
    | cons b' bs =>
      have hc : commas (b :: b' :: bs) = b ++ 0x2c :: commas (b' :: bs) := rfl
      rw [hc]; simp at this ⊢; omega

theorem jtext_ne_nil {b : Bytes} (h : JText b) : b ≠ [] := by
  obtain ⟨c, r, rfl, _⟩ := jtext_head h
  simp

theorem commas_head {b : Bytes} {bs : List Bytes} {c : UInt8} {r : Bytes} (hb : b = c :: r) :
    ∃ r', commas (b :: bs) = c :: r' := by
  cases bs with
  | nil => exact ⟨r, hb⟩
  | cons b' bs => exact ⟨r ++ 0x2c :: commas (b' :: bs), by rw [hb]; rfl⟩

theorem arrRest_app {bs : List Bytes} (hj : ∀ b ∈ bs, JText b) (hr : ∀ b ∈ bs, Reads val b) (rest : Bytes) :
    arrRest val (commas bs ++ 0x5d :: rest) = some (bs, rest) := by
  cases bs with
  | nil => rw [arrRest]; simp [commas, skipWs_cons (show isWs 0x5d = false by decide)]
  | cons b bs =>
    obtain ⟨c, r, hb, hw, _, h5d, _⟩ := jtext_head (hj b (by simp))
    obtain ⟨r', hr'⟩ := commas_head (bs := bs) hb
    have hl := commas_length (b :: bs) fun b hb => jtext_ne_nil (hj b hb)
    have := arrElems_app (val := val) (bs := b :: bs) (by simp) hj hr
      (n := (commas (b :: bs) ++ 0x5d :: rest).length) (by simp at hl ⊢; omega) rest
    unfold arrRest
    rw [hr', List.cons_append] at this ⊢
    rw [skipWs_cons hw]
    simp only [if_neg h5d]
    exact this

theorem strLit_app {k : Bytes} (hk : StrText k) (rest : Bytes) : strLit (k ++ rest) = some (k, rest) := by
  cases hk with
  | @mk b hb =>
    rw [List.cons_append, strLit, if_pos rfl, List.append_assoc]
    have h := skipStr_body hb rest
    have hb := before_append (0x22 :: (b ++ [0x22])) rest
    rw [List.cons_append, List.append_assoc] at hb
    rw [List.cons_append, List.nil_append] at hb ⊢
    rw [h]
    simp only [Option.map_some, hb]

/-- The text of an object's members. -/
def memberText (m : Bytes × Bytes) : Bytes := m.1 ++ 0x3a :: m.2

theorem strText_head {k : Bytes} (hk : StrText k) : ∃ r, k = 0x22 :: r := by
  cases hk; exact ⟨_, rfl⟩

theorem objMembers_app {ms : List (Bytes × Bytes)} (hn : ms ≠ []) (hk : ∀ m ∈ ms, StrText m.1)
    (hj : ∀ m ∈ ms, JText m.2) (hr : ∀ m ∈ ms, Reads val m.2) {n : Nat} (hl : ms.length ≤ n) (rest : Bytes) :
    objMembers val n (commas (ms.map memberText) ++ 0x7d :: rest) = some (ms, rest) := by
  induction ms generalizing n with
  | nil => exact absurd rfl hn
  | cons m ms ih =>
    obtain ⟨n, rfl⟩ : ∃ m, n = m + 1 := ⟨n - 1, by simp at hl; omega⟩
    obtain ⟨c, r, hc, hw, _⟩ := jtext_head (hj m (by simp))
    have hskip : ∀ r', skipWs (m.2 ++ r') = m.2 ++ r' := by
      intro r'; rw [hc, List.cons_append, skipWs_cons hw]
    cases ms with
    | nil =>
      simp only [List.map_cons, List.map_nil, commas, memberText]
      rw [List.append_assoc, List.cons_append, objMembers, strLit_app (hk m (by simp))]
      simp only [Option.bind_some]
      rw [skipWs_cons (by decide)]
      simp only [if_true, hskip]
      rw [hr m (by simp) _ (delim_cons (by decide) _)]
      simp only [Option.bind_some, before_append]
      rw [skipWs_cons (by decide)]
      simp
    | cons m' ms =>
      have hi := ih (by simp) (fun b hb => hk b (by simp [hb])) (fun b hb => hj b (by simp [hb]))
        (fun b hb => hr b (by simp [hb])) (n := n) (by simpa using hl)
      have hc' : commas ((m :: m' :: ms).map memberText) =
          memberText m ++ 0x2c :: commas ((m' :: ms).map memberText) := rfl
      rw [hc', memberText, List.append_assoc, List.append_assoc, List.cons_append, List.cons_append, objMembers,
        strLit_app (hk m (by simp))]
      simp only [Option.bind_some]
      rw [skipWs_cons (by decide)]
      simp only [if_true, hskip]
      rw [hr m (by simp) _ (delim_cons (by decide) _)]
      simp only [Option.bind_some, before_append]
      rw [skipWs_cons (by decide)]
      simp only [if_true]
      have hw' : skipWs (commas ((m' :: ms).map memberText) ++ 0x7d :: rest) =
          commas ((m' :: ms).map memberText) ++ 0x7d :: rest := by
        obtain ⟨r, hr⟩ := strText_head (hk m' (by simp))
        obtain ⟨r', hr'⟩ := commas_head (b := memberText m') (bs := ms.map memberText) (c := 0x22)
          (r := r ++ 0x3a :: m'.2) (by rw [memberText, hr]; rfl)
        rw [List.map_cons, hr', List.cons_append, skipWs_cons (by decide)]
      rw [hw', hi]
      rfl

theorem objRest_app {ms : List (Bytes × Bytes)} (hk : ∀ m ∈ ms, StrText m.1) (hj : ∀ m ∈ ms, JText m.2)
    (hr : ∀ m ∈ ms, Reads val m.2) (rest : Bytes) :
    objRest val (commas (ms.map memberText) ++ 0x7d :: rest) = some (ms, rest) := by
  cases ms with
  | nil => rw [objRest]; simp [commas, skipWs_cons (show isWs 0x7d = false by decide)]
  | cons m ms =>
    obtain ⟨r, hrr⟩ := strText_head (hk m (by simp))
    obtain ⟨r', hr'⟩ := commas_head (b := memberText m) (bs := ms.map memberText) (c := 0x22)
      (r := r ++ 0x3a :: m.2) (by rw [memberText, hrr]; rfl)
    have hl := commas_length ((m :: ms).map memberText) fun b hb => by
      obtain ⟨x, hx, rfl⟩ := List.mem_map.mp hb
      obtain ⟨r, hr⟩ := strText_head (hk x hx)
      simp [memberText, hr]
    have := objMembers_app (val := val) (ms := m :: ms) (by simp) hk hj hr
      (n := (commas ((m :: ms).map memberText) ++ 0x7d :: rest).length) (by simp at hl ⊢; omega) rest
    unfold objRest
    rw [List.map_cons, hr', List.cons_append] at this ⊢
    rw [skipWs_cons (by decide)]
    simp only [if_neg (show ¬ (0x22 : UInt8) = 0x7d by decide)]
    exact this

end

theorem mem_commas_length {b : Bytes} {bs : List Bytes} (h : b ∈ bs) : b.length ≤ (commas bs).length := by
  induction bs with
  | nil => simp at h
  | cons a bs ih =>
    cases bs with
    | nil => simp at h; subst h; simp [commas]
    | cons a' bs =>
      have hc : commas (a :: a' :: bs) = a ++ 0x2c :: commas (a' :: bs) := rfl
      rw [hc]
      simp only [List.length_append, List.length_cons]
      rcases List.mem_cons.mp h with rfl | h
      · omega
      · have := ih h; omega

/-- The scanner takes a JSON text as one value. -/
theorem skipVal_jtext {n : Nat} {b : Bytes} (h : JText b) (hl : b.length ≤ n) : Reads (skipVal n) b := by
  induction n generalizing b with
  | zero => exact absurd (by simpa using hl) (jtext_ne_nil h)
  | succ n ih =>
    intro rest hd
    cases h with
    | null => exact skipWord_app jNull rest
    | true => exact skipWord_app jTrue rest
    | false => exact skipWord_app jFalse rest
    | num hn =>
      obtain ⟨c, r, rfl, hc⟩ := num_head hn
      have := skipNum_app hn hd
      rw [List.cons_append] at this ⊢
      have hx : ∀ x : UInt8, isDigit x = false → x ≠ 0x2d → c ≠ x := by
        intro x hx1 hx2
        rcases hc with rfl | hc
        · exact fun h => hx2 h.symm
        · exact digit_ne hc hx1
      rw [skipVal, if_neg (hx _ (by decide) (by decide)), if_neg (hx _ (by decide) (by decide)),
        if_neg (hx _ (by decide) (by decide)), if_neg (hx _ (by decide) (by decide)),
        if_neg (hx _ (by decide) (by decide)), if_neg (hx _ (by decide) (by decide))]
      exact this
    | str hs =>
      cases hs with
      | @mk b hb =>
        rw [List.cons_append, skipVal, if_pos rfl, List.append_assoc]
        exact skipStr_body hb rest
    | @arr bs hbs =>
      rw [List.cons_append, skipVal, if_neg (by decide), if_pos rfl, List.append_assoc, List.cons_append,
        List.nil_append, arrRest_app hbs]
      · rfl
      · intro b hb
        refine ih (hbs b hb) ?_
        have := mem_commas_length hb
        simp at hl; omega
    | @obj ms hk hv =>
      rw [List.cons_append, skipVal, if_neg (by decide), if_neg (by decide), if_pos rfl, List.append_assoc,
        List.cons_append, List.nil_append]
      have := objRest_app (val := skipVal n) hk hv (fun m hm => ?_) rest
      · rw [show (ms.map fun m => m.1 ++ 0x3a :: m.2) = ms.map memberText from rfl, this]; rfl
      · refine ih (hv m hm) ?_
        have := mem_commas_length (List.mem_map_of_mem (f := fun m : Bytes × Bytes => m.1 ++ 0x3a :: m.2) hm)
        simp at hl this; omega

theorem wholeVal_jtext {b : Bytes} (h : JText b) : wholeVal b = some b := by
  obtain ⟨c, r, hb, hw, _⟩ := jtext_head h
  have hs : skipWs b = b := by rw [hb, skipWs_cons hw]
  have := skipVal_jtext (n := b.length + 1) h (by omega) [] delim_nil
  rw [List.append_nil] at this
  unfold wholeVal
  rw [hs, this]
  have hb := before_append b []
  rw [List.append_nil] at hb
  simp [skipWs, hb]

/-- Every JSON text is accepted by `json.Valid`. -/
theorem validJSON_jtext {b : Bytes} (h : JText b) : validJSON b = true := by
  unfold validJSON; rw [wholeVal_jtext h]; rfl

theorem unmRaws_jtext {bs : List Bytes} (h : ∀ b ∈ bs, JText b) :
    unmRaws (0x5b :: (commas bs ++ [0x5d])) = some bs := by
  unfold unmRaws
  rw [wholeVal_jtext (.arr h)]
  simp only [Option.bind_some]
  rw [if_neg (by simp [jNull]), if_pos (by decide)]
  rw [arrRest_app h (fun b hb => skipVal_jtext (h b hb) ?_)]
  · rfl
  · have := mem_commas_length hb
    simp; omega

end Amino
