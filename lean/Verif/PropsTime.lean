import Verif.TimeLemmas
import Verif.JsonSafe
import Verif.JDemo
import Verif.PropsJson

/-!
# C72: times in JSON
-/

namespace Amino
open Spec GoTime

variable {Γ : Prog} {c : Codec} {J : JLib}

/-! ## Everything that is read -/

theorem opt_bind {α β : Type} {o : Option α} {f : α → Option β} {b : β} (h : o.bind f = some b) :
    ∃ a, o = some a ∧ f a = some b := by
  cases o with
  | none => cases h
  | some a => exact ⟨a, rfl, h⟩

theorem opt_guard {p : Prop} [Decidable p] {β : Type} {f : Unit → Option β} {b : β}
    (h : ((guard p : Option Unit).bind f) = some b) : p ∧ f () = some b := by
  unfold guard at h
  split at h
  · rename_i hp; exact ⟨hp, h⟩
  · cases h

theorem lit_inv {x : UInt8} {b r : Bytes} (h : lit x b = some r) : b = x :: r := by
  unfold lit at h
  split at h
  · split at h
    · rename_i hx
      cases h
      rw [hx]
    · cases h
  · cases h

theorem digit_of {x : UInt8} (h : isDigit x = true) : Digit x := by
  simpa [isDigit, Digit] using h

theorem numeral2 {a b : UInt8} (ha : isDigit a = true) (hb : isDigit b = true) :
    Numeral 2 (10 * digVal a + digVal b) [a, b] :=
  ⟨rfl, by simp [digit_of ha, digit_of hb], by simp [decVal, digVal]⟩

theorem numeral1 {a : UInt8} (ha : isDigit a = true) : Numeral 1 (digVal a) [a] :=
  ⟨rfl, by simp [digit_of ha], by simp [decVal, digVal]⟩

theorem getnum_inv {fixed : Bool} {b r : Bytes} {n : Nat} (h : getnum fixed b = some (n, r)) :
    ∃ w ds, Numeral w n ds ∧ b = ds ++ r ∧ (w = 2 ∨ (fixed = false ∧ w = 1)) := by
  unfold getnum at h
  split at h
  · cases h
  · rename_i a
    split at h
    · rename_i hc
      simp at hc
      cases h
      exact ⟨1, _, numeral1 hc.1, rfl, .inr ⟨hc.2, rfl⟩⟩
    · cases h
  · rename_i a b r'
    split at h
    · cases h
    rename_i ha
    split at h
    · rename_i hb
      cases h
      exact ⟨2, _, numeral2 (by simpa using ha) hb, rfl, .inl rfl⟩
    split at h
    · cases h
    · rename_i hf
      cases h
      exact ⟨1, [a], numeral1 (by simpa using ha), rfl, .inr ⟨by simpa using hf, rfl⟩⟩

theorem getnum_fixed_inv {b r : Bytes} {n : Nat} (h : getnum true b = some (n, r)) :
    ∃ ds, Numeral 2 n ds ∧ b = ds ++ r := by
  obtain ⟨w, ds, h1, h2, rfl | ⟨h3, _⟩⟩ := getnum_inv h
  · exact ⟨ds, h1, h2⟩
  · cases h3

theorem getYear_inv {b r : Bytes} {n : Nat} (h : getYear b = some (n, r)) : ∃ ds, Numeral 4 n ds ∧ b = ds ++ r := by
  unfold getYear at h
  split at h
  · rename_i a b c d r'
    split at h
    · rename_i hd
      simp only [Bool.and_eq_true] at hd
      cases h
      refine ⟨[a, b, c, d], ⟨rfl, ?_, ?_⟩, rfl⟩
      · simp [digit_of hd.1.1.1, digit_of hd.1.1.2, digit_of hd.1.2, digit_of hd.2]
      · simp [decVal, digVal]; omega
    · cases h
  · cases h

/-- The fraction of a second as Go reads it: any number of digits, if the number they make is below 10^9. -/
inductive LaxFrac : Nat → Bytes → Prop
  | none : LaxFrac 0 []
  | some {ds : Bytes} : ds ≠ [] → (∀ c ∈ ds, Digit c) → decVal ds < 1000000000 →
      LaxFrac (decVal ds * 10 ^ (9 - ds.length)) (0x2e :: ds)

theorem number_eq (ds : Bytes) : number ds = decVal ds := rfl

theorem laxFrac_lt {n : Nat} {f : Bytes} (h : LaxFrac n f) : n < 1000000000 := by
  cases h with
  | none => decide
  | @some ds hne hd hlt =>
    have hl := decVal_lt hd
    by_cases h9 : ds.length ≤ 9
    · have : (10 : Nat) ^ 9 = 10 ^ ds.length * 10 ^ (9 - ds.length) := by
        rw [← Nat.pow_add]; congr 1; omega
      have hp : 0 < 10 ^ (9 - ds.length) := Nat.pow_pos (by decide)
      have := Nat.mul_lt_mul_of_pos_right hl hp
      omega
    · have : 9 - ds.length = 0 := by omega
      rw [this]
      omega

theorem getFraction_inv {b r : Bytes} {n : Nat} (h : getFraction b = some (n, r)) : ∃ f, LaxFrac n f ∧ b = f ++ r := by
  unfold getFraction at h
  split at h
  · rename_i a r'
    split at h
    · rename_i ha
      simp only at h
      split at h
      · cases h
      rename_i hlt
      simp only [Option.some.injEq, Prod.mk.injEq] at h
      obtain ⟨rfl, rfl⟩ := h
      refine ⟨0x2e :: (a :: r').takeWhile isDigit, .some ?_ ?_ ?_, ?_⟩
      · simp [ha]
      · intro x hx
        exact digit_of (List.all_eq_true.1 List.all_takeWhile x hx)
      · rw [← number_eq]; omega
      · rw [List.cons_append, List.takeWhile_append_dropWhile]
    · cases h
      exact ⟨[], .none, rfl⟩
  · cases h
    exact ⟨[], .none, rfl⟩

/-- RFC 3339 as Go reads it: an hour of one digit is allowed, and any number of digits in the fraction. -/
inductive LaxText (x : Stamp) : Bytes → Prop
  | mk {w : Nat} {y mo d h mi s f : Bytes} : Numeral 4 x.year y → Numeral 2 x.month mo → Numeral 2 x.day d →
      (w = 1 ∨ w = 2) → Numeral w x.hour h → Numeral 2 x.min mi → Numeral 2 x.sec s → LaxFrac x.nano f →
      LaxText x (0x22 :: (y ++ 0x2d :: (mo ++ 0x2d :: (d ++ 0x54 :: (h ++ 0x3a :: (mi ++ 0x3a :: (s ++ (f ++
        [0x5a, 0x22]))))))))

theorem parse_inv {b : Bytes} {s ns : Int} (h : parse b = some (s, ns)) :
    ∃ x : Stamp, x.Valid ∧ LaxText x b ∧ x.unix = s ∧ (x.nano : Int) = ns := by
  unfold parse at h
  simp only [Option.bind_eq_bind] at h
  obtain ⟨r1, h1, h⟩ := opt_bind h
  obtain ⟨⟨year, r2⟩, h2, h⟩ := opt_bind h
  obtain ⟨r3, h3, h⟩ := opt_bind h
  obtain ⟨⟨month, r4⟩, h4, h⟩ := opt_bind h
  obtain ⟨g4, h⟩ := opt_guard h
  obtain ⟨r5, h5, h⟩ := opt_bind h
  obtain ⟨⟨day, r6⟩, h6, h⟩ := opt_bind h
  obtain ⟨r7, h7, h⟩ := opt_bind h
  obtain ⟨⟨hour, r8⟩, h8, h⟩ := opt_bind h
  obtain ⟨g8, h⟩ := opt_guard h
  obtain ⟨r9, h9, h⟩ := opt_bind h
  obtain ⟨⟨min, r10⟩, h10, h⟩ := opt_bind h
  obtain ⟨g10, h⟩ := opt_guard h
  obtain ⟨r11, h11, h⟩ := opt_bind h
  obtain ⟨⟨sec, r12⟩, h12, h⟩ := opt_bind h
  obtain ⟨g12, h⟩ := opt_guard h
  obtain ⟨⟨nano, r13⟩, h13, h⟩ := opt_bind h
  obtain ⟨r14, h14, h⟩ := opt_bind h
  obtain ⟨r15, h15, h⟩ := opt_bind h
  obtain ⟨g15, h⟩ := opt_guard h
  obtain ⟨g16, h⟩ := opt_guard h
  obtain ⟨dy, e2, f2⟩ := getYear_inv h2
  obtain ⟨dm, e4, f4⟩ := getnum_fixed_inv h4
  obtain ⟨dd, e6, f6⟩ := getnum_fixed_inv h6
  obtain ⟨w, dh, e8, f8, hw⟩ := getnum_inv h8
  obtain ⟨dmi, e10, f10⟩ := getnum_fixed_inv h10
  obtain ⟨ds, e12, f12⟩ := getnum_fixed_inv h12
  obtain ⟨df, e13, f13⟩ := getFraction_inv h13
  have f13 : r12 = _ := f13
  have t1 := lit_inv h1
  have t3 : r2 = _ := lit_inv h3
  have t5 : r4 = _ := lit_inv h5
  have t7 : r6 = _ := lit_inv h7
  have t9 : r8 = _ := lit_inv h9
  have t11 : r10 = _ := lit_inv h11
  have t14 : r13 = _ := lit_inv h14
  have t15 := lit_inv h15
  have hyear : year < 10000 := by
    have := decVal_lt e2.digits
    rw [e2.value, e2.length] at this
    exact this
  have hv : Stamp.Valid ⟨year, month, day, hour, min, sec, nano⟩ := by
    refine ⟨hyear, g4, ?_, g8, g10, g12, laxFrac_lt e13⟩
    rw [isLeap_nat, (daysBefore_eq (leapYear year) month g4.1 g4.2).2] at g16
    exact g16
  refine ⟨_, hv, ?_, ?_, ?_⟩
  · have hb : b = 0x22 :: (dy ++ 0x2d :: (dm ++ 0x2d :: (dd ++ 0x54 :: (dh ++ 0x3a :: (dmi ++ 0x3a :: (ds ++ (df ++
        [0x5a, 0x22]))))))) := by
      rw [t1, f2, t3, f4, t5, f6, t7, f8, t9, f10, t11, f12, f13, t14, t15, g15]
    rw [hb]
    exact .mk e2 e4 e6 (hw.elim .inr fun h => .inl h.2) e8 e10 e12 e13
  · have hd := date_eq hv
    simp only [Option.pure_def, Option.some.injEq, Prod.mk.injEq] at h
    rw [← h.1, ← hd]
  · simp only [Option.pure_def, Option.some.injEq, Prod.mk.injEq] at h
    exact h.2

/-! ## What is written -/

theorem unix_range {x : Stamp} (h : x.Valid) : InYears x.unix := by
  have h1 := days_lt h
  have h2 := daysBeforeYear_mono (show x.year < 10000 from h.year)
  rw [days_10000] at h2
  have := h.hour; have := h.min; have := h.sec
  unfold InYears Stamp.unix
  rw [days_1970]
  omega

theorem stampText_str {x : Stamp} {b : Bytes} (h : StampText x b) : StrText b ∧ b[b.length - 2]? = some 0x5a := by
  cases h with
  | @mk y mo d hh mi s f hy hmo hd hhh hmi hs hf =>
    constructor
    · have hdp : ∀ {l : Bytes}, (∀ c ∈ l, Digit c) → ∀ c ∈ l, 0x20 ≤ c ∧ c ≠ 0x22 ∧ c ≠ 0x5c := by
        intro l hl c hc
        have h1 := UInt8.le_iff_toNat_le.1 (hl c hc).1
        have h2 := UInt8.le_iff_toNat_le.1 (hl c hc).2
        have e1 : (0x30 : UInt8).toNat = 0x30 := rfl
        have e2 : (0x39 : UInt8).toNat = 0x39 := rfl
        refine ⟨UInt8.le_trans (by decide) (hl c hc).1, ?_, ?_⟩
        · rintro rfl
          have : (0x22 : UInt8).toNat = 0x22 := rfl
          omega
        · rintro rfl
          have : (0x5c : UInt8).toNat = 0x5c := rfl
          omega
      have hfp : ∀ c ∈ f, 0x20 ≤ c ∧ c ≠ 0x22 ∧ c ≠ 0x5c := by
        revert hf
        generalize x.nano = n
        intro hf
        cases hf with
        | none => simp
        | some _ _ hds =>
          intro c hc
          rcases List.mem_cons.1 hc with rfl | hc
          · decide
          · exact hdp hds c hc
      have he : ∀ (l : Bytes), l ++ [0x5a, 0x22] = (l ++ [0x5a]) ++ [0x22] := by simp
      have := StrText.mk (b := y ++ 0x2d :: (mo ++ 0x2d :: (d ++ 0x54 :: (hh ++ 0x3a :: (mi ++ 0x3a :: (s ++ (f ++
        [0x5a]))))))) (strBody_plain (by
          intro c hc
          simp only [List.mem_append, List.mem_cons, List.not_mem_nil, or_false] at hc
          have k1 : (0x20 : UInt8) ≤ 0x2d ∧ (0x2d : UInt8) ≠ 0x22 ∧ (0x2d : UInt8) ≠ 0x5c := by decide
          have k2 : (0x20 : UInt8) ≤ 0x54 ∧ (0x54 : UInt8) ≠ 0x22 ∧ (0x54 : UInt8) ≠ 0x5c := by decide
          have k3 : (0x20 : UInt8) ≤ 0x3a ∧ (0x3a : UInt8) ≠ 0x22 ∧ (0x3a : UInt8) ≠ 0x5c := by decide
          have k4 : (0x20 : UInt8) ≤ 0x5a ∧ (0x5a : UInt8) ≠ 0x22 ∧ (0x5a : UInt8) ≠ 0x5c := by decide
          rcases hc with hc | rfl | hc | rfl | hc | rfl | hc | rfl | hc | rfl | hc | hc | rfl
          · exact hdp hy.digits c hc
          · exact k1
          · exact hdp hmo.digits c hc
          · exact k1
          · exact hdp hd.digits c hc
          · exact k2
          · exact hdp hhh.digits c hc
          · exact k3
          · exact hdp hmi.digits c hc
          · exact k3
          · exact hdp hs.digits c hc
          · exact hfp c hc
          · exact k4))
      simpa using this
    · have he : ∀ (l : Bytes), (l ++ [0x5a, 0x22])[(l ++ [0x5a, 0x22]).length - 2]? = some 0x5a := by
        intro l
        rw [List.length_append, List.getElem?_append_right (by simp)]
        simp
      have := he (0x22 :: (y ++ 0x2d :: (mo ++ 0x2d :: (d ++ 0x54 :: (hh ++ 0x3a :: (mi ++ 0x3a :: (s ++ f)))))))
      simpa using this

/-- With the modelled times, the assumption on times in `LibOk` holds; what is left to assume concerns floats. -/
theorem libOk_withTime (h32 : ∀ {x b}, J.f32Text x = some b → NumText b ∧ J.f32Parse b = some x)
    (h64 : ∀ {x b}, J.f64Text x = some b → NumText b ∧ J.f64Parse b = some x) : LibOk J.withTime where
  f32 := h32
  f64 := h64
  time := by
    intro s ns b h1 h2 h3 h4 ht
    have ht : text s ns = some b := ht
    by_cases hy : InYears s
    · obtain ⟨b', hb', hs⟩ := text_stamp h1 h2 ⟨h3, h4⟩ hy
      rw [hb'] at ht
      cases ht
      obtain ⟨hv, hu⟩ := stampOf_valid h1 h2 ⟨h3, h4⟩ hy
      refine ⟨(stampText_str hs).1, (stampText_str hs).2, ?_⟩
      show parse b = _
      rw [parse_stamp hv hs, hu]
      have : ((stampOf s ns).nano : Int) = ns := Int.toNat_of_nonneg h3
      rw [this]
    · rw [text_none h1 h2 hy] at ht
      cases ht

theorem libTy_withTime (h32 : ∀ {b x}, J.f32Parse b = some x → x.toNat < 2 ^ 32) : LibTy J.withTime where
  f32 := h32
  time := by
    intro b s ns h
    obtain ⟨x, hv, _, rfl, rfl⟩ := parse_inv h
    have := unix_range hv
    have := hv.nano
    unfold InYears at *
    omega

theorem frac_inv {n : Nat} {f : Bytes} (h : FracText n f) :
    (n = 0 ∧ f = []) ∨ ∃ ds, f = 0x2e :: ds ∧ ds.length ≤ 9 ∧ (∀ c ∈ ds, Digit c) ∧ n = decVal ds * 10 ^ (9 - ds.length) := by
  cases h with
  | none => exact .inl ⟨rfl, rfl⟩
  | @some ds h1 h2 h3 => exact .inr ⟨ds, rfl, h2, h3, rfl⟩

/-- No other way to write the fraction is shorter. -/
theorem fraction_least {n : Nat} (hn : n < 1000000000) {f : Bytes} (h : FracText n f) : (fraction n).length ≤ f.length := by
  rcases fraction_short (ns := n) with h0 | ⟨ds, x, hf, hx⟩
  · rw [h0]; exact Nat.zero_le _
  have h1 := fraction_text hn
  rw [hf] at h1 ⊢
  rcases frac_inv h1 with ⟨_, h1⟩ | ⟨es, he, hl1, hd1, hv1⟩
  · cases h1
  cases he
  have hxd := hd1 x (by simp)
  have hxv : 1 ≤ x.toNat - 48 ∧ x.toNat - 48 ≤ 9 := by
    have a1 := UInt8.le_iff_toNat_le.1 hxd.1
    have a2 := UInt8.le_iff_toNat_le.1 hxd.2
    have e1 : (0x30 : UInt8).toNat = 48 := rfl
    have e2 : (0x39 : UInt8).toNat = 57 := rfl
    have : x.toNat ≠ 48 := fun he => hx (UInt8.toNat_inj.1 (he.trans e1.symm))
    omega
  rw [decVal_snoc] at hv1
  have hpos : 0 < 10 ^ (9 - (ds ++ [x]).length) := Nat.pow_pos (by decide)
  rcases frac_inv h with ⟨h0, _⟩ | ⟨ds', rfl, hl2, hd2, hv2⟩
  · exfalso
    have := Nat.mul_pos (show 0 < 10 * decVal ds + (x.toNat - 48) by omega) hpos
    omega
  · simp only [List.length_cons, Nat.add_le_add_iff_right]
    apply Classical.byContradiction
    intro hlt
    have hk : 9 - ds'.length = (9 - (ds ++ [x]).length) + 1 + ((ds ++ [x]).length - ds'.length - 1) := by omega
    rw [hk, Nat.pow_add, Nat.pow_add, Nat.pow_one] at hv2
    have : (10 * decVal ds + (x.toNat - 48)) * 10 ^ (9 - (ds ++ [x]).length) =
        (decVal ds' * 10 ^ ((ds ++ [x]).length - ds'.length - 1) * 10) * 10 ^ (9 - (ds ++ [x]).length) := by
      rw [← hv1, hv2]
      ac_rfl
    have := Nat.eq_of_mul_eq_mul_right hpos this
    omega

theorem stampText_length {x : Stamp} {b : Bytes} (h : StampText x b) :
    ∃ f, FracText x.nano f ∧ b.length = 22 + f.length := by
  cases h with
  | @mk y mo d hh mi s f hy hmo hd hhh hmi hs hf =>
    refine ⟨f, hf, ?_⟩
    simp only [List.length_cons, List.length_append, hy.length, hmo.length, hd.length, hhh.length, hmi.length, hs.length,
      List.length_nil]
    omega

/-! ## The property -/

theorem jenc_time {id : TId} (hs : Γ.shape id = .time) (f : Nat) (a : Bool) (fo : FOpts) (s ns : Int) :
    jenc Γ c J (f + 1) a (.base id) (.time s ns) fo = ofOpt .json (J.timeText s ns) := by
  rw [jenc]
  simp only [derefVal, Ty.deref, jencBase, hs, if_true, jencShape]

theorem jdec_time {id : TId} (hs : Γ.shape id = .time) (g : Nat) (p : Val) (fo : FOpts) {b : Bytes} (hn : b ≠ jNull) :
    jdec Γ c J (g + 1) (.base id) p fo b =
      if 2 ≤ b.length ∧ b.head? = some 0x22 ∧ b.getLast? = some 0x22 then
        if b[b.length - 2]? ≠ some 0x5a then .err .json
        else (ofOpt .json (J.timeParse b)).bind fun p => .ok (.time p.1 p.2)
      else .err .json := by
  have h1 : Γ.isIface id = false := by simp [Prog.isIface, hs]
  rw [jdec]
  simp only [Ty.deref, h1, Bool.false_and, Bool.false_eq_true, if_false, if_neg hn, jdecBase, hs, if_true, jdecShape, wrapTy]
  split
  · split
    · rfl
    · cases J.timeParse b <;> rfl
  · rfl

/-- C72: a time is written as its date and time of day in UTC, in the notation of RFC 3339, as short as possible; an
instant outside the years 0 to 9999 is an error. -/
theorem C72_json_time_written {id : TId} (hs : Γ.shape id = .time) {s ns : Int} (ht : HasTy Γ (.base id) (.time s ns))
    (f : Nat) (a : Bool) (fo : FOpts) :
    (∃ (x : Stamp) (b : Bytes), x.Valid ∧ x.unix = s ∧ (x.nano : Int) = ns ∧ StampText x b ∧
      (∀ b', StampText x b' → b.length ≤ b'.length) ∧ jenc Γ c J.withTime (f + 1) a (.base id) (.time s ns) fo = .ok b) ∨
    ((∀ x : Stamp, x.Valid → x.unix ≠ s) ∧ jenc Γ c J.withTime (f + 1) a (.base id) (.time s ns) fo = .err .json) := by
  rw [jenc_time hs]
  show _ ∨ (_ ∧ ofOpt Err.json (text s ns) = _)
  cases ht with
  | time _ h1 h2 h3 h4 =>
    by_cases hy : InYears s
    · left
      obtain ⟨b, hb, hst⟩ := text_stamp h1 h2 ⟨h3, h4⟩ hy
      obtain ⟨hv, hu⟩ := stampOf_valid h1 h2 ⟨h3, h4⟩ hy
      refine ⟨_, b, hv, hu, Int.toNat_of_nonneg h3, hst, ?_, ?_⟩
      · intro b' hb'
        obtain ⟨f', hf', hl'⟩ := stampText_length hb'
        obtain ⟨f, ⟨rfl, hf⟩, ht⟩ := text_eq h1 h2 ⟨h3, h4⟩ hy
        rw [hb] at ht
        have hl : ∀ w x, (padInt w x).length = w := fun w x => (digits_numeral w x).length
        have hle := fraction_least hv.nano hf'
        have hns : (stampOf s ns).nano = ns.toNat := rfl
        rw [hns] at hle
        rw [Option.some.inj ht, hl']
        simp only [List.length_cons, List.length_append, hl, List.length_nil]
        omega
      · show ofOpt Err.json (text s ns) = _
        rw [hb]; rfl
    · right
      refine ⟨fun x hx he => hy (he ▸ unix_range hx), ?_⟩
      rw [text_none h1 h2 hy]; rfl

/-- C72: the notation of RFC 3339 for an instant in UTC is read as that instant. -/
theorem C72_json_time_read {id : TId} (hs : Γ.shape id = .time) {x : Stamp} (hx : x.Valid) {b : Bytes} (hb : StampText x b)
    (g : Nat) (p : Val) (fo : FOpts) :
    jdec Γ c J.withTime (g + 1) (.base id) p fo b = .ok (.time x.unix x.nano) := by
  obtain ⟨h1, h2⟩ := stampText_str hb
  have hn : b ≠ jNull := by
    rintro rfl
    have := (strText_ends h1).2.1
    revert this
    decide
  rw [jdec_time hs _ _ _ hn, if_pos (strText_ends h1), if_neg (by rw [h2]; simp)]
  show (ofOpt Err.json (parse b)).bind _ = _
  rw [parse_stamp hx hb]
  rfl

/-- C72: whatever is read as a time is the notation of a date and a time of day, and read as this.  Missing: that it is the
notation of RFC 3339 (the hour may have one digit) and that the fraction of a second is right (it is not if it has
more than nine digits), see `C72_refuted`. -/
theorem C72_json_time_accepted_partial {id : TId} (hs : Γ.shape id = .time) {g : Nat} {p v : Val} {fo : FOpts} {b : Bytes}
    (hn : b ≠ jNull) (h : jdec Γ c J.withTime (g + 1) (.base id) p fo b = .ok v) :
    ∃ x : Stamp, x.Valid ∧ LaxText x b ∧ v = .time x.unix x.nano := by
  rw [jdec_time hs _ _ _ hn] at h
  split at h
  · split at h
    · cases h
    change (ofOpt Err.json (parse b)).bind _ = _ at h
    cases hp : parse b with
    | none => rw [hp] at h; cases h
    | some q =>
      rw [hp] at h
      cases h
      obtain ⟨x, hv, hl, h1, h2⟩ := parse_inv (s := q.1) (ns := q.2) hp
      exact ⟨x, hv, hl, by rw [h1, h2]⟩
  · cases h

/-- C72: an instant has one date and time of day. -/
theorem C72_stamp_unique {x x' : Stamp} (h : x.Valid) (h' : x'.Valid) (hu : x.unix = x'.unix) (hn : x.nano = x'.nano) :
    x = x' := stamp_unique h h' hu hn

/-- C72 fails for texts that are not RFC 3339 but read: `"1970-01-01T5:00:00Z"` is accepted; and a fraction of ten digits,
0.4 nanoseconds, is read as 4 nanoseconds. -/
theorem C72_refuted :
    (jdec JDemo.prog JDemo.codec JDemo.lib.withTime 1 (.base JDemo.timeT) JDemo.zeroTime {}
        "\"1970-01-01T5:00:00Z\"".toUTF8.toList = .ok (.time 18000 0) ∧
      ∀ x, ¬ StampText x "\"1970-01-01T5:00:00Z\"".toUTF8.toList) ∧
    jdec JDemo.prog JDemo.codec JDemo.lib.withTime 1 (.base JDemo.timeT) JDemo.zeroTime {}
        "\"1970-01-01T00:00:00.0000000004Z\"".toUTF8.toList = .ok (.time 0 4) := by
  refine ⟨⟨by decide +kernel, fun x hx => ?_⟩, by decide +kernel⟩
  obtain ⟨f, _, hl⟩ := stampText_length hx
  have : ("\"1970-01-01T5:00:00Z\"".toUTF8.toList).length = 21 := by decide +kernel
  omega

theorem univ_withTime {fl : Bool} {S : TId → Prop} (h : JUniv Γ c J fl S) : JUniv Γ c J.withTime fl S where
  info := h.info
  methods := h.methods
  time := h.time
  floats := h.floats
  marsh := h.marsh
  noMarsh := h.noMarsh
  slice := h.slice
  array := h.array
  map := h.map
  field := h.field
  names := h.names
  iface := h.iface

/-- C46 with the modelled times: what is assumed of the library concerns floats only. -/
theorem C72_json_roundtrip {S : TId → Prop} (hU : JUniv Γ c J.withTime false S)
    (h32 : ∀ {x b}, J.f32Text x = some b → NumText b ∧ J.f32Parse b = some x)
    (h64 : ∀ {x b}, J.f64Text x = some b → NumText b ∧ J.f64Parse b = some x) (hT : Γ.Typed) (hZ : ZeroOk Γ)
    (hum : UserTotal Γ) {fuel : Nat} {t : Ty} {v : Val} {bz : Bytes} (hS : JOk Γ S t) (ht : HasTy Γ t v)
    (hN : ∀ ci, c.conc? t.deref = some ci → PlainName ci.name)
    (he : marshalJSON Γ c J.withTime fuel (some (t, v)) = .ok bz) :
    ∃ w, jnorm Γ c fuel t v = some w ∧ HasTy Γ t w ∧
      ∀ g, fuel ≤ g → unmarshalJSON Γ c J.withTime g t (zeroOf Γ t) bz = .ok w :=
  C46_json_roundtrip_partial hU (libOk_withTime h32 h64) hT hZ hum hS ht hN he

namespace JDemo

/-- 29 February 2000, 12:34:56.000000789 -/
def leapDay : Stamp := ⟨2000, 2, 29, 12, 34, 56, 789⟩

theorem leapDay_valid : leapDay.Valid := by constructor <;> decide

theorem leapDay_unix : leapDay.unix = 951827696 := by
  rw [← date_eq leapDay_valid]
  decide +kernel

theorem leapDay_typed : HasTy prog (.base timeT) (.time 951827696 789) :=
  .time rfl (by decide) (by decide) (by decide) (by decide)

/-- It is in the years 0 to 9999, and written. -/
example : ∃ b, StampText leapDay b ∧
    jenc prog codec lib.withTime 1 false (.base timeT) (.time 951827696 789) {} = .ok b ∧
    jdec prog codec lib.withTime 1 (.base timeT) zeroTime {} b = .ok (.time 951827696 789) := by
  rcases C72_json_time_written (c := codec) (J := lib) rfl leapDay_typed 0 false {} with ⟨x, b, hv, hu, hn, hs, _, he⟩ | ⟨h, _⟩
  · have hx : x = leapDay := C72_stamp_unique hv leapDay_valid (hu.trans leapDay_unix.symm) (by show x.nano = 789; omega)
    subst hx
    refine ⟨b, hs, he, ?_⟩
    rw [C72_json_time_read rfl hv hs, leapDay_unix]
    rfl
  · exact absurd leapDay_unix (h _ leapDay_valid)

example : jenc prog codec lib.withTime 1 false (.base timeT) (.time 951827696 789) {} =
    .ok "\"2000-02-29T12:34:56.000000789Z\"".toUTF8.toList := by decide +kernel
/-- 1 January 10000 -/
example : jenc prog codec lib.withTime 1 false (.base timeT) (.time 253402300800 0) {} = .err .json := by decide +kernel

example : ∃ x : Stamp, x.Valid ∧ LaxText x "\"1970-01-01T5:00:00Z\"".toUTF8.toList ∧ Val.time 18000 0 = .time x.unix x.nano :=
  C72_json_time_accepted_partial (Γ := prog) (c := codec) (J := lib) (id := timeT) (g := 0) (p := zeroTime) (fo := {}) rfl
    (by decide +kernel) C72_refuted.1.1

/-- The hypotheses of the round trip are met by a struct with every construct. -/
example : ∃ w, jnorm prog codec 5 (.base recT) rec1 = some w ∧ HasTy prog (.base recT) w ∧
    ∀ g, 5 ≤ g → unmarshalJSON prog codec lib.withTime g (.base recT) (zeroOf prog (.base recT)) rec1Text = .ok w :=
  C72_json_roundtrip (univ_withTime (univ false)) libOk.f32 libOk.f64 typed zeroOk user_total
    (base_ok (by decide) (by decide)) rec1_typed (by intro ci h; rw [(conc_foo h).1]; exact plain_f) (by decide +kernel)

theorem libOkTime : LibOk lib.withTime := libOk_withTime libOk.f32 libOk.f64

end JDemo

end Amino
