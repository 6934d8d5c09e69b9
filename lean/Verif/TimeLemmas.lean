import Verif.GoTime
import Verif.SpecTime
import Verif.JsonRT

/-!
# Go's calendar arithmetic is the Gregorian calendar; its texts are RFC 3339
-/

namespace Amino
open Spec GoTime

/-! ## The calendar -/

/-- Days of the first `n` years after a year divisible by 400. -/
def gregDays (n : Nat) : Nat := 365 * n + n / 4 - n / 100 + n / 400

theorem leapYear_eq (y : Nat) : (leapYear y = true) ↔ (y % 4 = 0 ∧ (y % 100 ≠ 0 ∨ y % 400 = 0)) := by
  simp [leapYear]

theorem gregDays_succ (n : Nat) : gregDays (n + 1) = gregDays n + yearLen (n + 1) := by
  have hl := leapYear_eq (n + 1)
  have h4 : (n + 1) / 4 = n / 4 + if (n + 1) % 4 = 0 then 1 else 0 := by split <;> omega
  have h100 : (n + 1) / 100 = n / 100 + if (n + 1) % 100 = 0 then 1 else 0 := by split <;> omega
  have h400 : (n + 1) / 400 = n / 400 + if (n + 1) % 400 = 0 then 1 else 0 := by split <;> omega
  have hx : n / 100 ≤ n := Nat.div_le_self _ _
  unfold gregDays yearLen
  rw [h4, h100, h400]
  by_cases a : (n + 1) % 4 = 0
  · by_cases b : (n + 1) % 100 = 0
    · by_cases d : (n + 1) % 400 = 0
      · rw [if_pos (hl.2 ⟨a, .inr d⟩), if_pos a, if_pos b, if_pos d]; omega
      · rw [if_neg (fun h => (hl.1 h).2.elim (fun h => h b) d), if_pos a, if_pos b, if_neg d]; omega
    · rw [if_pos (hl.2 ⟨a, .inl b⟩), if_pos a, if_neg b, if_neg (by omega)]; omega
  · rw [if_neg (fun h => a (hl.1 h).1), if_neg a, if_neg (by omega), if_neg (by omega)]; omega

theorem daysBeforeYear_succ (n : Nat) : daysBeforeYear (n + 1) = 366 + gregDays n := by
  induction n with
  | zero => decide
  | succ n ih => rw [daysBeforeYear, ih, gregDays_succ, Nat.add_assoc]

theorem absYear_eq {d y r : Nat} (h : absYear d = (y, r)) :
    gregDays y + r = d ∧ r < 365 + if leapYear (y + 1) then 1 else 0 := by
  simp only [absYear, Prod.mk.injEq] at h
  obtain ⟨h1, h2⟩ := h
  generalize hn4 : d / 146097 = n4 at *
  generalize hd1 : d - 146097 * n4 = d1 at *
  generalize hq3 : d1 / 36524 = q3 at *
  generalize hn3 : q3 - q3 / 4 = n3 at *
  generalize hd2 : d1 - 36524 * n3 = d2 at *
  generalize hn2 : d2 / 1461 = n2 at *
  generalize hd3 : d2 - 1461 * n2 = d3 at *
  generalize hq1 : d3 / 365 = q1 at *
  generalize hn1 : q1 - q1 / 4 = n1 at *
  have b1 : d1 < 146097 := by omega
  have b3 : n3 ≤ 3 := by omega
  have b2 : d2 ≤ 36524 := by omega
  have b2' : n2 ≤ 24 := by omega
  have b4 : d3 ≤ 1460 := by omega
  have b5 : n1 ≤ 3 := by omega
  have e4 : y / 4 = 100 * n4 + 25 * n3 + n2 := by omega
  have e100 : y / 100 = 4 * n4 + n3 := by omega
  have e400 : y / 400 = n4 := by omega
  refine ⟨by unfold gregDays; omega, ?_⟩
  by_cases hl : leapYear (y + 1) = true
  · rw [if_pos hl]; omega
  · rw [if_neg hl]
    have : ¬ _ := fun h' => hl ((leapYear_eq _).2 h')
    by_cases hr : r = 365
    · exfalso
      apply this
      have : n1 = 3 := by omega
      have hx : d3 = 1460 := by omega
      constructor
      · omega
      · by_cases h24 : n2 = 24
        · right
          have : n3 = 3 := by omega
          omega
        · left; omega
    · omega

theorem isLeap_nat (y : Nat) : isLeap (y : Int) = leapYear y := by
  rw [Bool.eq_iff_iff, leapYear_eq]
  simp only [isLeap, Bool.and_eq_true, Bool.or_eq_true, beq_iff_eq, bne_iff_ne]
  omega

theorem monthDay_eq (leap : Bool) (yd : Nat) (h : yd < 365 + if leap then 1 else 0) :
    (1 ≤ (monthDay leap yd).1 ∧ (monthDay leap yd).1 ≤ 12) ∧
      (1 ≤ (monthDay leap yd).2 ∧ (monthDay leap yd).2 ≤ monthLen leap (monthDay leap yd).1) ∧
      daysBeforeMonth leap (monthDay leap yd).1 + ((monthDay leap yd).2 - 1) = yd := by
  have key : ∀ leap : Bool, ∀ yd : Fin 366, yd.val < 365 + (if leap then 1 else 0) →
      (1 ≤ (monthDay leap yd).1 ∧ (monthDay leap yd).1 ≤ 12) ∧
      (1 ≤ (monthDay leap yd).2 ∧ (monthDay leap yd).2 ≤ monthLen leap (monthDay leap yd).1) ∧
      daysBeforeMonth leap (monthDay leap yd).1 + ((monthDay leap yd).2 - 1) = yd.val := by decide +kernel
  exact key leap ⟨yd, by split at h <;> omega⟩ h

theorem daysBefore_eq (leap : Bool) (m : Nat) (h1 : 1 ≤ m) (h2 : m ≤ 12) :
    daysBefore.getD (m - 1) 0 + (if leap && decide (3 ≤ m) then 1 else 0) = daysBeforeMonth leap m ∧
      daysIn m leap = monthLen leap m := by
  have key : ∀ leap : Bool, ∀ m : Fin 13, 1 ≤ m.val →
      daysBefore.getD (m - 1) 0 + (if leap && decide (3 ≤ m.val) then 1 else 0) = daysBeforeMonth leap m ∧
        daysIn m leap = monthLen leap m := by decide +kernel
  exact key leap ⟨m, by omega⟩ h1

theorem gregDays_year (y : Nat) : gregDays (y + 292277022399) + 366 = daysBeforeYear y + 146097 * 730692556 := by
  cases y with
  | zero => decide
  | succ n =>
    rw [daysBeforeYear_succ]
    have : n + 1 + 292277022399 = n + 400 * 730692556 := by omega
    rw [this]
    unfold gregDays
    omega

theorem days_1970 : daysBeforeYear 1970 = 719528 := by rw [daysBeforeYear_succ 1969]; decide

/-- `Date` counts as the calendar does. -/
theorem date_eq {x : Stamp} (hx : x.Valid) : date x.year x.month x.day x.hour x.min x.sec = x.unix := by
  obtain ⟨hm, _⟩ := daysBefore_eq (leapYear x.year) x.month hx.month.1 hx.month.2
  have hd := hx.day.1
  unfold date Stamp.unix Stamp.days
  rw [isLeap_nat, ← hm]
  rw [days_1970]
  have hcycle : ∀ y : Nat, 146097 * (y / 400) + 36524 * ((y - 400 * (y / 400)) / 100) +
      1461 * ((y - 400 * (y / 400) - 100 * ((y - 400 * (y / 400)) / 100)) / 4) +
      365 * (y - 400 * (y / 400) - 100 * ((y - 400 * (y / 400)) / 100) -
        4 * ((y - 400 * (y / 400) - 100 * ((y - 400 * (y / 400)) / 100)) / 4)) = gregDays y := by
    intro y
    unfold gregDays
    omega
  have hg := gregDays_year x.year
  have hy : (x.year - absoluteZeroYear).toNat = x.year + 292277022399 := by unfold absoluteZeroYear; omega
  simp only [hcycle, hy]
  unfold unixToAbsDays
  generalize gregDays (x.year + 292277022399) = G at *
  generalize daysBefore.getD (x.month - 1) 0 = M at *
  split <;> omega

/-! ## Uniqueness -/

theorem daysBeforeYear_mono {a b : Nat} (h : a < b) : daysBeforeYear a + yearLen a ≤ daysBeforeYear b := by
  induction b with
  | zero => omega
  | succ b ih =>
    rw [daysBeforeYear]
    by_cases he : a = b
    · subst he; exact Nat.le_refl _
    · have := ih (by omega); omega

theorem daysBeforeMonth_mono (leap : Bool) {a b : Nat} (h1 : 1 ≤ a) (h : a < b) (h2 : b ≤ 12) :
    daysBeforeMonth leap a + monthLen leap a ≤ daysBeforeMonth leap b := by
  have key : ∀ leap : Bool, ∀ a b : Fin 13, 1 ≤ a.val → a.val < b.val →
      daysBeforeMonth leap a + monthLen leap a ≤ daysBeforeMonth leap b := by decide +kernel
  exact key leap ⟨a, by omega⟩ ⟨b, by omega⟩ h1 h

theorem month_in_year (y : Nat) {m : Nat} (h1 : 1 ≤ m) (h2 : m ≤ 12) :
    daysBeforeMonth (leapYear y) m + monthLen (leapYear y) m ≤ yearLen y := by
  have key : ∀ leap : Bool, ∀ a : Fin 13, 1 ≤ a.val →
      daysBeforeMonth leap a + monthLen leap a ≤ if leap then 366 else 365 := by decide +kernel
  exact key (leapYear y) ⟨m, by omega⟩ h1

theorem days_lt {x : Stamp} (h : x.Valid) : x.days < daysBeforeYear x.year + yearLen x.year := by
  have := month_in_year x.year h.month.1 h.month.2
  have := h.day
  unfold Stamp.days
  omega

theorem stamp_unique {x x' : Stamp} (h : x.Valid) (h' : x'.Valid) (hu : x.unix = x'.unix) (hn : x.nano = x'.nano) : x = x' := by
  have a1 := h.hour; have a2 := h.min; have a3 := h.sec
  have b1 := h'.hour; have b2 := h'.min; have b3 := h'.sec
  have hd : x.days = x'.days := by unfold Stamp.unix at hu; omega
  have ht : x.hour = x'.hour ∧ x.min = x'.min ∧ x.sec = x'.sec := by unfold Stamp.unix at hu; omega
  have hy : x.year = x'.year := by
    have c1 := days_lt h; have c2 := days_lt h'
    have d1 : daysBeforeYear x.year ≤ x.days := by unfold Stamp.days; omega
    have d2 : daysBeforeYear x'.year ≤ x'.days := by unfold Stamp.days; omega
    rcases Nat.lt_trichotomy x.year x'.year with hlt | he | hlt
    · have := daysBeforeYear_mono hlt; omega
    · exact he
    · have := daysBeforeYear_mono hlt; omega
  have e1 := h.day; have e2 := h'.day
  have hm : x.month = x'.month := by
    unfold Stamp.days at hd
    rw [← hy] at hd e2
    rcases Nat.lt_trichotomy x.month x'.month with hlt | he | hlt
    · have := daysBeforeMonth_mono (leapYear x.year) h.month.1 hlt h'.month.2; omega
    · exact he
    · have := daysBeforeMonth_mono (leapYear x.year) h'.month.1 hlt h.month.2; omega
  have hdd : x.day = x'.day := by
    unfold Stamp.days at hd
    rw [← hy, ← hm] at hd
    omega
  obtain ⟨y, m, d, hh, mi, s, n⟩ := x
  obtain ⟨y', m', d', hh', mi', s', n'⟩ := x'
  simp only [Stamp.mk.injEq]
  exact ⟨hy, hm, hdd, ht.1, ht.2.1, ht.2.2, hn⟩

/-! ## Numerals -/

theorem decVal_snoc (b : Bytes) (c : UInt8) : decVal (b ++ [c]) = 10 * decVal b + (c.toNat - 48) := by
  simp [decVal, List.foldl_append]

theorem digits_numeral (w x : Nat) : Numeral w (x % 10 ^ w) (padInt w x) := by
  induction w generalizing x with
  | zero => exact ⟨rfl, by simp [padInt], by simp [padInt, decVal, Nat.mod_one]⟩
  | succ w ih =>
    have h := ih (x / 10)
    have hc : (UInt8.ofNat (0x30 + x % 10)).toNat = 0x30 + x % 10 := by
      rw [UInt8.toNat_ofNat']; omega
    refine ⟨by simp [padInt, h.length], ?_, ?_⟩
    · intro c hc'
      simp only [padInt, List.mem_append, List.mem_singleton] at hc'
      rcases hc' with hc' | rfl
      · exact h.digits c hc'
      · refine ⟨UInt8.le_iff_toNat_le.2 ?_, UInt8.le_iff_toNat_le.2 ?_⟩
        · rw [hc]; show 48 ≤ _; omega
        · rw [hc]; show _ ≤ 57; omega
    · rw [padInt, decVal_snoc, h.value, hc, Nat.pow_succ, Nat.mul_comm (10 ^ w) 10, Nat.mod_mul]
      omega

theorem digits_numeral' {w x : Nat} (h : x < 10 ^ w) : Numeral w x (padInt w x) := by
  have := digits_numeral w x
  rwa [Nat.mod_eq_of_lt h] at this

theorem decVal_zeros (b : Bytes) (k : Nat) : decVal (b ++ List.replicate k 0x30) = decVal b * 10 ^ k := by
  induction k with
  | zero => simp
  | succ k ih =>
    rw [List.replicate_succ', ← List.append_assoc, decVal_snoc, ih, Nat.pow_succ]
    have : (0x30 : UInt8).toNat - 48 = 0 := rfl
    rw [this, Nat.add_zero, Nat.mul_comm 10, Nat.mul_assoc]

theorem dropWhile_zeros (b : Bytes) : ∃ k, b = List.replicate k 0x30 ++ b.dropWhile (· == 0x30) := by
  induction b with
  | nil => exact ⟨0, rfl⟩
  | cons c b ih =>
    by_cases h : c = 0x30
    · obtain ⟨k, hk⟩ := ih
      refine ⟨k + 1, ?_⟩
      subst h
      rw [List.dropWhile_cons_of_pos (by rfl), List.replicate_succ, List.cons_append, ← hk]
    · exact ⟨0, by rw [List.dropWhile_cons_of_neg (by simpa using h)]; rfl⟩

theorem trimZeros_eq (b : Bytes) : ∃ k, b = trimZeros b ++ List.replicate k 0x30 := by
  obtain ⟨k, hk⟩ := dropWhile_zeros b.reverse
  refine ⟨k, ?_⟩
  have := congrArg List.reverse hk
  rw [List.reverse_reverse, List.reverse_append, List.reverse_replicate] at this
  exact this

theorem fraction_text {ns : Nat} (h : ns < 1000000000) : FracText ns (fraction ns) := by
  have hn := digits_numeral' (w := 9) (x := ns) (by omega)
  obtain ⟨k, hk⟩ := trimZeros_eq (padInt 9 ns)
  have hl : (trimZeros (padInt 9 ns)).length + k = 9 := by
    have := congrArg List.length hk
    rw [hn.length, List.length_append, List.length_replicate] at this
    omega
  have hv : ns = decVal (trimZeros (padInt 9 ns)) * 10 ^ k := by
    rw [← decVal_zeros, ← hk, hn.value]
  unfold fraction
  split
  · rename_i he
    rw [he] at hv
    have : ns = 0 := by rw [hv]; simp [decVal]
    rw [this]
    exact .none
  · rename_i he
    have hkk : k = 9 - (trimZeros (padInt 9 ns)).length := by omega
    have hd : ∀ c ∈ trimZeros (padInt 9 ns), Digit c := by
      intro c hc
      apply hn.digits
      rw [hk]
      exact List.mem_append_left _ hc
    have := FracText.some he (by omega) hd
    rw [← hkk, ← hv] at this
    exact this

/-- No trailing zero is written. -/
theorem fraction_short {ns : Nat} : fraction ns = [] ∨ ∃ ds c, fraction ns = 0x2e :: (ds ++ [c]) ∧ c ≠ 0x30 := by
  unfold fraction
  split
  · exact .inl rfl
  · rename_i he
    right
    unfold trimZeros at he ⊢
    have hne : (padInt 9 ns).reverse.dropWhile (· == 0x30) ≠ [] := fun h => he (by rw [h]; rfl)
    obtain ⟨c, r, hcr⟩ := List.exists_cons_of_ne_nil hne
    refine ⟨r.reverse, c, by rw [hcr, List.reverse_cons], ?_⟩
    have := List.head_dropWhile_not (· == 0x30) hne
    simp only [hcr, List.head_cons] at this
    simpa using this

/-! ## Writing -/

theorem gregDays_mono {a b : Nat} (h : a ≤ b) : gregDays a ≤ gregDays b := by
  induction b with
  | zero => rw [Nat.le_zero.1 h]; exact Nat.le_refl _
  | succ b ih =>
    by_cases he : a = b + 1
    · rw [he]; exact Nat.le_refl _
    · have := ih (by omega)
      rw [gregDays_succ]
      omega

theorem days_10000 : daysBeforeYear 10000 = 3652425 := by rw [daysBeforeYear_succ 9999]; decide

/-- The date and time of day that `text` writes. -/
def stampOf (s ns : Int) : Stamp :=
  let a := abs s
  let yd := absYear (a / 86400)
  let y := (yd.1 + absoluteZeroYear).toNat
  let md := monthDay (leapYear y) yd.2
  ⟨y, md.1, md.2, a % 86400 / 3600, a % 86400 % 3600 / 60, a % 86400 % 60, ns.toNat⟩

/-- Instants of the years 0 to 9999. -/
def InYears (s : Int) : Prop := -719528 * 86400 ≤ s ∧ s < (3652425 - 719528) * 86400

theorem year_range {s : Int} (h1 : -(2 ^ 63) ≤ s) (h2 : s < 2 ^ 63) :
    (0 ≤ ((absYear (abs s / 86400)).1 : Int) + absoluteZeroYear ∧ ((absYear (abs s / 86400)).1 : Int) + absoluteZeroYear < 10000) ↔
      InYears s := by
  rcases hyr : absYear (abs s / 86400) with ⟨Y, r⟩
  obtain ⟨hd, hr⟩ := absYear_eq hyr
  have hr' : r < 366 := by split at hr <;> omega
  have hnext : abs s / 86400 < gregDays (Y + 1) := by
    rw [gregDays_succ, yearLen]
    split <;> rename_i hl
    · rw [if_pos hl] at hr; omega
    · rw [if_neg hl] at hr; omega
  have hoff : ((unixToAbsDays : Int) * 86400) = 9223372028741760000 - 26438400 := by decide
  simp only
  unfold absoluteZeroYear InYears
  have g0 := gregDays_year 0
  have g1 := gregDays_year 10000
  rw [days_10000] at g1
  have e0 : daysBeforeYear 0 = 0 := rfl
  rw [e0] at g0
  have habs : (abs s : Int) = (s + unixToAbsDays * 86400) % 2 ^ 64 := by
    unfold abs
    exact Int.toNat_of_nonneg (Int.emod_nonneg _ (by decide))
  rw [hoff] at habs
  have habs : ((abs s : Int) = s + 9223372028715321600 ∧ 0 ≤ s + 9223372028715321600) ∨
      ((abs s : Int) = s + 9223372028715321600 + 2 ^ 64 ∧ s + 9223372028715321600 < 0) := by
    rcases Int.lt_or_le (s + 9223372028715321600) 0 with h | h
    · refine .inr ⟨?_, h⟩
      rw [habs, ← Int.add_emod_right, Int.emod_eq_of_lt] <;> omega
    · refine .inl ⟨?_, h⟩
      rw [habs, Int.emod_eq_of_lt] <;> omega
  constructor
  · rintro ⟨a, b⟩
    have m0 := gregDays_mono (show 0 + 292277022399 ≤ Y by omega)
    have m1 := gregDays_mono (show Y + 1 ≤ 10000 + 292277022399 by omega)
    omega
  · rintro ⟨a, b⟩
    constructor
    · apply Classical.byContradiction
      intro hn
      have m0 := gregDays_mono (show Y + 1 ≤ 0 + 292277022399 by omega)
      omega
    · apply Classical.byContradiction
      intro hn
      have m1 := gregDays_mono (show 10000 + 292277022399 ≤ Y by omega)
      omega

theorem stampOf_valid {s ns : Int} (h1 : -(2 ^ 63) ≤ s) (h2 : s < 2 ^ 63) (hn : 0 ≤ ns ∧ ns < 1000000000)
    (hy : InYears s) : (stampOf s ns).Valid ∧ (stampOf s ns).unix = s := by
  have hyr := (year_range h1 h2).2 hy
  rcases he : absYear (abs s / 86400) with ⟨Y, r⟩
  rw [he] at hyr
  simp only at hyr
  obtain ⟨hd, hr⟩ := absYear_eq he
  have hleap : leapYear (Y + 1) = leapYear (Y + absoluteZeroYear).toNat := by
    rw [Bool.eq_iff_iff, leapYear_eq, leapYear_eq]
    unfold absoluteZeroYear at hyr ⊢
    omega
  rw [hleap] at hr
  obtain ⟨hm, hday, hsum⟩ := monthDay_eq _ _ hr
  have hst : stampOf s ns = ⟨(Y + absoluteZeroYear).toNat, (monthDay (leapYear (Y + absoluteZeroYear).toNat) r).1,
      (monthDay (leapYear (Y + absoluteZeroYear).toNat) r).2, abs s % 86400 / 3600, abs s % 86400 % 3600 / 60,
      abs s % 86400 % 60, ns.toNat⟩ := by
    unfold stampOf
    simp only [he]
  rw [hst]
  refine ⟨⟨by simp only; omega, hm, hday, by simp only; omega, by simp only; omega, by simp only; omega, by simp only; omega⟩, ?_⟩
  unfold Stamp.unix Stamp.days
  simp only
  rw [days_1970]
  have hg := gregDays_year (Y + absoluteZeroYear).toNat
  have hY : (Y + absoluteZeroYear).toNat + 292277022399 = Y := by unfold absoluteZeroYear at hyr ⊢; omega
  rw [hY] at hg
  have hoff : ((unixToAbsDays : Int) * 86400) = 9223372028741760000 - 26438400 := by decide
  have habs : (abs s : Int) = s + unixToAbsDays * 86400 := by
    unfold abs
    rw [Int.toNat_of_nonneg (Int.emod_nonneg _ (by decide))]
    unfold InYears at hy
    omega
  omega

theorem text_eq {s ns : Int} (h1 : -(2 ^ 63) ≤ s) (h2 : s < 2 ^ 63) (hn : 0 ≤ ns ∧ ns < 1000000000) (hy : InYears s) :
    ∃ f, (fraction ns.toNat = f ∧ FracText ns.toNat f) ∧ text s ns = some (0x22 :: (padInt 4 (stampOf s ns).year ++
      0x2d :: (padInt 2 (stampOf s ns).month ++ 0x2d :: (padInt 2 (stampOf s ns).day ++ 0x54 ::
      (padInt 2 (stampOf s ns).hour ++ 0x3a :: (padInt 2 (stampOf s ns).min ++ 0x3a :: (padInt 2 (stampOf s ns).sec ++
      (f ++ [0x5a, 0x22])))))))) := by
  refine ⟨_, ⟨rfl, fraction_text (by omega)⟩, ?_⟩
  have hyr := (year_range h1 h2).2 hy
  unfold text
  simp only
  rw [if_neg (by omega)]
  have hl : isLeap ((absYear (abs s / 86400)).1 + absoluteZeroYear) =
      leapYear ((absYear (abs s / 86400)).1 + absoluteZeroYear).toNat := by
    rw [← isLeap_nat, Int.toNat_of_nonneg hyr.1]
  rw [hl]
  have hsec : abs s % 86400 % 60 = abs s % 60 := by omega
  rfl

theorem text_stamp {s ns : Int} (h1 : -(2 ^ 63) ≤ s) (h2 : s < 2 ^ 63) (hn : 0 ≤ ns ∧ ns < 1000000000) (hy : InYears s) :
    ∃ b, text s ns = some b ∧ StampText (stampOf s ns) b := by
  obtain ⟨f, ⟨_, hf⟩, ht⟩ := text_eq h1 h2 hn hy
  have hv := (stampOf_valid h1 h2 hn hy).1
  have hm := hv.month; have hd := hv.day
  have hml : ∀ l m, monthLen l m ≤ 31 := by
    intro l m
    unfold monthLen
    split <;> first | (split <;> omega) | omega
  have := hml (leapYear (stampOf s ns).year) (stampOf s ns).month
  have := hv.hour; have := hv.min; have := hv.sec
  exact ⟨_, ht, .mk (digits_numeral' hv.year) (digits_numeral' (by omega)) (digits_numeral' (by omega))
    (digits_numeral' (by omega)) (digits_numeral' (by omega)) (digits_numeral' (by omega)) hf⟩

theorem text_none {s ns : Int} (h1 : -(2 ^ 63) ≤ s) (h2 : s < 2 ^ 63) (hy : ¬ InYears s) : text s ns = none := by
  have hyr := mt (year_range h1 h2).1 hy
  unfold text
  simp only
  rw [if_pos (by omega)]

/-! ## Reading -/

theorem digit_bool {c : UInt8} (h : Digit c) : isDigit c = true := isDigit_of h

theorem getnum_numeral {x : Nat} {b : Bytes} (h : Numeral 2 x b) (fixed : Bool) (r : Bytes) :
    getnum fixed (b ++ r) = some (x, r) := by
  obtain ⟨hl, hd, hv⟩ := h
  match b, hl with
  | [a, b], _ =>
    have ha := digit_bool (hd a (by simp))
    have hb := digit_bool (hd b (by simp))
    simp only [List.cons_append, List.nil_append, getnum, ha, hb]
    rw [← hv]
    simp [decVal, digVal]

theorem getYear_numeral {x : Nat} {b : Bytes} (h : Numeral 4 x b) (r : Bytes) : getYear (b ++ r) = some (x, r) := by
  obtain ⟨hl, hd, hv⟩ := h
  match b, hl with
  | [a, b, c, d], _ =>
    have ha := digit_bool (hd a (by simp))
    have hb := digit_bool (hd b (by simp))
    have hc := digit_bool (hd c (by simp))
    have hd := digit_bool (hd d (by simp))
    simp only [List.cons_append, List.nil_append, getYear, ha, hb, hc, hd]
    rw [← hv]
    simp [decVal, digVal]
    omega

theorem decVal_lt {b : Bytes} (h : ∀ c ∈ b, Digit c) : decVal b < 10 ^ b.length := by
  have key : ∀ (r : Bytes), (∀ c ∈ r, Digit c) → decVal r.reverse < 10 ^ r.length := by
    intro r hr
    induction r with
    | nil => simp [decVal]
    | cons c r ih =>
      rw [List.reverse_cons, decVal_snoc, List.length_cons, Nat.pow_succ]
      have := ih fun x hx => hr x (by simp [hx])
      have hc := UInt8.le_iff_toNat_le.1 (hr c (by simp)).2
      have : (0x39 : UInt8).toNat = 57 := rfl
      omega
  have := key b.reverse fun c hc => h c (List.mem_reverse.1 hc)
  rwa [List.reverse_reverse, List.length_reverse] at this

theorem getFraction_frac {n : Nat} {f : Bytes} (h : FracText n f) (r : Bytes) :
    getFraction (f ++ 0x5a :: r) = some (n, 0x5a :: r) := by
  cases h with
  | none => rfl
  | @some ds hne hl hd =>
    match ds, hne with
    | a :: ds, _ =>
      have hda : ∀ c ∈ a :: ds, isDigit c = true := fun c hc => digit_bool (hd c hc)
      have h5 : isDigit 0x5a = false := by decide
      have ht : (a :: (ds ++ 0x5a :: r)).takeWhile isDigit = a :: ds := by
        rw [← List.cons_append, List.takeWhile_append_of_pos hda, List.takeWhile_cons_of_neg (by rw [h5]; decide), List.append_nil]
      have hw : (a :: (ds ++ 0x5a :: r)).dropWhile isDigit = 0x5a :: r := by
        rw [← List.cons_append, List.dropWhile_append_of_pos hda, List.dropWhile_cons_of_neg (by rw [h5]; decide)]
      have hlt : number (a :: ds) < 1000000000 := by
        have h1 : decVal (a :: ds) < _ := decVal_lt hd
        have h2 : 10 ^ (a :: ds).length ≤ 10 ^ 9 := Nat.pow_le_pow_right (by decide) hl
        exact Nat.lt_of_lt_of_le h1 h2
      simp only [List.cons_append, getFraction]
      rw [if_pos (hda a (by simp)), ht, hw, if_neg (by omega)]
      rfl

theorem parse_stamp {x : Stamp} (hx : x.Valid) {b : Bytes} (h : StampText x b) : parse b = some (x.unix, (x.nano : Int)) := by
  cases h with
  | mk hy hmo hd hh hmi hs hf =>
    have hl : ∀ c r, lit c (c :: r) = some r := fun c r => by simp [lit]
    have hday := hx.day
    rw [← (daysBefore_eq (leapYear x.year) x.month hx.month.1 hx.month.2).2] at hday
    simp only [parse, hl, Option.bind_eq_bind, Option.bind_some, getYear_numeral hy, getnum_numeral hmo, getnum_numeral hd,
      getnum_numeral hh, getnum_numeral hmi, getnum_numeral hs, getFraction_frac hf, guard, hx.month, hx.hour, hx.min, hx.sec,
      isLeap_nat, hday, date_eq hx]
    simp

end Amino
