import Verif.ScanText
import Verif.PropsScan
import Verif.PropsPrint

/-!
# C96: what aminoscan prints
-/

namespace Amino
open Spec

/-- A terminal's text without the escape sequences (from `ESC` to the next `m`); the flag says whether we are inside one. -/
def Spec.uncolor : Bool → Bytes → Bytes
  | _, [] => []
  | true, b :: r => uncolor (b != 0x6d) r
  | false, b :: r => if b = 0x1b then uncolor true r else b :: uncolor false r

/-- The text is shown as `t` (whatever follows). -/
def Spec.Shows (s t : Bytes) : Prop := ∀ r, uncolor false (s ++ r) = t ++ uncolor false r

/-- The visible characters of ASCII, that is without the blank. -/
def Spec.graphic (b : UInt8) : Bool := decide (33 ≤ b.toNat) && decide (b.toNat ≤ 126)

/-- Bytes with their colors: a green character is a visible one and stands for itself, blue digits are for all other bytes,
in hexadecimal. -/
def Spec.readColored : Bytes → Option Bytes
  | [] => some []
  | 0x1b :: 0x5b :: 0x33 :: 0x32 :: 0x6d :: c :: 0x1b :: 0x5b :: 0x30 :: 0x6d :: r =>
    if graphic c then (readColored r).map (c :: ·) else none
  | 0x1b :: 0x5b :: 0x33 :: 0x34 :: 0x6d :: a :: b :: 0x1b :: 0x5b :: 0x30 :: 0x6d :: r =>
    let c := UInt8.ofNat (digit16 a * 16 + digit16 b)
    if graphic c then none else (readColored r).map (c :: ·)
  | _ => none

/-- A hexadecimal digit. -/
def Spec.hexCap (n : Nat) : UInt8 := (ascii "0123456789ABCDEF").getD n 0

/-- Two hexadecimal digits for every byte. -/
def Spec.hexOf (bz : Bytes) : Bytes := bz.flatMap fun b => [hexCap (b.toNat / 16), hexCap (b.toNat % 16)]

/-- Capital letters instead of `a` to `f`. -/
def Spec.capital (s : Bytes) : Bytes := s.map fun c => if 0x61 ≤ c ∧ c ≤ 0x66 then c - 0x20 else c

/-- The decimal notation of a number. -/
def Spec.decimal (n : Nat) : Bytes := (Nat.toDigits 10 n).map fun c => UInt8.ofNat c.toNat

def Spec.decimalInt (i : Int) : Bytes := if i < 0 then ascii "-" ++ decimal (-i).toNat else decimal i.toNat

/-- The names of the wire types. -/
def Spec.typName : Nat → Bytes
  | 0 => ascii "(U)Varint"
  | 1 => ascii "8Byte"
  | 2 => ascii "ByteLength"
  | 5 => ascii "4Byte"
  | _ => []

/-- What is said about a value: a varint is read as a signed (zig-zag) and as an unsigned number; bytes are counted. -/
def Spec.remark (typ : Nat) (payload : Bytes) : Bytes :=
  match typ, readVarint payload with
  | 0, some (v, _) => ascii " (i64:" ++ decimalInt (zag v) ++ ascii " u64:" ++ decimal v ++ ascii ")"
  | 2, some (_, l) => ascii " (" ++ decimal (payload.length - l) ++ ascii " bytes)"
  | _, _ => []

/-- The listing of a message: for each field a line with the key, the field number and the wire type, and a line with the value. -/
def Spec.listing : List WField → Bytes
  | [] => []
  | w :: ws =>
    ascii "  " ++ hexOf (varint (8 * w.num + w.typ)) ++ ascii " @" ++ decimal w.num ++ ascii " " ++ typName w.typ ++ ascii "\n" ++
    ascii "  " ++ hexOf w.payload ++ remark w.typ w.payload ++ ascii "\n" ++ listing ws

/-! ## Digits -/

theorem hexBytes_hexOf (bz : Bytes) : hexBytes bz = hexOf bz := by
  have h : ∀ n : Nat, n < 16 → upperHex n = hexCap n := by
    intro n hn
    have : ∀ n : Fin 16, upperHex n.val = hexCap n.val := by decide +kernel
    exact this ⟨n, hn⟩
  induction bz with
  | nil => rfl
  | cons b bz ih =>
    have hb : b.toNat < 256 := b.toNat_lt
    rw [hexBytes, ih, h _ (by omega), h _ (by omega)]
    rfl

theorem digits_decimal (k n : Nat) (h : n < 10 ^ (k + 1)) : digits k n = decimal n := by
  have hd : ∀ n : Nat, n < 10 → UInt8.ofNat (0x30 + n) = UInt8.ofNat n.digitChar.toNat := by
    intro n hn
    have : ∀ n : Fin 10, UInt8.ofNat (0x30 + n.val) = UInt8.ofNat n.val.digitChar.toNat := by decide +kernel
    exact this ⟨n, hn⟩
  induction k generalizing n with
  | zero =>
    have h : n < 10 := by simpa using h
    rw [digits, decimal, Nat.toDigits_of_lt_base h, Nat.mod_eq_of_lt h, hd n h]
    rfl
  | succ k ih =>
    rw [digits]
    split
    · rename_i h'
      rw [decimal, Nat.toDigits_of_lt_base h', hd n h']
      rfl
    · rename_i h'
      have h1 : Nat.toDigits 10 n = Nat.toDigits 10 (n / 10) ++ [(n % 10).digitChar] :=
        Nat.toDigits_of_base_le (by decide) (by omega)
      rw [ih _ (by rw [Nat.div_lt_iff_lt_mul (by decide)]; simpa [Nat.pow_succ] using h), decimal, decimal,
        h1, List.map_append, hd _ (by omega)]
      rfl

theorem natText_decimal (n : Nat) : natText n = decimal n := by
  apply digits_decimal
  have h1 : n < 2 ^ (n.log2 + 1) := Nat.lt_log2_self
  have h2 : 2 ^ (n.log2 + 1) ≤ 10 ^ (n.log2 + 1) := Nat.pow_le_pow_left (by decide) _
  have h3 : 10 ^ (n.log2 + 1) ≤ 10 ^ (n.log2 + 1 + 1) := Nat.pow_le_pow_right (by decide) (by omega)
  omega

theorem intText_decimal (i : Int) : intText i = decimalInt i := by
  unfold intText decimalInt
  split
  · rw [natText_decimal, show i.natAbs = (-i).toNat by omega]; rfl
  · rw [natText_decimal, show i.natAbs = i.toNat by omega]

/-! ## Showing -/

theorem Spec.Shows.nil : Shows [] [] := fun _ => rfl

theorem Spec.Shows.append {s s' t t' : Bytes} (h : Shows s t) (h' : Shows s' t') : Shows (s ++ s') (t ++ t') := by
  intro r
  rw [List.append_assoc, h, h', List.append_assoc]

theorem Spec.Shows.plain {s : Bytes} (h : 0x1b ∉ s) : Shows s s := by
  intro r
  induction s with
  | nil => rfl
  | cons b s ih =>
    simp only [List.mem_cons, not_or] at h
    rw [List.cons_append, uncolor, if_neg (fun e => h.1 e.symm), ih h.2]
    rfl

theorem Spec.Shows.eq {s t : Bytes} (h : Shows s t) : uncolor false s = t := by
  have := h []
  simpa [uncolor] using this

theorem upperHex_noEsc (n : Nat) (h : n < 16) : upperHex n ≠ 0x1b := by
  have : ∀ n : Fin 16, upperHex n.val ≠ 0x1b := by decide +kernel
  exact this ⟨n, h⟩

theorem hexBytes_noEsc (b : Bytes) : 0x1b ∉ hexBytes b := by
  induction b with
  | nil => simp [hexBytes]
  | cons x b ih =>
    have hx : x.toNat < 256 := x.toNat_lt
    simp only [hexBytes, List.mem_cons, not_or]
    exact ⟨(upperHex_noEsc _ (by omega)).symm, (upperHex_noEsc _ (by omega)).symm, ih⟩

theorem hexBytes_append (a b : Bytes) : hexBytes (a ++ b) = hexBytes a ++ hexBytes b := by
  induction a with
  | nil => rfl
  | cons x a ih => simp only [List.cons_append, hexBytes, ih]

theorem Spec.Shows.fg (k : UInt8) (hk : k ≠ 0x6d) : Shows (ansiFg k) [] := by
  intro r
  have : (k != 0x6d) = true := by simpa using hk
  simp [ansiFg, uncolor, this]

theorem Spec.Shows.reset : Shows ansiReset [] := by
  intro r
  simp [ansiReset, uncolor]

theorem Spec.Shows.colored {k : UInt8} (hk : k ≠ 0x6d) {s : Bytes} (h : 0x1b ∉ s) : Shows (treatAll (ansiFg k) s) s := by
  unfold treatAll treat
  rw [if_neg]
  · have := ((Shows.fg k hk).append (Shows.plain h)).append Shows.reset
    simpa using this
  · rintro ⟨_, h2⟩
    apply h
    have : (0x1b : UInt8) ∈ s.take 2 := by rw [h2]; simp
    exact List.mem_of_mem_take this

theorem Spec.Shows.hexCyan (b : Bytes) : Shows (cyan (hexBytes b)) (hexBytes b) := Shows.colored (by decide) (hexBytes_noEsc b)
theorem Spec.Shows.hexGreen (b : Bytes) : Shows (green (hexBytes b)) (hexBytes b) := Shows.colored (by decide) (hexBytes_noEsc b)
theorem Spec.Shows.hexBlue (b : Bytes) : Shows (blue (hexBytes b)) (hexBytes b) := Shows.colored (by decide) (hexBytes_noEsc b)
theorem Spec.Shows.hexRed (b : Bytes) : Shows (red (hexBytes b)) (hexBytes b) := Shows.colored (by decide) (hexBytes_noEsc b)
theorem Spec.Shows.yellow {s : Bytes} (h : 0x1b ∉ s) : Shows (Amino.yellow s) s := Shows.colored (by decide) h

theorem digits_noEsc (k n : Nat) : 0x1b ∉ digits k n := by
  have h : ∀ m : Nat, m < 10 → UInt8.ofNat (0x30 + m) ≠ 0x1b := by
    intro m hm
    have : ∀ m : Fin 10, UInt8.ofNat (0x30 + m.val) ≠ 0x1b := by decide +kernel
    exact this ⟨m, hm⟩
  induction k generalizing n with
  | zero => simp only [digits, List.mem_singleton]; exact (h _ (by omega)).symm
  | succ k ih =>
    rw [digits]
    split
    · rename_i hn; simp only [List.mem_singleton]; exact (h _ hn).symm
    · simp only [List.mem_append, List.mem_singleton, not_or]; exact ⟨ih _, (h _ (by omega)).symm⟩

theorem natText_noEsc (n : Nat) : 0x1b ∉ natText n := digits_noEsc _ _

theorem intText_noEsc (i : Int) : 0x1b ∉ intText i := by
  unfold intText
  split
  · simp only [List.mem_cons, not_or]; exact ⟨by decide, natText_noEsc _⟩
  · exact natText_noEsc _

theorem Spec.Shows.nat (n : Nat) : Shows (natText n) (natText n) := Shows.plain (natText_noEsc n)
theorem Spec.Shows.int (i : Int) : Shows (intText i) (intText i) := Shows.plain (intText_noEsc i)
theorem Spec.Shows.hex (b : Bytes) : Shows (hexBytes b) (hexBytes b) := Shows.plain (hexBytes_noEsc b)

/-! ## The scanner with text is the scanner -/

/-- Forget the text. -/
def ScanT.erase : ScanT → Scan
  | .ret _ _ n err => .ret n err.isSome
  | .panic _ => .panic
  | .running => .running

theorem scanVarintT_erase (indent bz : Bytes) : (scanVarintT indent bz).erase = scanVarint bz := by
  have hE : ∀ (e : Bytes), (if bz = [] then some e else none).isSome = bz.isEmpty := by
    intro e; cases bz <;> simp
  unfold scanVarintT scanVarint
  rcases uvarint_cases bz with ⟨h1, _⟩ | ⟨h1, _⟩ | ⟨h1, _⟩
  · simp [h1, ScanT.erase, hE]
  · have h3 : (uvarint bz).2 ≤ 0 := by omega
    have h4 : (0 : Int) ≠ (uvarint bz).2 := by omega
    simp [h3, h4, ScanT.erase]
  · have h3 : ¬ (uvarint bz).2 ≤ 0 := by omega
    simp [h3, ScanT.erase, hE]

theorem scanFixedT_erase (k : Nat) (indent bz : Bytes) : (scanFixedT k indent bz).erase = scanFixed k bz := by
  unfold scanFixedT scanFixed
  split <;> rfl

theorem scanByteLengthT_erase (indent bz : Bytes) : (scanByteLengthT indent bz).erase = scanByteLength bz := by
  unfold scanByteLengthT scanByteLength
  simp only
  repeat' split
  all_goals rfl

theorem scanAnyT_erase (typ : Nat) (indent bz : Bytes) : (scanAnyT typ indent bz).erase = scanAny typ bz := by
  unfold scanAnyT scanAny
  split
  · exact scanVarintT_erase indent bz
  split
  · exact scanFixedT_erase 8 indent bz
  split
  · exact scanByteLengthT_erase indent bz
  split
  · exact scanFixedT_erase 4 indent bz
  · rfl

theorem scanFieldKeyT_erase (indent bz : Bytes) :
    ((scanFieldKeyT indent bz).2.2.1, (scanFieldKeyT indent bz).2.2.2.1, (scanFieldKeyT indent bz).2.2.2.2.isSome) = scanFieldKey bz := by
  unfold scanFieldKeyT scanFieldKey
  simp only
  split <;> rfl

theorem scanLoopT_erase (isRoot : Bool) (indent : Bytes) (fuel : Nat) (bz s out : Bytes) (n : Nat) :
    (scanLoopT isRoot indent fuel bz s out n).erase = scanLoop isRoot fuel bz n := by
  induction fuel generalizing bz s out n with
  | zero => rfl
  | succ fuel ih =>
    rw [scanLoopT, scanLoop]
    split
    · rfl
    · rw [← scanFieldKeyT_erase (indent ++ ascii "  ") bz]
      generalize scanFieldKeyT (indent ++ ascii "  ") bz = k
      obtain ⟨s1, out1, m, typ, err⟩ := k
      cases err with
      | some e => rfl
      | none =>
        simp only [Option.isSome_none, Bool.false_eq_true, if_false]
        rw [← scanAnyT_erase typ (indent ++ ascii "  ") (bz.drop m)]
        cases scanAnyT typ (indent ++ ascii "  ") (bz.drop m) with
        | panic o => rfl
        | running => rfl
        | ret s2 out2 m' err =>
          cases err with
          | some e => rfl
          | none => simp only [ScanT.erase, Option.isSome_none, Bool.false_eq_true, if_false]; exact ih _ _ _ _

/-! ## The strings are the bytes consumed -/

theorem scanVarintT_cases (indent bz : Bytes) :
    scanVarintT indent bz = .ret [] [] 0 (some (ascii "invalid (u)varint")) ∨
    ∃ out m err, scanVarintT indent bz = .ret (cyan (hexBytes (bz.take m))) out m err ∧
      (err = none ∨ err = some (ascii "EOF while reading (U)Varint")) := by
  unfold scanVarintT
  rcases uvarint_cases bz with ⟨h1, _⟩ | ⟨h1, _⟩ | ⟨h1, h2⟩
  · right
    simp only [h1, Int.le_refl, if_true, ne_eq, not_true_eq_false, if_false, Bool.not_false, Bool.not_true, Bool.and_false,
      Bool.false_eq_true]
    refine ⟨_, _, _, rfl, ?_⟩
    split <;> simp
  · have h3 : (uvarint bz).2 ≤ 0 := by omega
    have h4 : (0 : Int) ≠ (uvarint bz).2 := by omega
    left; simp [h3, h4]
  · have h3 : ¬ (uvarint bz).2 ≤ 0 := by omega
    right
    simp only [h3, ne_eq, not_true_eq_false, if_false, Bool.not_true, Bool.and_false, Bool.false_eq_true]
    refine ⟨_, _, _, rfl, ?_⟩
    split <;> simp

theorem scanAnyT_shows {typ : Nat} {indent bz s out : Bytes} {n : Nat} {err : Option Bytes}
    (h : scanAnyT typ indent bz = .ret s out n err) : Shows s (hexBytes (bz.take n)) := by
  have hfix : ∀ k, scanFixedT k indent bz = .ret s out n err → Shows s (hexBytes (bz.take n)) := by
    intro k h
    unfold scanFixedT at h
    split at h
    · cases h; exact Shows.nil
    · cases h; exact Shows.hexBlue _
  unfold scanAnyT at h
  split at h
  · rcases scanVarintT_cases indent bz with h1 | ⟨_, _, _, h1, _⟩
    · rw [h1] at h; cases h; exact Shows.nil
    · rw [h1] at h; cases h; exact Shows.hexCyan _
  split at h
  · exact hfix 8 h
  split at h
  · unfold scanByteLengthT at h
    simp only at h
    split at h
    · cases h; exact Shows.nil
    split at h
    · cases h
    split at h
    · cases h
    split at h
    · cases h
    cases h
    rw [List.take_add, hexBytes_append]
    exact (Shows.hexCyan _).append (Shows.hexGreen _)
  split at h
  · exact hfix 4 h
  · cases h

theorem scanFieldKeyT_shows (indent bz : Bytes) :
    Shows (scanFieldKeyT indent bz).1 (hexBytes (bz.take (scanFieldKeyT indent bz).2.2.1)) := by
  unfold scanFieldKeyT
  simp only
  split
  · exact Shows.nil
  · exact Shows.hex _

theorem scanLoopT_shows {isRoot : Bool} {indent : Bytes} (fuel : Nat) {bz s0 out0 s out : Bytes} {n0 n : Nat} {err : Option Bytes}
    {t : Bytes} (h : scanLoopT isRoot indent fuel bz s0 out0 n0 = .ret s out n err) (h0 : Shows s0 t) :
    n0 ≤ n ∧ Shows s (t ++ hexBytes (bz.take (n - n0))) := by
  induction fuel generalizing bz s0 out0 n0 t with
  | zero => cases h
  | succ fuel ih =>
    rw [scanLoopT] at h
    split at h
    · cases h
      refine ⟨Nat.le_refl _, ?_⟩
      rw [Nat.sub_self]
      simpa [hexBytes] using h0
    · have hk := scanFieldKeyT_shows (indent ++ ascii "  ") bz
      revert hk h
      generalize scanFieldKeyT (indent ++ ascii "  ") bz = k
      obtain ⟨s1, out1, m, typ, e⟩ := k
      intro h hk
      simp only at h hk
      have h1 := h0.append hk
      cases e with
      | some e =>
        cases h
        refine ⟨by omega, ?_⟩
        rw [Nat.add_sub_cancel_left]
        exact h1
      | none =>
        simp only at h
        cases ha : scanAnyT typ (indent ++ ascii "  ") (bz.drop m) with
        | panic o => rw [ha] at h; cases h
        | running => rw [ha] at h; cases h
        | ret s2 out2 m' e =>
          rw [ha] at h
          have h2 := h1.append (scanAnyT_shows ha)
          rw [List.append_assoc t, ← hexBytes_append, ← List.take_add] at h2
          cases e with
          | some e =>
            cases h
            refine ⟨by omega, ?_⟩
            rw [show n0 + m + m' - n0 = m + m' by omega]
            exact h2
          | none =>
            obtain ⟨h3, h4⟩ := ih h h2
            refine ⟨by omega, ?_⟩
            rw [List.append_assoc t, ← hexBytes_append, List.drop_drop, ← List.take_add] at h4
            rw [show n - n0 = m + m' + (n - (n0 + m + m')) by omega]
            exact h4

/-- Without newline. -/
theorem cyan_line {s : Bytes} (h : 0x0a ∉ s) (k : UInt8) (hk : k ≠ 0x0a) : 0x0a ∉ treatAll (ansiFg k) s := by
  unfold treatAll treat ansiFg ansiReset
  split
  · simpa using h
  · simp [h, Ne.symm hk]

theorem hex_line (b : Bytes) : 0x0a ∉ hexBytes b := (hexBytes_plain b).2

theorem scanAnyT_line {typ : Nat} {indent bz s out : Bytes} {n : Nat} {err : Option Bytes}
    (h : scanAnyT typ indent bz = .ret s out n err) : 0x0a ∉ s := by
  have hfix : ∀ k, scanFixedT k indent bz = .ret s out n err → 0x0a ∉ s := by
    intro k h
    unfold scanFixedT at h
    split at h
    · cases h; simp
    · cases h; exact cyan_line (hex_line _) _ (by decide)
  unfold scanAnyT at h
  split at h
  · rcases scanVarintT_cases indent bz with h1 | ⟨_, _, _, h1, _⟩
    · rw [h1] at h; cases h; simp
    · rw [h1] at h; cases h; exact cyan_line (hex_line _) _ (by decide)
  split at h
  · exact hfix 8 h
  split at h
  · unfold scanByteLengthT at h
    simp only at h
    split at h
    · cases h; simp
    split at h
    · cases h
    split at h
    · cases h
    split at h
    · cases h
    cases h
    rw [List.mem_append, not_or]
    exact ⟨cyan_line (hex_line _) _ (by decide), cyan_line (hex_line _) _ (by decide)⟩
  split at h
  · exact hfix 4 h
  · cases h

theorem scanFieldKeyT_line (indent bz : Bytes) : 0x0a ∉ (scanFieldKeyT indent bz).1 := by
  unfold scanFieldKeyT
  simp only
  split
  · simp
  · exact hex_line _

theorem scanLoopT_line {isRoot : Bool} {indent : Bytes} (fuel : Nat) {bz s0 out0 s out : Bytes} {n0 n : Nat} {err : Option Bytes}
    (h : scanLoopT isRoot indent fuel bz s0 out0 n0 = .ret s out n err) (h0 : 0x0a ∉ s0) : 0x0a ∉ s := by
  induction fuel generalizing bz s0 out0 n0 with
  | zero => cases h
  | succ fuel ih =>
    rw [scanLoopT] at h
    split at h
    · cases h; exact h0
    · have hk := scanFieldKeyT_line (indent ++ ascii "  ") bz
      revert hk h
      generalize scanFieldKeyT (indent ++ ascii "  ") bz = k
      obtain ⟨s1, out1, m, typ, e⟩ := k
      intro h hk
      simp only at h hk
      have h1 : 0x0a ∉ s0 ++ s1 := by simp [h0, hk]
      cases e with
      | some e => cases h; exact h1
      | none =>
        simp only at h
        cases ha : scanAnyT typ (indent ++ ascii "  ") (bz.drop m) with
        | panic o => rw [ha] at h; cases h
        | running => rw [ha] at h; cases h
        | ret s2 out2 m' e =>
          rw [ha] at h
          have h2 : 0x0a ∉ s0 ++ s1 ++ s2 := by
            rw [List.mem_append, not_or]; exact ⟨h1, scanAnyT_line ha⟩
          cases e with
          | some e => cases h; exact h2
          | none => exact ih h h2

/-- The errors of the scanner. -/
def scanErrs : List Bytes :=
  [ascii "EOF while reading (U)Varint", ascii "invalid (u)varint", eofText, ascii "error decoding uvarint"]

theorem scanAnyT_err {typ : Nat} {indent bz s out : Bytes} {n : Nat} {e : Bytes}
    (h : scanAnyT typ indent bz = .ret s out n (some e)) : e ∈ scanErrs := by
  have hfix : ∀ k, scanFixedT k indent bz = .ret s out n (some e) → e ∈ scanErrs := by
    intro k h
    unfold scanFixedT at h
    split at h
    · cases h; simp [scanErrs]
    · cases h
  unfold scanAnyT at h
  split at h
  · rcases scanVarintT_cases indent bz with h1 | ⟨_, _, _, h1, h2⟩
    · rw [h1] at h; cases h; simp [scanErrs]
    · rw [h1] at h; cases h
      rcases h2 with h2 | h2
      · cases h2
      · cases h2; simp [scanErrs]
  split at h
  · exact hfix 8 h
  split at h
  · unfold scanByteLengthT at h
    simp only at h
    split at h
    · cases h; simp [scanErrs]
    split at h
    · cases h
    split at h
    · cases h
    split at h
    · cases h
    cases h
  split at h
  · exact hfix 4 h
  · cases h

theorem scanFieldKeyT_err {indent bz e : Bytes} (h : (scanFieldKeyT indent bz).2.2.2.2 = some e) : e ∈ scanErrs := by
  unfold scanFieldKeyT at h
  simp only at h
  split at h
  · cases h; simp [scanErrs]
  · cases h

theorem scanLoopT_err {isRoot : Bool} {indent : Bytes} (fuel : Nat) {bz s0 out0 s out : Bytes} {n0 n : Nat} {e : Bytes}
    (h : scanLoopT isRoot indent fuel bz s0 out0 n0 = .ret s out n (some e)) : e ∈ scanErrs := by
  induction fuel generalizing bz s0 out0 n0 with
  | zero => cases h
  | succ fuel ih =>
    rw [scanLoopT] at h
    split at h
    · cases h
    · have hk := @scanFieldKeyT_err (indent ++ ascii "  ") bz
      revert hk h
      generalize scanFieldKeyT (indent ++ ascii "  ") bz = k
      obtain ⟨s1, out1, m, typ, e'⟩ := k
      intro h hk
      simp only at h hk
      cases e' with
      | some e => cases h; exact hk rfl
      | none =>
        simp only at h
        cases ha : scanAnyT typ (indent ++ ascii "  ") (bz.drop m) with
        | panic o => rw [ha] at h; cases h
        | running => rw [ha] at h; cases h
        | ret s2 out2 m' e =>
          rw [ha] at h
          cases e with
          | some e => cases h; exact scanAnyT_err ha
          | none => exact ih h

theorem scanErrs_facts {e : Bytes} (h : e ∈ scanErrs) : e ≠ ascii "<nil>" ∧ 0x0a ∉ e := by
  revert e
  decide +kernel

/-- C96: whatever the input, if aminoscan returns, the last line it prints is all bytes of the input, in hexadecimal and
in order (apart from the colors), the number of bytes scanned, and the error.  Count and error are those of the scan. -/
theorem C96_bytes {fuel : Nat} {bz text : Bytes} (h : scanMain fuel bz = some text) :
    ∃ pre hex n err, text = pre ++ ascii "\n" ++ hex ++ ascii " " ++ decimal n ++ ascii " " ++ err ++ ascii "\n" ∧
      0x0a ∉ hex ∧ 0x0a ∉ err ∧ unhex (uncolor false hex) = bz ∧
      scanStruct fuel bz = .ret n (decide (err ≠ ascii "<nil>")) := by
  unfold scanMain at h
  cases hl : scanLoopT true [] fuel bz [] [] 0 with
  | panic o => rw [hl] at h; cases h
  | running => rw [hl] at h; cases h
  | ret s out n err =>
    rw [hl] at h
    simp only [Option.some.injEq, natText_decimal] at h
    obtain ⟨_, hs⟩ := scanLoopT_shows fuel hl Shows.nil
    have he := scanLoopT_erase true [] fuel bz [] [] 0
    rw [hl] at he
    refine ⟨_, _, n, _, h.symm, ?_, ?_, ?_, ?_⟩
    · rw [List.mem_append, not_or]
      exact ⟨scanLoopT_line fuel hl (by simp), cyan_line (hex_line _) _ (by decide)⟩
    · cases err with
      | none => decide +kernel
      | some e => exact (scanErrs_facts (scanLoopT_err fuel hl)).2
    · rw [(hs.append (Shows.hexRed _)).eq, List.nil_append, Nat.sub_zero, ← hexBytes_append, List.take_append_drop, unhex_hexBytes]
    · rw [scanStruct, ← he]
      cases err with
      | none => simp [ScanT.erase]
      | some e => simp [ScanT.erase, (scanErrs_facts (scanLoopT_err fuel hl)).1]

/-- Such output exists, also for malformed input. -/
example : (scanMain 10 [0x08, 0x96, 0x01, 0x12, 0x05, 0x61]).isSome := by decide +kernel

/-! ## The listing of a message -/

theorem ascii_plain {x : String} (h : (ascii x).all (· != 0x1b) = true) : Shows (ascii x) (ascii x) := by
  apply Shows.plain
  intro hm
  have := List.all_eq_true.mp h _ hm
  simp at this

theorem scanAnyT_payload {typ : Nat} {p : Bytes} (h : Payload typ p) (indent rest : Bytes) :
    ∃ s out, scanAnyT typ indent (p ++ rest) = .ret s out p.length none ∧
      ∀ t, Shows indent t → Shows out (t ++ hexOf p ++ remark typ p ++ ascii "\n") := by
  have hb : Shows (ascii "\n") (ascii "\n") := ascii_plain (by decide +kernel)
  cases h with
  | @varint n hn =>
    have hl := varint_length_pos n
    have hne : (varint n ++ rest).isEmpty = false := by
      cases hv : varint n with
      | nil => rw [hv] at hl; simp at hl
      | cons a as => rfl
    have h0 : ¬ ((varint n).length : Int) ≤ 0 := by omega
    have hr : readVarint (varint n) = some (n, (varint n).length) := by
      have := readVarint_varint n []; rwa [List.append_nil] at this
    have hv : (UInt64.ofNat n).toNat = n := by rw [UInt64.toNat_ofNat']; omega
    simp only [scanAnyT, typ3Varint, if_true, scanVarintT, uvarint_varint hn, if_neg h0, hne]
    simp only [ne_eq, not_true_eq_false, if_false, Bool.not_true, Bool.and_false, Bool.false_eq_true, if_true,
      Int.toNat_natCast, List.take_left, unzigzag_eq, hv]
    refine ⟨_, _, rfl, ?_⟩
    intro t ht
    simp only [remark, hr]
    rw [← hexBytes_hexOf, ← natText_decimal, ← intText_decimal]
    have := (((((ht.append (Shows.hexCyan (varint n))).append (ascii_plain (x := " (") (by decide +kernel))).append
      (((ascii_plain (x := "i64:") (by decide +kernel)).append (Shows.int (zag n))).append (ascii_plain (x := " ") (by decide +kernel)))).append
      ((ascii_plain (x := "u64:") (by decide +kernel)).append (Shows.nat n)))).append (ascii_plain (x := ")\n") (by decide +kernel))
    refine Eq.mp ?_ this
    congr 1
    simp [ascii]
  | fixed64 hl =>
    have hs : scanAnyT 1 indent (p ++ rest) = .ret (blue (hexBytes p)) (indent ++ blue (hexBytes p) ++ ascii "\n") p.length none := by
      show scanFixedT 8 indent (p ++ rest) = _
      rw [scanFixedT, if_neg (by rw [List.length_append]; omega), ← hl, List.take_left]
    refine ⟨_, _, hs, ?_⟩
    intro t ht
    rw [← hexBytes_hexOf]
    have := (ht.append (Shows.hexBlue p)).append hb
    simpa [remark] using this
  | fixed32 hl =>
    have hs : scanAnyT 5 indent (p ++ rest) = .ret (blue (hexBytes p)) (indent ++ blue (hexBytes p) ++ ascii "\n") p.length none := by
      show scanFixedT 4 indent (p ++ rest) = _
      rw [scanFixedT, if_neg (by rw [List.length_append]; omega), ← hl, List.take_left]
    refine ⟨_, _, hs, ?_⟩
    intro t ht
    rw [← hexBytes_hexOf]
    have := (ht.append (Shows.hexBlue p)).append hb
    simpa [remark] using this
  | @bytes b hlb =>
    have hl := varint_length_pos b.length
    have hu := uvarint_varint (n := b.length) (by omega) (b ++ rest)
    have hi : intOf (UInt64.ofNat b.length) = (b.length : Int) := by
      have : (UInt64.ofNat b.length).toNat = b.length := by
        rw [UInt64.toNat_ofNat']; omega
      rw [intOf, this, if_pos (by omega)]
    rw [List.append_assoc]
    simp only [scanAnyT, typ3Varint, typ38Byte, typ3ByteLength, Nat.reduceEqDiff, if_false, if_true, scanByteLengthT, hu, hi]
    have h1 : ¬ ((b.length : Int) ≥ ((varint b.length ++ (b ++ rest)).length : Int)) := by
      simp only [List.length_append]; omega
    have h2 : ¬ (((varint b.length).length : Int) < 0) := by omega
    have h3 : ¬ ((b.length : Int) < 0) := by omega
    have h4 : ¬ ((b ++ rest).length < b.length) := by
      rw [List.length_append]; omega
    simp only [h1, h2, h3, if_false, Int.toNat_natCast, List.drop_left, List.take_left]
    rw [if_neg h4]
    refine ⟨_, _, by rw [List.length_append], ?_⟩
    intro t ht
    simp only [remark, readVarint_varint, List.length_append, Nat.add_sub_cancel_left]
    rw [← hexBytes_hexOf, hexBytes_append, ← natText_decimal]
    have := (((ht.append ((Shows.hexCyan (varint b.length)).append (Shows.hexGreen b))).append
      (ascii_plain (x := " (") (by decide +kernel))).append (Shows.int (b.length : Int))).append
      (ascii_plain (x := " bytes)\n") (by decide +kernel))
    have hn : intText (b.length : Int) = natText b.length := by simp [intText]
    rw [hn] at this
    refine Eq.mp ?_ this
    congr 1
    simp [ascii]

theorem scanFieldKeyT_wire {w : WField} (hn : w.num < 2 ^ 29) (ht : w.typ < 8) (hty : typ3Text w.typ = typName w.typ) (rest : Bytes) :
    scanFieldKeyT (ascii "  ") (varint (8 * w.num + w.typ) ++ rest) =
      (hexOf (varint (8 * w.num + w.typ)), ascii "  " ++ hexOf (varint (8 * w.num + w.typ)) ++ ascii " @" ++ decimal w.num ++
        ascii " " ++ typName w.typ ++ ascii "\n", (varint (8 * w.num + w.typ)).length, w.typ, none) := by
  rw [scanFieldKeyT, uvarint_varint (by omega)]
  have h0 : ¬ (((varint (8 * w.num + w.typ)).length : Int) < 0) := by omega
  have hv : (UInt64.ofNat (8 * w.num + w.typ)).toNat = 8 * w.num + w.typ := by rw [UInt64.toNat_ofNat']; omega
  have h7 : (UInt64.ofNat (8 * w.num + w.typ) &&& 7).toNat = w.typ := by
    rw [UInt64.toNat_and, hv, show (7 : UInt64).toNat = 2 ^ 3 - 1 by decide, Nat.and_two_pow_sub_one_eq_mod]
    omega
  have h3 : (UInt64.ofNat (8 * w.num + w.typ) >>> 3).toNat % 2 ^ 32 = w.num := by
    rw [UInt64.toNat_shiftRight, hv, show (3 : UInt64).toNat % 64 = 3 by decide, Nat.shiftRight_eq_div_pow]
    omega
  simp only [h0, if_false, Int.toNat_natCast, List.take_left, h7, h3, hty, natText_decimal, hexBytes_hexOf]

theorem typName_plain {typ : Nat} {p : Bytes} (h : Payload typ p) :
    typ3Text typ = typName typ ∧ Shows (typName typ) (typName typ) := by
  cases h
  · exact ⟨rfl, ascii_plain (x := "(U)Varint") (by decide +kernel)⟩
  · exact ⟨rfl, ascii_plain (x := "8Byte") (by decide +kernel)⟩
  · exact ⟨rfl, ascii_plain (x := "ByteLength") (by decide +kernel)⟩
  · exact ⟨rfl, ascii_plain (x := "4Byte") (by decide +kernel)⟩

theorem scanLoopT_wire {ws : List WField} {bz : Bytes} (h : Wire ws bz) (s0 out0 t : Bytes) (n : Nat) (h0 : Shows out0 t) :
    ∃ s out, scanLoopT true [] (ws.length + 1) bz s0 out0 n = .ret s out (n + bz.length) none ∧ Shows out (t ++ listing ws) := by
  induction h generalizing s0 out0 n t with
  | nil => exact ⟨s0, out0, by simp [scanLoopT], by simpa [listing] using h0⟩
  | @cons w ws bz h1 h2 hp _ ih =>
    have ht : w.typ < 8 := payload_typ hp
    obtain ⟨hty, hpl⟩ := typName_plain hp
    have hne : (varint (8 * w.num + w.typ) ++ w.payload ++ bz).isEmpty = false := by
      have hl := varint_length_pos (8 * w.num + w.typ)
      cases hv : varint (8 * w.num + w.typ) with
      | nil => rw [hv] at hl; simp at hl
      | cons a as => rfl
    have h2s : Shows (ascii "  ") (ascii "  ") := ascii_plain (by decide +kernel)
    obtain ⟨s2, out2, hs2, ho2⟩ := scanAnyT_payload hp (ascii "  ") bz
    have hkey : Shows (ascii "  " ++ hexOf (varint (8 * w.num + w.typ)) ++ ascii " @" ++ decimal w.num ++
        ascii " " ++ typName w.typ ++ ascii "\n") (ascii "  " ++ hexOf (varint (8 * w.num + w.typ)) ++ ascii " @" ++ decimal w.num ++
        ascii " " ++ typName w.typ ++ ascii "\n") := by
      rw [← natText_decimal, ← hexBytes_hexOf]
      exact (((((h2s.append (Shows.hex _)).append (ascii_plain (by decide +kernel))).append (Shows.nat _)).append
        (ascii_plain (by decide +kernel))).append hpl).append (ascii_plain (by decide +kernel))
    have hall := (h0.append hkey).append (ho2 _ h2s)
    rw [List.length_cons, scanLoopT]
    simp only [hne, Bool.and_false, Bool.false_eq_true, if_false, List.nil_append]
    rw [List.append_assoc (varint _), scanFieldKeyT_wire h2 ht hty]
    simp only [List.drop_left, hs2]
    obtain ⟨s, out, hs, ho⟩ := ih (s0 ++ (hexOf (varint (8 * w.num + w.typ)) ++ s2)) _ _ (n + (varint (8 * w.num + w.typ)).length + w.payload.length) hall
    refine ⟨s, out, ?_, ?_⟩
    · simp only [List.append_assoc] at hs ⊢
      rw [hs]
      congr 1
      simp only [List.length_append]
      omega
    · simpa only [listing, List.append_assoc] using ho

/-- C96: for a well-formed message, what aminoscan prints is, apart from the colors, the listing of its fields: for each field
a line with its key, number and wire type and a line with its value; then the whole message with its length. -/
theorem C96_listing {ws : List WField} {bz : Bytes} (h : Wire ws bz) :
    ∃ text, scanMain (ws.length + 1) bz = some text ∧
      uncolor false text = ascii "## Root Struct (assumed)\n" ++ listing ws ++ ascii "## Root Struct END\n" ++
        hexOf bz ++ ascii " " ++ decimal bz.length ++ ascii " <nil>\n" := by
  obtain ⟨s, out, hl, ho⟩ := scanLoopT_wire h [] [] [] 0 Shows.nil
  obtain ⟨_, hs⟩ := scanLoopT_shows _ hl Shows.nil
  rw [Nat.zero_add] at hl hs
  simp only [List.nil_append, Nat.sub_zero, List.take_length] at hs ho
  refine ⟨_, by rw [scanMain, hl], ?_⟩
  have hy : ∀ x : String, (ascii x).all (· != 0x1b) = true → Shows (yellow (ascii x)) (ascii x) := by
    intro x hx
    apply Shows.yellow
    intro hm
    have := List.all_eq_true.mp hx _ hm
    simp at this
  have h1 := ((((((((hy "## Root Struct (assumed)" (by decide +kernel)).append (ascii_plain (x := "\n") (by decide +kernel))).append ho).append
    (hy "## Root Struct END" (by decide +kernel))).append (ascii_plain (x := "\n") (by decide +kernel))).append
    (hs.append (Shows.hexRed (bz.drop bz.length)))).append (ascii_plain (x := " ") (by decide +kernel))).append
    (Shows.nat bz.length)).append (ascii_plain (x := " ") (by decide +kernel))
  have h2 := (h1.append (ascii_plain (x := "<nil>") (by decide +kernel))).append (ascii_plain (x := "\n") (by decide +kernel))
  rw [h2.eq, hexBytes_hexOf, natText_decimal, List.drop_length]
  simp [ascii, hexBytes]

/-- The listing of a message with an integer and a string. -/
example : uncolor false ((scanMain 10 [0x08, 0x95, 0x01, 0x12, 0x01, 0x61]).getD []) = ascii
    "## Root Struct (assumed)\n  08 @1 (U)Varint\n  9501 (i64:-75 u64:149)\n  12 @2 ByteLength\n  0161 (1 bytes)\n## Root Struct END\n089501120161 6 <nil>\n" := by
  decide +kernel

/-! ## Colored bytes and hexadecimal input -/

/-- C96: the output of `aminoscan --color` determines the bytes, and it shows exactly the visible characters as such. -/
theorem C96_color (bz : Bytes) : ∃ text, colorMain bz = text ++ ascii "\n" ∧ readColored text = some bz := by
  refine ⟨coloredBytes green blue bz, rfl, ?_⟩
  induction bz with
  | nil => rfl
  | cons b bz ih =>
    rw [coloredBytes]
    split
    · rename_i hg
      have hg : graphic b = true := by
        rw [UInt8.le_iff_toNat_le, UInt8.lt_iff_toNat_lt] at hg
        have h1 : (0x21 : UInt8).toNat = 33 := rfl
        have h2 : (0x7f : UInt8).toNat = 127 := rfl
        simp only [graphic, Bool.and_eq_true, decide_eq_true_eq]
        omega
      have : green [b] ++ coloredBytes green blue bz =
          0x1b :: 0x5b :: 0x33 :: 0x32 :: 0x6d :: b :: 0x1b :: 0x5b :: 0x30 :: 0x6d :: coloredBytes green blue bz := by
        simp [green, treatAll, treat, ansiFg, ansiReset]
      rw [this, readColored, if_pos hg, ih]
      rfl
    · rename_i hg
      have hg : graphic b = false := by
        rw [UInt8.le_iff_toNat_le, UInt8.lt_iff_toNat_lt] at hg
        have h1 : (0x21 : UInt8).toNat = 33 := rfl
        have h2 : (0x7f : UInt8).toNat = 127 := rfl
        simp only [graphic, Bool.and_eq_false_iff, decide_eq_false_iff_not]
        omega
      have hb : b.toNat < 256 := b.toNat_lt
      obtain ⟨hx, _⟩ := upperHex_facts (b.toNat / 16) (by omega)
      obtain ⟨hy, _⟩ := upperHex_facts (b.toNat % 16) (by omega)
      have : blue (hexBytes [b]) ++ coloredBytes green blue bz =
          0x1b :: 0x5b :: 0x33 :: 0x34 :: 0x6d :: upperHex (b.toNat / 16) :: upperHex (b.toNat % 16) ::
            0x1b :: 0x5b :: 0x30 :: 0x6d :: coloredBytes green blue bz := by
        simp [blue, treatAll, treat, ansiFg, ansiReset, hexBytes]
      rw [this, readColored, ih, hx, hy, show b.toNat / 16 * 16 + b.toNat % 16 = b.toNat by omega]
      simp [hg]

theorem fromHexChar_cap (c : UInt8) (x : Nat) :
    fromHexChar c = some x ↔ x < 16 ∧ (if 0x61 ≤ c ∧ c ≤ 0x66 then c - 0x20 else c) = hexCap x := by
  have h1 : ∀ (n : Fin 256) (x : Fin 16), fromHexChar (UInt8.ofNat n.val) = some x.val ↔
      (if 0x61 ≤ UInt8.ofNat n.val ∧ UInt8.ofNat n.val ≤ 0x66 then UInt8.ofNat n.val - 0x20 else UInt8.ofNat n.val) = hexCap x.val := by
    decide +kernel
  have h2 : ∀ n : Fin 256, ∀ y ∈ fromHexChar (UInt8.ofNat n.val), y < 16 := by decide +kernel
  have hc : c = UInt8.ofNat (⟨c.toNat, c.toNat_lt⟩ : Fin 256).val := by simp
  constructor
  · intro h
    have hx : x < 16 := by rw [hc] at h; exact h2 _ x h
    rw [hc] at h
    refine ⟨hx, ?_⟩
    have := (h1 ⟨c.toNat, c.toNat_lt⟩ ⟨x, hx⟩).mp h
    simpa using this
  · rintro ⟨hx, h⟩
    have := (h1 ⟨c.toNat, c.toNat_lt⟩ ⟨x, hx⟩).mpr (by simpa using h)
    simpa using this

/-- C96: the argument of aminoscan is accepted exactly if it consists of two hexadecimal digits for every byte, in small or
capital letters; other arguments make it panic. -/
theorem C96_hex (s bz : Bytes) : hexDecode s = some bz ↔ capital s = hexOf bz := by
  match s with
  | [] => cases bz <;> simp [hexDecode, capital, hexOf]
  | [a] => cases bz <;> simp [hexDecode, capital, hexOf]
  | a :: b :: r =>
    cases bz with
    | nil =>
      simp only [hexDecode, capital, hexOf, List.map_cons, List.flatMap_nil, reduceCtorEq, iff_false]
      split <;> simp
    | cons y bz =>
      have hy : y.toNat < 256 := y.toNat_lt
      have e : capital (a :: b :: r) = hexOf (y :: bz) ↔
          fromHexChar a = some (y.toNat / 16) ∧ fromHexChar b = some (y.toNat % 16) ∧ hexDecode r = some bz := by
        rw [C96_hex r bz, fromHexChar_cap, fromHexChar_cap]
        simp only [capital, hexOf, List.map_cons, List.flatMap_cons, List.cons_append, List.nil_append, List.cons.injEq]
        constructor
        · rintro ⟨h1, h2, h3⟩; exact ⟨⟨by omega, h1⟩, ⟨by omega, h2⟩, h3⟩
        · rintro ⟨⟨_, h1⟩, ⟨_, h2⟩, h3⟩; exact ⟨h1, h2, h3⟩
      rw [e, hexDecode]
      split
      · rename_i x z bs h1 h2 h3
        have hx := ((fromHexChar_cap a x).mp h1).1
        have hz := ((fromHexChar_cap b z).mp h2).1
        simp only [h1, h2, h3, Option.some.injEq, List.cons.injEq]
        constructor
        · rintro ⟨rfl, rfl⟩
          have : (UInt8.ofNat (x * 16 + z)).toNat = x * 16 + z := by rw [UInt8.toNat_ofNat']; omega
          rw [this]
          exact ⟨by omega, by omega, rfl⟩
        · rintro ⟨rfl, rfl, rfl⟩
          rw [show y.toNat / 16 * 16 + y.toNat % 16 = y.toNat by omega]
          simp
      · rename_i hno
        simp only [reduceCtorEq, false_iff]
        rintro ⟨h1, h2, h3⟩
        exact hno _ _ _ h1 h2 h3

example : hexDecode (ascii "9aF0") = some [0x9a, 0xf0] ∧ hexDecode (ascii "9a0") = none ∧ hexDecode (ascii "0x") = none := by
  decide +kernel

end Amino
