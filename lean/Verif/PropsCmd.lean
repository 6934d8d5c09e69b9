import Verif.PropsScanExact
import Verif.PropsDisfix
import Verif.ScanMain
import Verif.SpecCmd
import Verif.PropsScanText
import Verif.PropsEnd

/-!
# C119: the command line of aminoscan
-/

namespace Amino
open Spec

theorem cutEq_eq (r : Bytes) : r = (cutEq r).1 ++ (match (cutEq r).2 with | none => [] | some v => 0x3d :: v) := by
  induction r with
  | nil => rfl
  | cons b r ih =>
    simp only [cutEq]
    split
    · rename_i h; subst h; rfl
    · simp only [List.cons_append]; rw [← ih]

theorem cutEq_none (p : Bytes) (h : 0x3d ∉ p) : cutEq p = (p, none) := by
  induction p with
  | nil => rfl
  | cons b p ih =>
    simp only [List.mem_cons, not_or] at h
    rw [cutEq, if_neg (fun e => h.1 e.symm), ih h.2]

theorem cutEq_some (p v : Bytes) (h : 0x3d ∉ p) : cutEq (p ++ 0x3d :: v) = (p, some v) := by
  induction p with
  | nil => simp [cutEq]
  | cons b p ih =>
    simp only [List.mem_cons, not_or] at h
    rw [List.cons_append, cutEq, if_neg (fun e => h.1 e.symm), ih h.2]

theorem parseBool_iff (w : Bytes) (b : Bool) : parseBool w = some b ↔ w ∈ boolWords b := by
  have hd : ∀ w ∈ boolWords true, w ∉ boolWords false := by decide +kernel
  unfold parseBool
  rw [show [ascii "1", ascii "t", ascii "T", ascii "true", ascii "TRUE", ascii "True"] = boolWords true from rfl,
    show [ascii "0", ascii "f", ascii "F", ascii "false", ascii "FALSE", ascii "False"] = boolWords false from rfl]
  split
  · rename_i h
    have := hd w h
    cases b <;> simp_all
  · rename_i h
    split
    · rename_i h'; cases b <;> simp_all
    · rename_i h'; cases b <;> simp_all

/-- One flag more. -/
def Flags.set (fl : Flags) : Setting → Flags
  | .color b => { fl with color := b }
  | .name n => { fl with name := n }

/-- An argument with one or two dashes and a name. -/
theorem parseFlags_dash (fl : Flags) {d : Bytes} (hd : Dashes d) (c : UInt8) (r : Bytes) (args : List Bytes)
    (h1 : c ≠ 0x2d) (h2 : c ≠ 0x3d) : parseFlags fl ((d ++ c :: r) :: args) =
      (if c :: (cutEq r).1 = ascii "color" then
          match (cutEq r).2 with
          | none => parseFlags { fl with color := true } args
          | some v =>
            match parseBool v with
            | some b => parseFlags { fl with color := b } args
            | none => none
        else if c :: (cutEq r).1 = ascii "concrete-name" then
          match (cutEq r).2, args with
          | some v, args => parseFlags { fl with name := v } args
          | none, v :: args => parseFlags { fl with name := v } args
          | none, [] => none
        else none) := by
  cases hd with
  | one =>
    have e : ascii "-" = [0x2d] := by decide
    rw [e, parseFlags]
    simp [h1, h2]
    exact if_neg (by omega)
  | two =>
    have e : ascii "--" = [0x2d, 0x2d] := by decide
    rw [e, parseFlags]
    simp [h1, h2]
    exact if_neg (by omega)

theorem parseFlags_spells (fl : Flags) {x : Setting} {a : List Bytes} (h : FlagText x a) (args : List Bytes) :
    parseFlags fl (a ++ args) = parseFlags (fl.set x) args := by
  have ec : ascii "color" = 0x63 :: ascii "olor" := by decide
  have ec' : ascii "color=" = 0x63 :: (ascii "olor" ++ [0x3d]) := by decide
  have en : ascii "concrete-name" = 0x63 :: ascii "oncrete-name" := by decide
  have en' : ascii "concrete-name=" = 0x63 :: (ascii "oncrete-name" ++ [0x3d]) := by decide
  have hc : (0x3d : UInt8) ∉ ascii "olor" := by decide
  have hn : (0x3d : UInt8) ∉ ascii "oncrete-name" := by decide
  have hne : ¬ (0x63 :: ascii "oncrete-name" = ascii "color") := by decide
  cases h with
  | color hd =>
    rw [List.singleton_append, ec, parseFlags_dash fl hd _ _ _ (by decide) (by decide), cutEq_none _ hc]
    rw [if_pos ec.symm]
    rfl
  | @colorEq d w b hd hw =>
    rw [List.singleton_append, ec', List.cons_append, List.append_assoc, List.singleton_append,
      parseFlags_dash fl hd _ _ _ (by decide) (by decide), cutEq_some _ _ hc, if_pos ec.symm]
    simp only [(parseBool_iff w b).2 hw]
    rfl
  | @name d n hd =>
    rw [List.cons_append, en, parseFlags_dash fl hd _ _ _ (by decide) (by decide), cutEq_none _ hn]
    rw [if_neg hne, if_pos en.symm]
    rfl
  | @nameEq d n hd =>
    rw [List.singleton_append, en', List.cons_append, List.append_assoc, List.singleton_append,
      parseFlags_dash fl hd _ _ _ (by decide) (by decide), cutEq_some _ _ hn, if_neg hne, if_pos en.symm]
    rfl

theorem parseFlags_line (fl : Flags) {xs : List Setting} {args rest : List Bytes} (h : Line xs args rest) :
    parseFlags fl args = some (xs.foldl Flags.set fl, rest) := by
  induction h generalizing fl with
  | done => rfl
  | word h => rw [parseFlags, if_pos h]; rfl
  | stop => rfl
  | flag h _ ih => rw [parseFlags_spells fl h, ih]; rfl

theorem line_parseFlags : ∀ (n : Nat) (fl : Flags) (args : List Bytes), args.length ≤ n → ∀ {fl' rest},
    parseFlags fl args = some (fl', rest) → ∃ xs, Line xs args rest ∧ fl' = xs.foldl Flags.set fl
  | _, fl, [], _, fl', rest, h => by
    rw [parseFlags] at h
    cases h
    exact ⟨[], .done, rfl⟩
  | 0, fl, s :: args, hn, fl', rest, h => by simp at hn
  | n + 1, fl, s :: args, hn, fl', rest, h => by
    have hn' : args.length ≤ n := by simp only [List.length_cons] at hn; omega
    by_cases h1 : s.length < 2 ∨ s.head? ≠ some 0x2d
    · rw [parseFlags, if_pos h1] at h
      cases h
      exact ⟨[], .word h1, rfl⟩
    by_cases h2 : s = [0x2d, 0x2d]
    · rw [parseFlags, if_neg h1, if_pos h2] at h
      cases h
      subst h2
      exact ⟨[], .stop, rfl⟩
    obtain ⟨d, c, r, hd, rfl, h3, h4⟩ : ∃ d c r, Dashes d ∧ s = d ++ c :: r ∧ c ≠ 0x2d ∧ c ≠ 0x3d := by
      rw [parseFlags, if_neg h1, if_neg h2] at h
      split at h
      · cases h
      · rename_i c r hb
        split at h
        · cases h
        · rename_i hc
          simp only [not_or] at h1 hc
          match s, h1 with
          | a :: b :: s, h1 =>
            have ha : a = 0x2d := by simpa using h1.2
            subst ha
            simp only [List.drop_succ_cons, List.drop_zero, List.head?_cons] at hb
            split at hb
            · rename_i hb2
              have : b = 0x2d := by simpa using hb2
              subst this
              exact ⟨_, c, r, .two, by rw [hb]; rfl, hc.1, hc.2⟩
            · exact ⟨_, c, r, .one, by rw [hb]; rfl, hc.1, hc.2⟩
          | [a], h1 => exact absurd h1.1 (by simp)
          | [], h1 => exact absurd h1.1 (by simp)
    rw [parseFlags_dash fl hd _ _ _ h3 h4] at h
    have hr := cutEq_eq r
    split at h
    · rename_i hname
      cases hv : (cutEq r).2 with
      | none =>
        simp only [hv] at h hr
        rw [List.append_nil] at hr
        obtain ⟨xs, hl, he⟩ := line_parseFlags n _ args hn' h
        refine ⟨.color true :: xs, ?_, he⟩
        rw [← hr] at hname
        rw [hname]
        exact .flag (.color hd) hl
      | some v =>
        simp only [hv] at h hr
        cases hb : parseBool v with
        | none => simp only [hb] at h; cases h
        | some b =>
          simp only [hb] at h
          obtain ⟨xs, hl, he⟩ := line_parseFlags n _ args hn' h
          refine ⟨.color b :: xs, ?_, he⟩
          have : c :: r = ascii "color=" ++ v := by
            rw [hr, ← List.cons_append, hname]; rfl
          rw [this]
          exact .flag (.colorEq hd ((parseBool_iff v b).1 hb)) hl
    · split at h
      · rename_i hname
        cases hv : (cutEq r).2 with
        | none =>
          simp only [hv] at h hr
          rw [List.append_nil] at hr
          rw [← hr] at hname
          cases args with
          | nil => cases h
          | cons v args =>
            simp only at h
            obtain ⟨xs, hl, he⟩ := line_parseFlags n _ args (by simp only [List.length_cons] at hn'; omega) h
            refine ⟨.name v :: xs, ?_, he⟩
            rw [hname]
            exact .flag (.name hd) hl
        | some v =>
          simp only [hv] at h hr
          obtain ⟨xs, hl, he⟩ := line_parseFlags n _ args hn' h
          refine ⟨.name v :: xs, ?_, he⟩
          have : c :: r = ascii "concrete-name=" ++ v := by
            rw [hr, ← List.cons_append, hname]; rfl
          rw [this]
          exact .flag (.nameEq hd) hl
      · cases h

theorem foldl_set (xs : List Setting) (fl : Flags) : xs.foldl Flags.set fl =
    { color := xs.foldl (fun b x => match x with | .color b' => b' | .name _ => b) fl.color
      name := xs.foldl (fun n x => match x with | .name n' => n' | .color _ => n) fl.name } := by
  induction xs generalizing fl with
  | nil => rfl
  | cons x xs ih => rw [List.foldl_cons, ih]; cases x <;> rfl

/-- C119: which command lines are understood, and as what; the program is ended for all others. -/
theorem C119_flags (args : List Bytes) (fl : Flags) (rest : List Bytes) : parseFlags {} args = some (fl, rest) ↔
    ∃ xs, Line xs args rest ∧ fl.color = colorSet xs ∧ fl.name = nameSet xs := by
  constructor
  · intro h
    obtain ⟨xs, hl, he⟩ := line_parseFlags _ {} args (Nat.le_refl _) h
    rw [foldl_set] at he
    exact ⟨xs, hl, by rw [he]; rfl, by rw [he]; rfl⟩
  · rintro ⟨xs, hl, h1, h2⟩
    rw [parseFlags_line {} hl, foldl_set]
    obtain ⟨c, n⟩ := fl
    simp only at h1 h2
    rw [h1, h2]
    rfl

section
variable (H : Bytes → Bytes) (fuel : Nat)

/-- What is done with the bytes of a message. -/
def scanBytes (bz : Bytes) : Ran :=
  match scanMain fuel bz with
  | some out => .printed out
  | none => .lost

/-- What is done with the arguments behind the flags if one of these is `color`. -/
def colorArgs : List Bytes → Ran
  | [] | [] :: _ => .printed colorUsage
  | w :: _ =>
    match hexDecode w with
    | some bz => .printed (colorMain bz)
    | none => .crashed

/-- A command line that is understood. -/
theorem aminoscan_line {xs : List Setting} {a : Bytes} {args rest : List Bytes} (h : Line xs (a :: args) rest) :
    (colorSet xs = true → aminoscan H fuel (a :: args) = colorArgs rest) ∧
    (colorSet xs = false → nameSet xs ≠ [] → aminoscan H fuel (a :: args) = nameMain H (nameSet xs)) ∧
    (colorSet xs = false → nameSet xs = [] → aminoscan H fuel (a :: args) = match hexDecode a with
        | none => .crashed
        | some bz => scanBytes fuel bz) := by
  have := (C119_flags (a :: args) { color := colorSet xs, name := nameSet xs } rest).2 ⟨xs, h, rfl, rfl⟩
  refine ⟨fun h1 => ?_, fun h1 h2 => ?_, fun h1 h2 => ?_⟩
  · unfold aminoscan
    simp only [this, h1, if_true]
    cases rest with
    | nil => rfl
    | cons w rest => cases w <;> rfl
  · unfold aminoscan
    simp only [this, h1, Bool.false_eq_true, if_false, if_pos h2]
  · unfold aminoscan
    simp only [this, h1, Bool.false_eq_true, if_false, h2, ne_eq, not_true_eq_false]
    rfl

theorem hexDecode_dash (r : Bytes) : hexDecode (0x2d :: r) = none := by
  cases r with
  | nil => rfl
  | cons b r =>
    have : fromHexChar 0x2d = none := by decide
    simp only [hexDecode, this]

/-- Hexadecimal digits do not look like a flag. -/
theorem hex_word {s bz : Bytes} (h : hexDecode s = some bz) : s.length < 2 ∨ s.head? ≠ some 0x2d := by
  cases s with
  | nil => exact .inl (by decide)
  | cons b r =>
    refine .inr fun e => ?_
    have : b = 0x2d := by simpa using e
    subst this
    rw [hexDecode_dash] at h
    cases h

/-- C119: `aminoscan HEX` scans these bytes (C96 says what is printed), whatever arguments follow; there is a panic if the
argument is not hexadecimal. -/
theorem C119_scan_partial (s : Bytes) (args : List Bytes) :
    (∀ bz, capital s = hexOf bz → aminoscan H fuel (s :: args) = scanBytes fuel bz) ∧
    (s.length < 2 ∨ s.head? ≠ some 0x2d → (∀ bz, capital s ≠ hexOf bz) → aminoscan H fuel (s :: args) = .crashed) := by
  refine ⟨fun bz h => ?_, fun hw h => ?_⟩
  · have hd := (C96_hex s bz).2 h
    rw [(aminoscan_line H fuel (.word (hex_word hd))).2.2 rfl rfl, hd]
  · have hd : hexDecode s = none := by
      cases hd : hexDecode s with
      | none => rfl
      | some bz => exact absurd ((C96_hex s bz).1 hd) (h bz)
    rw [(aminoscan_line H fuel (.word hw)).2.2 rfl rfl, hd]

theorem scanMain_isSome (bz : Bytes) : (∃ out, scanMain fuel bz = some out) ↔ ∃ n e, scanStruct fuel bz = .ret n e := by
  have he := scanLoopT_erase true [] fuel bz [] [] 0
  unfold scanMain scanStruct
  rw [← he]
  cases scanLoopT true [] fuel bz [] [] 0 <;> simp [ScanT.erase]

/-- C119: for which bytes `aminoscan HEX` prints a result; the others are those of the panics and endless loops of C58. -/
theorem C119_scan_ends {s bz : Bytes} (args : List Bytes) (h : capital s = hexOf bz) :
    (∃ fuel out, aminoscan H fuel (s :: args) = .printed out) ↔ ∃ p r, bz = p ++ r ∧ ScanFields p ∧ (r = [] ∨ ScanBroken r) := by
  have h1 : (∃ fuel out, aminoscan H fuel (s :: args) = .printed out) ↔ ∃ fuel n e, scanStruct fuel bz = .ret n e := by
    refine exists_congr fun fuel => ?_
    rw [(C119_scan_partial H fuel s args).1 bz h, ← scanMain_isSome]
    unfold scanBytes
    cases scanMain fuel bz <;> simp
  have h2 := C58_exact_partial bz
  rw [h1]
  constructor
  · rintro ⟨fuel, n, e, h⟩
    cases e with
    | false => exact ⟨bz, [], (List.append_nil _).symm, h2.1.1 ⟨fuel, n, h⟩, .inl rfl⟩
    | true =>
      obtain ⟨p, r, h3, h4, h5⟩ := h2.2.1.1 ⟨fuel, n, h⟩
      exact ⟨p, r, h3, h4, .inr h5⟩
  · rintro ⟨p, r, h3, h4, rfl | h5⟩
    · rw [List.append_nil] at h3
      obtain ⟨fuel, n, h⟩ := h2.1.2 (h3 ▸ h4)
      exact ⟨fuel, n, _, h⟩
    · obtain ⟨fuel, n, h⟩ := h2.2.1.2 ⟨p, r, h3, h4, h5⟩
      exact ⟨fuel, n, _, h⟩

/-- C119: with the flag `color`, aminoscan prints the colored bytes of the argument behind the flags. -/
theorem C119_color {xs : List Setting} {a s : Bytes} {args rest : List Bytes} (h : Line xs (a :: args) (s :: rest))
    (hc : colorSet xs = true) (hs : s ≠ []) :
    (∀ bz, capital s = hexOf bz → ∃ text, aminoscan H fuel (a :: args) = .printed (text ++ ascii "\n") ∧ readColored text = some bz) ∧
    ((∀ bz, capital s ≠ hexOf bz) → aminoscan H fuel (a :: args) = .crashed) := by
  obtain ⟨b, s, rfl⟩ : ∃ b r, s = b :: r := by cases s with
    | nil => exact absurd rfl hs
    | cons b r => exact ⟨b, r, rfl⟩
  have h1 := (aminoscan_line H fuel h).1 hc
  simp only [colorArgs] at h1
  refine ⟨fun bz hb => ?_, fun hb => ?_⟩
  · obtain ⟨text, h2, h3⟩ := C96_color bz
    refine ⟨text, ?_, h3⟩
    rw [h1, (C96_hex _ bz).2 hb, ← h2]
  · have hd : hexDecode (b :: s) = none := by
      cases hd : hexDecode (b :: s) with
      | none => rfl
      | some bz => exact absurd ((C96_hex _ bz).1 hd) (hb bz)
    rw [h1, hd]

/-- C119: without arguments, or with the flag `color` and no bytes, aminoscan prints how it is used. -/
theorem C119_usage : aminoscan H fuel [] = .printed (ascii "Usage: aminoscan <STRUCT HEXBYTES> or --help\n") ∧
    ∀ {xs a args rest}, Line xs (a :: args) rest → colorSet xs = true → rest.headD [] = [] →
      aminoscan H fuel (a :: args) = .printed (ascii "Usage: aminoscan --color <HEXBYTES>\n") := by
  refine ⟨rfl, fun {xs a args rest} h hc hr => ?_⟩
  rw [(aminoscan_line H fuel h).1 hc]
  cases rest with
  | nil => rfl
  | cons w rest => cases w with
    | nil => rfl
    | cons _ _ => cases hr

/-- C119: with the flag `concrete-name`, aminoscan prints the disambiguation and prefix bytes that every codec uses for a
type registered with this name; MarshalBinaryBare puts these prefix bytes in front of every value of the type. -/
theorem C119_name {xs : List Setting} {a : Bytes} {args rest : List Bytes} (h : Line xs (a :: args) rest) (hc : colorSet xs = false)
    (hn : nameSet xs ≠ []) {Γ : Prog} {ops : List Op} {c : Codec} (hr : ({} : Codec).run Γ H ops = some c) {t : Ty}
    (ht : .conc t (nameSet xs) ∈ ops) : ∃ d p ci, aminoscan H fuel (a :: args) =
        .printed (ascii "Disamb bytes: " ++ hexOf d ++ ascii "\nPrefix bytes: " ++ hexOf p ++ ascii "\n") ∧
      c.conc? t.deref = some ci ∧ ci.name = nameSet xs ∧ ci.disamb = d ∧ ci.prefx = p ∧ d.length = 3 ∧ p.length = 4 ∧
      ∀ f v b, marshalBare Γ c f t v = .ok b → ∃ r, b = p ++ r := by
  obtain ⟨ci, h1, _, _, _, _, h2, h3⟩ := C29_found hr ht
  obtain ⟨l1, l2, _⟩ := C27_unambiguous h3 []
  refine ⟨ci.disamb, ci.prefx, ci, ?_, h1, h2, rfl, rfl, l1, l2, ?_⟩
  · rw [(aminoscan_line H fuel h).2.1 hc hn]
    unfold nameMain
    rw [h3]
    simp only [hexBytes_hexOf]
  · intro f v b hb
    unfold marshalBare at hb
    split at hb
    · cases hb
    · obtain ⟨_, _, hb⟩ := Res.bind_eq_ok hb
      obtain ⟨x, _, hb⟩ := Res.bind_eq_ok hb
      simp only [h1] at hb
      cases hb
      exact ⟨x, rfl⟩

/-- C119: the bytes printed are those of the digest of the name; there is a panic if the digest does not have them. -/
theorem C119_digest {xs : List Setting} {a : Bytes} {args rest : List Bytes} (h : Line xs (a :: args) rest) (hc : colorSet xs = false)
    (hn : nameSet xs ≠ []) :
    (∀ d p, DigestOf d p (H (nameSet xs)) → aminoscan H fuel (a :: args) =
        .printed (ascii "Disamb bytes: " ++ hexOf d ++ ascii "\nPrefix bytes: " ++ hexOf p ++ ascii "\n")) ∧
    ((∀ d p, ¬ DigestOf d p (H (nameSet xs))) → aminoscan H fuel (a :: args) = .crashed) := by
  rw [(aminoscan_line H fuel h).2.1 hc hn]
  unfold nameMain
  refine ⟨fun d p hd => ?_, fun hd => ?_⟩
  · rw [(C27_exact_partial H _ d p).2 hd]
    simp only [hexBytes_hexOf]
  · rw [(C27_panics H _).2 hd]

/-- C119: a command line that is not understood ends the program, and so does asking for help. -/
theorem C119_exit (a : Bytes) (args : List Bytes) :
    aminoscan H fuel (a :: args) = .exited ↔ ¬ ∃ xs rest, Line xs (a :: args) rest := by
  constructor
  · rintro h ⟨xs, rest, hl⟩
    have hl := aminoscan_line H fuel hl
    cases hc : colorSet xs with
    | true =>
      rw [hl.1 hc] at h
      unfold colorArgs at h
      split at h
      · cases h
      · cases h
      · split at h <;> cases h
    | false =>
      by_cases hn : nameSet xs = []
      · rw [hl.2.2 hc hn] at h
        split at h
        · cases h
        · unfold scanBytes at h; split at h <;> cases h
      · rw [hl.2.1 hc hn] at h
        unfold nameMain at h
        split at h <;> cases h
  · intro h
    cases hp : parseFlags {} (a :: args) with
    | none => unfold aminoscan; simp only [hp]
    | some r =>
      obtain ⟨fl, rest⟩ := r
      obtain ⟨xs, hl, _⟩ := (C119_flags _ fl rest).1 hp
      exact absurd ⟨xs, rest, hl⟩ h

/-! ## What is not so -/

/-- C119 is false for bytes behind flags, be it `--`: they are not scanned.  The program looks at its first argument, which
is a flag then, and panics. -/
theorem C119_behind_flags_refuted {xs : List Setting} {a : Bytes} {args rest : List Bytes} (h : Line xs (a :: args) rest)
    (hc : colorSet xs = false) (hn : nameSet xs = []) (hf : rest ≠ a :: args) : aminoscan H fuel (a :: args) = .crashed := by
  rw [(aminoscan_line H fuel h).2.2 hc hn]
  have : ∃ r, a = 0x2d :: r := by
    generalize e : a :: args = l at h hf
    cases h with
    | done => cases e
    | word _ => exact absurd rfl hf
    | stop => cases e; exact ⟨[0x2d], rfl⟩
    | flag hs _ =>
      cases hs with
      | color hd => cases hd <;> (cases e; exact ⟨_, rfl⟩)
      | colorEq hd _ => cases hd <;> (cases e; exact ⟨_, rfl⟩)
      | name hd => cases hd <;> (cases e; exact ⟨_, rfl⟩)
      | nameEq hd => cases hd <;> (cases e; exact ⟨_, rfl⟩)
  obtain ⟨r, rfl⟩ := this
  rw [hexDecode_dash]

/-- What aminoscan prints is one of the two usages or begins with another letter than the help. -/
theorem printed_ne {t : Bytes} (ht : t.head? = some 0x55) (h1 : t ≠ usageText) (h2 : t ≠ colorUsage) (args : List Bytes) :
    aminoscan H fuel args ≠ .printed t := by
  have ne1b : (0x1b : UInt8) ≠ 0x55 := by decide
  have ne44 : (0x44 : UInt8) ≠ 0x55 := by decide
  intro h
  cases args with
  | nil => exact h1 (Ran.printed.inj h).symm
  | cons a args =>
    unfold aminoscan at h
    cases hp : parseFlags {} (a :: args) with
    | none => simp only [hp] at h; cases h
    | some r =>
      obtain ⟨⟨c, n⟩, rest⟩ := r
      simp only [hp] at h
      split at h
      · split at h
        · exact h2 (Ran.printed.inj h).symm
        · exact h2 (Ran.printed.inj h).symm
        · split at h
          · rename_i bz _
            have h := Ran.printed.inj h
            subst h
            cases bz with
            | nil => exact absurd ht (by decide)
            | cons b bz =>
              unfold colorMain coloredBytes at ht
              split at ht <;> exact absurd (Option.some.inj ht : (0x1b : UInt8) = 0x55) ne1b
          · cases h
      · split at h
        · unfold nameMain at h
          split at h
          · have h := Ran.printed.inj h
            subst h
            exact absurd (Option.some.inj ht : (0x44 : UInt8) = 0x55) ne44
          · cases h
        · split at h
          · cases h
          · split at h
            · rename_i hs
              have h := Ran.printed.inj h
              subst h
              unfold scanMain at hs
              split at hs
              · have hs := Option.some.inj hs
                subst hs
                exact absurd (Option.some.inj ht : (0x1b : UInt8) = 0x55) ne1b
              · cases hs
            · cases h

/-- C119 is false for `--help`: no arguments make aminoscan print its help. -/
theorem C119_help_refuted (args : List Bytes) : aminoscan H fuel args ≠ .printed helpText :=
  printed_ne H fuel (by decide +kernel) (by decide +kernel) (by decide +kernel) args

end

/-! ## Examples -/

/-- `aminoscan -- 0801` and `aminoscan --color=false 0801`. -/
example : Line [] [ascii "--", ascii "0801"] [ascii "0801"] ∧
    Line [.color false] [ascii "--color=false", ascii "0801"] [ascii "0801"] :=
  ⟨.stop, .flag (.colorEq .two (by decide)) (.word (.inr (by decide)))⟩

example : aminoscan Demo.hash 9 [ascii "--help"] = .exited ∧ aminoscan Demo.hash 9 [ascii "--", ascii "0801"] = .crashed ∧
    aminoscan Demo.hash 9 [ascii "-concrete-name", ascii "f"] =
      .printed (ascii "Disamb bytes: 070707\nPrefix bytes: 01020304\n") := by decide +kernel

/-- A codec that has the type. -/
example : ∃ c, ({} : Codec).run Demo.prog Demo.hash [.conc (.base Demo.fooT) [102]] = some c ∧
    Line [.name [102]] [ascii "-concrete-name", ascii "f"] [] ∧ (Op.conc (.base Demo.fooT) (nameSet [.name [102]])) ∈ [Op.conc (.base Demo.fooT) [102]] :=
  ⟨(({} : Codec).run Demo.prog Demo.hash [.conc (.base Demo.fooT) [102]]).get (by decide +kernel), by decide +kernel,
    .flag (.name .one) .done, by decide⟩

/-- `aminoscan --color`. -/
example : Line [.color true] [ascii "--color"] [] ∧ colorSet [.color true] = true := ⟨.flag (.color .two) .done, rfl⟩

/-- `aminoscan --color 4120`. -/
example : Line [.color true] [ascii "--color", ascii "4120"] [ascii "4120"] ∧ capital (ascii "4120") = hexOf [0x41, 0x20] :=
  ⟨.flag (.color .two) (.word (.inr (by decide))), by decide⟩

end Amino
