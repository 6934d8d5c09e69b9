import Verif.PrintTypes
import Verif.PropsReg

/-! # C91: the table written by `PrintTypes` -/

namespace Amino
open Spec

variable {Γ : Prog} {H : Bytes → Bytes} {tname : TId → Bytes} {size : TId → Nat}

/-! ## Specification: how the table is read -/

/-- The pieces between the separators. -/
def Spec.cut (sep : UInt8) : Bytes → List Bytes
  | [] => [[]]
  | b :: bs =>
    if b = sep then [] :: cut sep bs
    else match cut sep bs with
      | [] => [[b]]
      | x :: xs => (b :: x) :: xs

/-- Without the space at either end. -/
def Spec.trim (bz : Bytes) : Bytes := (bz.drop 1).dropLast

/-- The value of a digit `0`-`9`, `A`-`F`. -/
def Spec.digit16 (b : UInt8) : Nat := if b.toNat < 0x40 then b.toNat - 0x30 else b.toNat - 0x37

/-- The bytes written in hexadecimal. -/
def Spec.unhex : Bytes → Bytes
  | a :: b :: r => UInt8.ofNat (digit16 a * 16 + digit16 b) :: unhex r
  | _ => []

/-- Type name, registered name, prefix bytes and length of a row. -/
def Spec.readRow (line : Bytes) : Option (Bytes × Bytes × Bytes × Bytes) :=
  match cut 0x7c line with
  | [[], t, n, p, l, _, []] => some (trim t, trim n, unhex ((trim p).drop 2), trim l)
  | _ => none

/-- The rows below the two lines of the header. -/
def Spec.readTable (bz : Bytes) : List (Option (Bytes × Bytes × Bytes × Bytes)) :=
  (((cut 0x0a bz).drop 2).dropLast).map readRow

/-- The Length column: a size in hexadecimal, or none if it says variable. -/
def Spec.readLength (l : Bytes) : Option Nat :=
  if l = ascii "variable" then none else some ((l.drop 2).foldl (fun n b => 16 * n + digit16 b) 0)

/-- The types with a size in the table: arrays, floats and the signed integers other than `int`. -/
def Spec.sized : Shape → Bool
  | .array _ _ | .float32 | .float64 => true
  | .int k => k = .int8 ∨ k = .int16 ∨ k = .int32 ∨ k = .int64
  | .bool | .string | .time | .iface | .slice _ | .struct _ | .map _ => false

/-- The writer has taken these strings, one after the other, without an error. -/
def Spec.Took {σ : Type} (W : σ → Bytes → σ × Option Err) : σ → List Bytes → σ → Prop
  | s, [], s' => s' = s
  | s, b :: bs, s' => ∃ s1, W s b = (s1, none) ∧ Took W s1 bs s'

/-! ## Reading what was written -/

theorem cut_ne (sep : UInt8) (bz : Bytes) : cut sep bz ≠ [] := by
  induction bz with
  | nil => simp [cut]
  | cons b bs ih =>
    rw [cut]
    split
    · simp
    · split <;> simp

theorem cut_last {sep : UInt8} {a : Bytes} (h : sep ∉ a) : cut sep a = [a] := by
  induction a with
  | nil => rfl
  | cons b a ih =>
    simp only [List.mem_cons, not_or] at h
    rw [cut, if_neg (fun e => h.1 e.symm), ih h.2]

theorem cut_cons {sep : UInt8} {a : Bytes} (h : sep ∉ a) (r : Bytes) : cut sep (a ++ sep :: r) = a :: cut sep r := by
  induction a with
  | nil => simp [cut]
  | cons b a ih =>
    simp only [List.mem_cons, not_or] at h
    rw [List.cons_append, cut, if_neg (fun e => h.1 e.symm), ih h.2]

theorem upperHex_facts (n : Nat) (h : n < 16) :
    digit16 (upperHex n) = n ∧ upperHex n ≠ 0x7c ∧ upperHex n ≠ 0x0a := by
  have : ∀ n : Fin 16, digit16 (upperHex n.val) = n.val ∧ upperHex n.val ≠ 0x7c ∧ upperHex n.val ≠ 0x0a := by
    decide +kernel
  exact this ⟨n, h⟩

theorem unhex_hexBytes (b : Bytes) : unhex (hexBytes b) = b := by
  induction b with
  | nil => rfl
  | cons x b ih =>
    have hx : x.toNat < 256 := x.toNat_lt
    rw [hexBytes, unhex, ih, (upperHex_facts _ (by omega)).1, (upperHex_facts _ (by omega)).1]
    congr 1
    have : x.toNat / 16 * 16 + x.toNat % 16 = x.toNat := by omega
    rw [this]
    simp

theorem hexBytes_plain (b : Bytes) : 0x7c ∉ hexBytes b ∧ 0x0a ∉ hexBytes b := by
  induction b with
  | nil => simp [hexBytes]
  | cons x b ih =>
    have hx : x.toNat < 256 := x.toNat_lt
    have h1 := upperHex_facts (x.toNat / 16) (by omega)
    have h2 := upperHex_facts (x.toNat % 16) (by omega)
    simp only [hexBytes, List.mem_cons, not_or]
    exact ⟨⟨h1.2.1.symm, h2.2.1.symm, ih.1⟩, h1.2.2.symm, h2.2.2.symm, ih.2⟩

theorem hexNat_plain (k n : Nat) : 0x7c ∉ hexNat k n ∧ 0x0a ∉ hexNat k n := by
  induction k generalizing n with
  | zero => simp [hexNat]
  | succ k ih =>
    rw [hexNat]
    split
    · rename_i h
      have h1 := upperHex_facts n h
      simp only [List.mem_singleton]
      exact ⟨h1.2.1.symm, h1.2.2.symm⟩
    · have h1 := upperHex_facts (n % 16) (by omega)
      simp only [List.mem_append, List.mem_singleton, not_or]
      exact ⟨⟨(ih _).1, h1.2.1.symm⟩, (ih _).2, h1.2.2.symm⟩

theorem lengthStr_plain (sh : Shape) (n : Nat) : 0x7c ∉ lengthStr sh n ∧ 0x0a ∉ lengthStr sh n := by
  have h0 : (0x7c : UInt8) ∉ ascii "0x" ∧ 0x0a ∉ ascii "0x" := by decide +kernel
  have hv : (0x7c : UInt8) ∉ ascii "variable" ∧ 0x0a ∉ ascii "variable" := by decide +kernel
  have hx := hexNat_plain (n + 1) n
  have key : (0x7c : UInt8) ∉ ascii "0x" ++ hexNat (n + 1) n ∧ 0x0a ∉ ascii "0x" ++ hexNat (n + 1) n := by
    simp only [List.mem_append, not_or]; exact ⟨⟨h0.1, hx.1⟩, h0.2, hx.2⟩
  unfold lengthStr
  split <;> assumption

theorem hexNat_value (k n : Nat) (h : n < 16 ^ k) : (hexNat k n).foldl (fun n b => 16 * n + digit16 b) 0 = n := by
  induction k generalizing n with
  | zero => rw [hexNat, List.foldl_nil]; simp at h; omega
  | succ k ih =>
    rw [hexNat]
    split
    · rename_i hn
      simp only [List.foldl_cons, List.foldl_nil, (upperHex_facts n hn).1]; omega
    · rw [Nat.pow_succ] at h
      rw [List.foldl_append, ih (n / 16) (by omega)]
      simp only [List.foldl_cons, List.foldl_nil, (upperHex_facts (n % 16) (by omega)).1]
      omega

theorem readLength_str (sh : Shape) (n : Nat) : readLength (lengthStr sh n) = if sized sh then some n else none := by
  have hp : n < 16 ^ (n + 1) := Nat.lt_of_lt_of_le (Nat.lt_pow_self (by omega)) (Nat.pow_le_pow_right (by omega) (by omega))
  have hx : readLength (ascii "0x" ++ hexNat (n + 1) n) = some n := by
    have e0 : ascii "0x" = [0x30, 0x78] := by decide +kernel
    have ev : ascii "variable" = [0x76, 0x61, 0x72, 0x69, 0x61, 0x62, 0x6c, 0x65] := by decide +kernel
    unfold readLength
    rw [e0, ev, if_neg (by simp)]
    simp only [List.cons_append, List.nil_append, List.drop_succ_cons, List.drop_zero, hexNat_value _ _ hp]
  have hv : readLength (ascii "variable") = none := by unfold readLength; rw [if_pos rfl]
  cases sh with
  | int k => cases k <;> simp only [lengthStr, hx, hv] <;> rfl
  | _ => simp only [lengthStr, hx, hv] <;> rfl

theorem trim_spaces (x : Bytes) : trim (0x20 :: (x ++ [0x20])) = x := by
  unfold trim; simp

/-- A row without its line feed. -/
def rowBody (t n p l : Bytes) : Bytes :=
  [] ++ 0x7c :: ((0x20 :: (t ++ [0x20])) ++ 0x7c :: ((0x20 :: (n ++ [0x20])) ++ 0x7c :: ((0x20 :: (p ++ [0x20])) ++
    0x7c :: ((0x20 :: (l ++ [0x20])) ++ 0x7c :: ([0x20, 0x20] ++ 0x7c :: [])))))

theorem printRow_flatten (ci : ConcInfo) :
    (printRow Γ tname size ci).flatten =
      rowBody (tname ci.tid) ci.name (ascii "0x" ++ hexBytes ci.prefx) (lengthStr (Γ.shape ci.tid) (size ci.tid)) ++ [0x0a] := by
  have e1 : ascii "| " = [0x7c, 0x20] := by decide +kernel
  have e2 : ascii " | " = [0x20, 0x7c, 0x20] := by decide +kernel
  have e3 : ascii " |\n" = [0x20, 0x7c, 0x0a] := by decide +kernel
  simp only [printRow, rowBody, e1, e2, e3, List.flatten_cons, List.flatten_nil, List.append_assoc, List.cons_append,
    List.nil_append, List.append_nil]

theorem readRow_body {t n p l : Bytes} (ht : 0x7c ∉ t) (hn : 0x7c ∉ n) (hp : 0x7c ∉ p) (hl : 0x7c ∉ l) :
    readRow (rowBody t n p l) = some (t, n, unhex (p.drop 2), l) := by
  have pad : ∀ x : Bytes, 0x7c ∉ x → (0x7c : UInt8) ∉ 0x20 :: (x ++ [0x20]) := by
    intro x hx
    simp only [List.mem_cons, List.mem_append, not_or]
    exact ⟨by decide, hx, by decide⟩
  have e : cut 0x7c (rowBody t n p l) =
      [[], 0x20 :: (t ++ [0x20]), 0x20 :: (n ++ [0x20]), 0x20 :: (p ++ [0x20]), 0x20 :: (l ++ [0x20]), [0x20, 0x20], []] := by
    unfold rowBody
    rw [cut_cons (by simp), cut_cons (pad t ht), cut_cons (pad n hn), cut_cons (pad p hp), cut_cons (pad l hl),
      cut_cons (by decide), cut]
  unfold readRow
  rw [e]
  simp only [trim_spaces]

theorem cut_rows (rows : List Bytes) (h : ∀ r ∈ rows, 0x0a ∉ r) :
    cut 0x0a (rows.flatMap fun r => r ++ [0x0a]) = rows ++ [[]] := by
  induction rows with
  | nil => rfl
  | cons r rows ih =>
    rw [List.flatMap_cons, List.append_assoc, List.singleton_append, cut_cons (h r (by simp)),
      ih fun x hx => h x (by simp [hx])]
    rfl

theorem rowBody_plain {t n p l : Bytes} (ht : 0x0a ∉ t) (hn : 0x0a ∉ n) (hp : 0x0a ∉ p) (hl : 0x0a ∉ l) :
    0x0a ∉ rowBody t n p l := by
  simp only [rowBody, List.mem_cons, List.mem_append, List.not_mem_nil, not_or, or_false, false_or]
  refine ⟨by decide, ⟨by decide, ht, by decide⟩, by decide, ⟨by decide, hn, by decide⟩, by decide, ⟨by decide, hp, by decide⟩,
    by decide, ⟨by decide, hl, by decide⟩, by decide, ⟨by decide, by decide⟩, by decide⟩

theorem readTable_chunks {c : Codec} (ht : ∀ ci ∈ c.concs, 0x7c ∉ tname ci.tid ∧ 0x0a ∉ tname ci.tid)
    (hn : ∀ ci ∈ c.concs, 0x7c ∉ ci.name ∧ 0x0a ∉ ci.name) :
    readTable (printChunks Γ tname size c).flatten =
      c.concs.map fun ci => some (tname ci.tid, ci.name, ci.prefx, lengthStr (Γ.shape ci.tid) (size ci.tid)) := by
  let body := fun ci : ConcInfo =>
    rowBody (tname ci.tid) ci.name (ascii "0x" ++ hexBytes ci.prefx) (lengthStr (Γ.shape ci.tid) (size ci.tid))
  have h0 : (0x7c : UInt8) ∉ ascii "0x" ∧ 0x0a ∉ ascii "0x" := by decide +kernel
  have hp : ∀ ci : ConcInfo, 0x7c ∉ ascii "0x" ++ hexBytes ci.prefx ∧ 0x0a ∉ ascii "0x" ++ hexBytes ci.prefx := by
    intro ci
    have := hexBytes_plain ci.prefx
    simp only [List.mem_append, not_or]; exact ⟨⟨h0.1, this.1⟩, h0.2, this.2⟩
  obtain ⟨l1, hl1, e1⟩ : ∃ l, (0x0a : UInt8) ∉ l ∧ ascii "| Type | Name | Prefix | Length | Notes |\n" = l ++ [0x0a] :=
    ⟨(ascii "| Type | Name | Prefix | Length | Notes |\n").dropLast, by decide +kernel, by decide +kernel⟩
  obtain ⟨l2, hl2, e2⟩ : ∃ l, (0x0a : UInt8) ∉ l ∧ ascii "| ---- | ---- | ------ | ----- | ------ |\n" = l ++ [0x0a] :=
    ⟨(ascii "| ---- | ---- | ------ | ----- | ------ |\n").dropLast, by decide +kernel, by decide +kernel⟩
  have e : (printChunks Γ tname size c).flatten = (l1 :: l2 :: c.concs.map body).flatMap fun r => r ++ [0x0a] := by
    have hf : ∀ cs : List ConcInfo, (cs.flatMap (printRow Γ tname size)).flatten =
        (cs.map body).flatMap fun r => r ++ [0x0a] := by
      intro cs
      induction cs with
      | nil => rfl
      | cons ci cs ih =>
        rw [List.flatMap_cons, List.flatten_append, ih, printRow_flatten, List.map_cons, List.flatMap_cons]
    rw [printChunks, List.flatten_append, hf, e1, e2]
    simp
  unfold readTable
  rw [e, cut_rows]
  · simp only [List.cons_append, List.drop_succ_cons, List.drop_zero, List.dropLast_concat, List.map_map]
    refine List.map_congr_left fun ci hci => ?_
    show readRow (body ci) = _
    rw [readRow_body (ht ci hci).1 (hn ci hci).1 (hp ci).1 (lengthStr_plain _ _).1]
    have : (ascii "0x" ++ hexBytes ci.prefx).drop 2 = hexBytes ci.prefx := by
      have : ascii "0x" = [0x30, 0x78] := by decide +kernel
      rw [this]; rfl
    rw [this, unhex_hexBytes]
  · intro r hr
    rcases List.mem_cons.1 hr with rfl | hr
    · exact hl1
    rcases List.mem_cons.1 hr with rfl | hr
    · exact hl2
    obtain ⟨ci, hci, rfl⟩ := List.mem_map.1 hr
    exact rowBody_plain (ht ci hci).2 (hn ci hci).2 (hp ci).2 (lengthStr_plain _ _).2

theorem writeAll_spec {σ : Type} (W : σ → Bytes → σ × Option Err) (bs : List Bytes) (s : σ) :
    (∃ s', writeAll W s bs = (s', none) ∧ Took W s bs s') ∨
    ∃ a b r s1 s' e, bs = a ++ b :: r ∧ Took W s a s1 ∧ W s1 b = (s', some e) ∧ writeAll W s bs = (s', some e) := by
  induction bs generalizing s with
  | nil => exact .inl ⟨s, rfl, rfl⟩
  | cons b bs ih =>
    rw [writeAll]
    rcases hw : W s b with ⟨s1, e⟩
    cases e with
    | none =>
      rcases ih s1 with ⟨s', h1, h2⟩ | ⟨a, b', r, s2, s', e, h1, h2, h3, h4⟩
      · exact .inl ⟨s', h1, s1, hw, h2⟩
      · exact .inr ⟨b :: a, b', r, s2, s', e, by rw [h1]; rfl, ⟨s1, hw, h2⟩, h3, h4⟩
    | some e => exact .inr ⟨[], b, bs, s, s1, e, rfl, rfl, hw, rfl⟩

/-- C91: whatever the writer, `PrintTypes` either hands it a complete table without meeting an error and returns nil, or
stops at the first error and returns it, having handed over a beginning of that table.  Read back, the table lists the
types, names and prefix bytes that were registered, in this order and nothing else, if no name contains `|` or a line feed.
The Length column has the size in memory for arrays, floats and signed integers.
Missing for the full statement: the Length column is not the length of the encoding, see `C91_length_refuted`. -/
theorem C91_table_partial {ops : List Op} {c : Codec} (hr : ({} : Codec).run Γ H ops = some c)
    (ht : ∀ t n, .conc t n ∈ ops → 0x7c ∉ tname t.deref ∧ 0x0a ∉ tname t.deref ∧ 0x7c ∉ n ∧ 0x0a ∉ n)
    {σ : Type} (W : σ → Bytes → σ × Option Err) (s : σ) :
    ∃ table : Bytes,
      ((readTable table).map fun r => r.map fun x => (x.1, x.2.1, x.2.2.1, readLength x.2.2.2)) =
        ops.filterMap (fun op => match op with
          | .conc t n => match nameToDisfix H n with
            | .ok dp => some (some (tname t.deref, n, dp.2, if sized (Γ.shape t.deref) then some (size t.deref) else none))
            | _ => none
          | _ => none) ∧
      ((∃ bs s', bs.flatten = table ∧ Took W s bs s' ∧ printTypes Γ tname size W s c = (s', none)) ∨
       ∃ bs b rest s1 s' e, bs.flatten ++ b ++ rest = table ∧ Took W s bs s1 ∧ W s1 b = (s', some e) ∧
         printTypes Γ tname size W s c = (s', some e)) := by
  have inv := run_inv hr
  have hcs : ∀ ci ∈ c.concs, (0x7c ∉ tname ci.tid ∧ 0x0a ∉ tname ci.tid) ∧ 0x7c ∉ ci.name ∧ 0x0a ∉ ci.name := by
    intro ci hci
    obtain ⟨op, ho, hop⟩ := inv.mem_conc.1 hci
    obtain ⟨t, n, rfl, h1, _, h2, _⟩ := concOf_some hop
    have := ht t n ho
    rw [h1, h2]
    exact ⟨⟨this.1, this.2.1⟩, this.2.2⟩
  refine ⟨(printChunks Γ tname size c).flatten, ?_, ?_⟩
  · rw [readTable_chunks (fun ci h => (hcs ci h).1) fun ci h => (hcs ci h).2, inv.concs]
    simp only [concsOf, List.map_filterMap]
    refine congrArg (fun f => List.filterMap f ops) (funext fun op => ?_)
    cases op with
    | conc t n =>
      simp only [concOf]
      cases nameToDisfix H n with
      | ok dp => simp only [Option.map_some, readLength_str]
      | _ => rfl
    | _ => rfl
  · rcases writeAll_spec W (printChunks Γ tname size c) s with ⟨s', h1, h2⟩ | ⟨a, b, r, s1, s', e, h1, h2, h3, h4⟩
    · exact .inl ⟨_, s', rfl, h2, h1⟩
    · refine .inr ⟨a, b, r.flatten, s1, s', e, ?_, h2, h3, h4⟩
      rw [h1]; simp

/-- The table of the demonstration codec, into a buffer. -/
example : printTypes Demo.prog (fun id => [0x54, 0x30 + UInt8.ofNat id]) (fun _ => 8)
    (fun (s : Bytes) b => (s ++ b, none)) [] Demo.codec =
    (ascii ("| Type | Name | Prefix | Length | Notes |\n| ---- | ---- | ------ | ----- | ------ |\n" ++
      "| T8 | f | 0x01020304 | variable |  |\n| T9 | b | 0x05060708 | variable |  |\n" ++
      "| T@ | s | 0x0B0C0D0E | variable |  |\n"), none) := by decide +kernel

/-- A writer that takes 100 bytes. -/
example : (printTypes Demo.prog (fun _ => [0x54]) (fun _ => 8)
    (fun (s : Bytes) b => if s.length + b.length ≤ 100 then (s ++ b, none) else (s, some .ioEOF)) [] Demo.codec).2 =
    some .ioEOF := by decide +kernel

/-- The Length column promises a fixed length for integers, which are written with a varying number of bytes: the row of a
registered int32 says 4, its values are written in 6 or more bytes, of which 5 are prefix and field key. -/
theorem C91_length_refuted : ∃ c, ({} : Codec).run Demo.prog Demo.hash [.conc (.base Demo.int32T) [102]] = some c ∧
    readTable (printTypes Demo.prog (fun _ => [0x54]) (fun _ => 4) (fun (s : Bytes) b => (s ++ b, none)) [] c).1 =
      [some ([0x54], [102], [1, 2, 3, 4], ascii "0x4")] ∧
    marshalBare Demo.prog c 9 (.base Demo.int32T) (.int 1) = .ok [1, 2, 3, 4, 8, 1] ∧
    marshalBare Demo.prog c 9 (.base Demo.int32T) (.int 300) = .ok [1, 2, 3, 4, 8, 172, 2] := by
  refine ⟨(({} : Codec).run Demo.prog Demo.hash [.conc (.base Demo.int32T) [102]]).get (by decide +kernel), ?_⟩
  decide +kernel

/-- A name with a `|` spoils the table. -/
theorem C91_names_refuted : ∃ c, ({} : Codec).run Demo.prog Demo.hash [.conc (.base Demo.strT) [97, 0x7c, 98]] = some c ∧
    readTable (printTypes Demo.prog (fun _ => [0x54]) (fun _ => 4) (fun (s : Bytes) b => (s ++ b, none)) [] c).1 = [none] := by
  refine ⟨(({} : Codec).run Demo.prog Demo.hash [.conc (.base Demo.strT) [97, 0x7c, 98]]).get (by decide +kernel), ?_⟩
  decide +kernel

end Amino
