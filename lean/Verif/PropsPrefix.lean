import Verif.PrefixApi
import Verif.PropsDisfix
import Verif.PropsApi
import Verif.SentLemmas

/-!
# C120: telling messages apart by their prefix
-/

namespace Amino

open Spec

theorem equalBytes_iff (a b : Bytes) : equalBytes a b = true ↔ a = b := by
  unfold equalBytes
  induction a generalizing b with
  | nil => cases b <;> simp
  | cons x a ih =>
    cases b with
    | nil => simp
    | cons y b =>
      have := ih b
      simp only [Bool.and_eq_true, beq_iff_eq] at this
      simp only [List.length_cons, List.zip_cons_cons, List.all_cons, Bool.and_eq_true, beq_iff_eq, Nat.add_right_cancel_iff, List.cons.injEq]
      rw [← this]
      constructor
      · rintro ⟨h1, h2, h3⟩; exact ⟨h2, h1, h3⟩
      · rintro ⟨h1, h2, h3⟩; exact ⟨h2, h1, h3⟩

theorem newPrefixBytes_app {p : Bytes} (h : p.length = 4) (r : Bytes) : newPrefixBytes (p ++ r) = p := by
  unfold newPrefixBytes
  have e : (p ++ r).take 4 = p := by rw [← h, List.take_left]
  rw [e, List.drop_eq_nil_of_le (by rw [List.length_append, List.length_replicate]; omega), List.append_nil]

/-- C120: four bytes, whatever they are made from. -/
theorem C120_length (b : Bytes) : (newPrefixBytes b).length = 4 := by
  unfold newPrefixBytes
  rw [List.length_append, List.length_take, List.length_drop, List.length_replicate]
  omega

/-- C120: the prefix of a byte string of at least four bytes is found if and only if it begins with it.  Missing for the full
statement: shorter byte strings, see `C120_short_refuted`. -/
theorem C120_begins_partial {b p : Bytes} (hb : 4 ≤ b.length) (hp : p.length = 4) :
    equalBytes (newPrefixBytes b) p = true ↔ ∃ r, b = p ++ r := by
  rw [equalBytes_iff]
  constructor
  · intro h
    refine ⟨b.drop 4, ?_⟩
    have e : newPrefixBytes b = b.take 4 := by
      unfold newPrefixBytes
      rw [List.drop_eq_nil_of_le (by rw [List.length_replicate]; omega), List.append_nil]
    rw [← h, e, List.take_append_drop]
  · rintro ⟨r, rfl⟩
    exact newPrefixBytes_app hp r

section
variable {Γ : Prog} {H : Bytes → Bytes} {ops : List Op} {c : Codec}

/-- C120: the prefix bytes of a message of a registered type are those of its name. -/
theorem C120_message (hr : ({} : Codec).run Γ H ops = some c) {t : Ty} {name d p : Bytes} (ht : .conc t name ∈ ops)
    (hn : nameToDisfix H name = .ok (d, p)) {fuel : Nat} {v : Val} {b : Bytes} (h : marshalBare Γ c fuel t v = .ok b) :
    equalBytes (newPrefixBytes b) p = true := by
  obtain ⟨ci, h1, _, _, _, _, _, h3⟩ := C29_found hr ht
  rw [hn] at h3
  cases h3
  rw [equalBytes_iff]
  unfold marshalBare at h
  split at h
  · cases h
  · obtain ⟨_, _, h⟩ := Res.bind_eq_ok h
    obtain ⟨x, _, h⟩ := Res.bind_eq_ok h
    simp only [h1] at h
    cases h
    exact newPrefixBytes_app (C27_unambiguous hn []).2.1 x

/-- C120: in a message of MarshalBinaryLengthPrefixed, the prefix bytes stand behind the count, where DecodeUvarint ends. -/
theorem C120_prefixed (hr : ({} : Codec).run Γ H ops = some c) {t : Ty} {name d p : Bytes} (ht : .conc t name ∈ ops)
    (hn : nameToDisfix H name = .ok (d, p)) {fuel : Nat} {v : Val} {b : Bytes} (h : marshalLP Γ c fuel t v = .ok b)
    (hl : b.length < 2 ^ 63) :
    ∃ n u, decodeUvarint b = .ok n u ∧ n + u.toNat = b.length ∧ equalBytes (newPrefixBytes (b.drop n)) p = true := by
  obtain ⟨m, h1, h⟩ := Res.bind_eq_ok h
  rw [encodeUvarint_eq, Res.bind_ok] at h
  cases h
  rw [List.length_append] at hl
  have e : (UInt64.ofNat m.length).toNat = m.length := by rw [UInt64.toNat_ofNat']; omega
  refine ⟨(varint m.length).length, UInt64.ofNat m.length, ?_, ?_, ?_⟩
  · rw [e]; exact number_of (number_minimal (by omega))
  · rw [List.length_append, e]
  · rw [e, List.drop_left]; exact C120_message hr ht hn h1

/-- C120: messages of registered types have the same prefix bytes if and only if the names do. -/
theorem C120_tells (hr : ({} : Codec).run Γ H ops = some c) {t t' : Ty} {name name' d d' p p' : Bytes} (ht : .conc t name ∈ ops)
    (ht' : .conc t' name' ∈ ops) (hn : nameToDisfix H name = .ok (d, p)) (hn' : nameToDisfix H name' = .ok (d', p'))
    {fuel fuel' : Nat} {v v' : Val} {b b' : Bytes} (h : marshalBare Γ c fuel t v = .ok b) (h' : marshalBare Γ c fuel' t' v' = .ok b') :
    equalBytes (newPrefixBytes b) (newPrefixBytes b') = true ↔ p = p' := by
  rw [equalBytes_iff, (equalBytes_iff _ _).1 (C120_message hr ht hn h), (equalBytes_iff _ _).1 (C120_message hr ht' hn' h')]

/-- C120: what can be read into a registered type has the prefix bytes of its name; so a message can be dispatched on them. -/
theorem C120_reads (hr : ({} : Codec).run Γ H ops = some c) {t : Ty} {name d p : Bytes} (ht : .conc t name ∈ ops)
    (hn : nameToDisfix H name = .ok (d, p)) {fuel : Nat} {prior v : Val} {b : Bytes} (h : unmarshalBare Γ c fuel t prior b = .ok v) :
    equalBytes (newPrefixBytes b) p = true := by
  obtain ⟨ci, h1, _, _, _, _, _, h3⟩ := C29_found hr ht
  rw [hn] at h3
  cases h3
  rw [equalBytes_iff]
  unfold unmarshalBare at h
  obtain ⟨_, _, h⟩ := Res.bind_eq_ok h
  obtain ⟨x, hx, h⟩ := Res.bind_eq_ok h
  unfold stripPrefix at hx
  simp only [h1] at hx
  split at hx
  · cases hx
  · rename_i hl
    split at hx
    · cases hx
    · rename_i hp
      have e : b.take 4 = ci.prefx := Classical.not_not.mp hp
      refine (equalBytes_iff _ _).1 ((C120_begins_partial (by omega) (C27_unambiguous hn []).2.1).2 ⟨b.drop 4, ?_⟩)
      rw [← e, List.take_append_drop]

/-- C120: a value behind an interface that is written with disambiguation bytes is not taken for one with prefix bytes. -/
theorem C120_disamb {name name' d d' p p' : Bytes} (_hn : nameToDisfix H name = .ok (d, p)) (hn' : nameToDisfix H name' = .ok (d', p'))
    (r : Bytes) : equalBytes (newPrefixBytes (0 :: d ++ p ++ r)) p' = false := by
  have h1 := (C27_unambiguous hn' []).2.2.2.1
  cases he : equalBytes (newPrefixBytes (0 :: d ++ p ++ r)) p' with
  | false => rfl
  | true =>
    rw [equalBytes_iff] at he
    rw [← he] at h1
    exact absurd rfl h1

end

/-- C120 is false for short byte strings: the bytes `01 02 03` are taken for the prefix `01 02 03 00`, and are no message of
the type. -/
theorem C120_short_refuted : ∃ (H : Bytes → Bytes) (c : Codec) (d p b : Bytes),
    ({} : Codec).run Demo.prog H [.conc (.base Demo.fooT) [102]] = some c ∧ nameToDisfix H [102] = .ok (d, p) ∧
    equalBytes (newPrefixBytes b) p = true ∧ (¬ ∃ r, b = p ++ r) ∧
    ∀ v, unmarshalBare Demo.prog c 5 (.base Demo.fooT) (.struct [.int 0]) b ≠ .ok v := by
  refine ⟨fun _ => [7, 7, 7, 1, 2, 3, 0] ++ List.replicate 25 9, _, [7, 7, 7], [1, 2, 3, 0], [1, 2, 3], rfl, by decide +kernel, by decide, ?_, ?_⟩
  · rintro ⟨r, h⟩
    have := congrArg List.length h
    simp at this
  · intro v h
    cases h

/-- A message behind its count. -/
example : marshalLP Demo.prog Demo.codec 5 (.base Demo.fooT) (.struct [.int 7]) = .ok [6, 1, 2, 3, 4, 8, 7] := by decide +kernel

/-- Two registered types with different prefixes. -/
example : ∃ c, ({} : Codec).run Demo.prog Demo.hash Demo.ops = some c ∧
    (∃ b, marshalBare Demo.prog c 5 (.base Demo.fooT) (.struct [.int 7]) = .ok b ∧ newPrefixBytes b = [1, 2, 3, 4]) ∧
    ∃ b, marshalBare Demo.prog c 5 (.base Demo.barT) (.struct [.str [65]]) = .ok b ∧ newPrefixBytes b = [5, 6, 7, 8] :=
  ⟨_, Demo.run_ops, ⟨_, rfl, by decide +kernel⟩, ⟨_, rfl, by decide +kernel⟩⟩

end Amino
