import Verif.Demo
import Verif.PrimLemmas2

/-! # Properties C12, C18, C28, C40, C55: the API wrappers -/

namespace Amino
open Spec

variable {Γ : Prog} {c : Codec}

theorem marshalLP_ok {f : Nat} {t : Ty} {v : Val} {bz : Bytes} (h : marshalLP Γ c f t v = .ok bz) :
    ∃ b, marshalBare Γ c f t v = .ok b ∧ bz = varint (b.length % 2 ^ 64) ++ b := by
  unfold marshalLP at h
  obtain ⟨b, h1, h2⟩ := Res.bind_eq_ok h
  rw [encodeUvarint_eq] at h2
  simp at h2
  exact ⟨b, h1, by rw [← h2]⟩

/-- C12: the length-prefixed form is the varint of the length followed by the bare form, and decoding it
is decoding the bare bytes.  (No Go slice is 2^63 bytes long.) -/
theorem C12_lengthPrefixed (f g : Nat) (t t' : Ty) (v p : Val) (bz : Bytes)
    (h : marshalLP Γ c f t v = .ok bz) (hl : bz.length < 2 ^ 63) :
    ∃ b, marshalBare Γ c f t v = .ok b ∧ bz = varint b.length ++ b ∧
      unmarshalLP Γ c g t' p bz = unmarshalBare Γ c g t' p b := by
  obtain ⟨b, h1, h2⟩ := marshalLP_ok h
  have hb : b.length ≤ bz.length := by rw [h2]; simp
  rw [Nat.mod_eq_of_lt (by omega)] at h2
  refine ⟨b, h1, h2, ?_⟩
  subst h2
  unfold unmarshalLP
  have hv := varint_length_pos b.length
  have hu := varint_u64_length b.length (by omega)
  have he : uvarint (varint b.length ++ b) = (UInt64.ofNat b.length, ((varint b.length).length : Int)) := by
    rw [uvarint_eq, readVarint_varint]
    simp only
    rw [if_pos ⟨hu, by omega⟩]
  have hm : b.length % 18446744073709551616 = b.length := Nat.mod_eq_of_lt (by omega)
  rw [if_neg (by rw [List.length_append]; omega)]
  simp only [he]
  rw [if_neg (by omega)]
  simp [hm]

example : marshalLP Demo.prog Demo.codec 5 (.base Demo.subT) (.struct [.int 3, .bool true]) =
    .ok [4, 8, 3, 16, 1] := by decide +kernel

/-- C18: an accepted length-prefixed input starts with a varint equal to the number of remaining
bytes, and what is decoded is exactly those remaining bytes. -/
theorem C18_accept (f : Nat) (t : Ty) (p v : Val) (bz : Bytes)
    (h : unmarshalLP Γ c f t p bz = .ok v) :
    ∃ n l, readVarint bz = some (n, l) ∧ bz.length = l + n ∧
      unmarshalBare Γ c f t p (bz.drop l) = .ok v := by
  unfold unmarshalLP at h
  split at h
  · simp at h
  rename_i hne
  rw [uvarint_eq] at h
  cases hr : readVarint bz with
  | none =>
    rw [hr] at h
    simp at h
    have : bz.length ≠ 0 := by simpa using hne
    split at h
    · simp at h
    · exfalso; omega
  | some q =>
    obtain ⟨n, l⟩ := q
    have hl := readVarint_len hr
    rw [hr] at h
    simp only at h
    by_cases hc : l ≤ 10 ∧ n < 2 ^ 64
    · rw [if_pos hc] at h
      have hm : n % 18446744073709551616 = n := Nat.mod_eq_of_lt hc.2
      rw [if_neg (by simp only; omega)] at h
      simp only [UInt64.toNat_ofNat', Int.toNat_natCast] at h
      split at h
      · simp at h
      split at h
      · simp at h
      · refine ⟨n, l, rfl, ?_, h⟩
        rename_i h1 h2
        rw [Nat.mod_eq_of_lt hc.2] at h1 h2
        omega
    · rw [if_neg hc] at h
      rw [if_pos (by simp only; omega)] at h
      simp at h

/-- C18: every proper prefix of a length-prefixed encoding is rejected. -/
theorem C18_truncated (f g : Nat) (t t' : Ty) (v p : Val) (bz : Bytes)
    (h : marshalLP Γ c f t v = .ok bz) (hl : bz.length < 2 ^ 63) (k : Nat) (hk : k < bz.length) :
    ∀ w, unmarshalLP Γ c g t' p (bz.take k) ≠ .ok w := by
  intro w hw
  obtain ⟨b, h1, h2⟩ := marshalLP_ok h
  have hb : b.length ≤ bz.length := by rw [h2]; simp
  rw [Nat.mod_eq_of_lt (by omega)] at h2
  obtain ⟨n, l, hr, hlen, _⟩ := C18_accept g t' p w _ hw
  by_cases hc : k < (varint b.length).length
  · rw [h2, List.take_append_of_le_length (by omega), readVarint_prefix_none _ _ hc] at hr
    simp at hr
  · have hfull : readVarint bz = some (b.length, (varint b.length).length) := by
      rw [h2, readVarint_varint]
    have := readVarint_take hfull k (by omega)
    rw [this] at hr
    simp at hr
    have hbz : bz.length = (varint b.length).length + b.length := by rw [h2]; simp
    rw [List.length_take] at hlen
    omega

/-- C18: every proper extension of a length-prefixed encoding is rejected. -/
theorem C18_extended (f g : Nat) (t t' : Ty) (v p : Val) (bz extra : Bytes)
    (h : marshalLP Γ c f t v = .ok bz) (hl : bz.length < 2 ^ 63) (he : extra ≠ []) :
    ∀ w, unmarshalLP Γ c g t' p (bz ++ extra) ≠ .ok w := by
  intro w hw
  obtain ⟨b, h1, h2⟩ := marshalLP_ok h
  have hb : b.length ≤ bz.length := by rw [h2]; simp
  rw [Nat.mod_eq_of_lt (by omega)] at h2
  obtain ⟨n, l, hr, hlen, _⟩ := C18_accept g t' p w _ hw
  rw [h2, List.append_assoc, readVarint_varint] at hr
  simp at hr
  have hbz : bz.length = (varint b.length).length + b.length := by rw [h2]; simp
  have : 0 < extra.length := List.length_pos_iff.mpr he
  rw [List.length_append] at hlen
  omega

example : unmarshalLP Demo.prog Demo.codec 5 (.base Demo.subT) (Demo.zero Demo.subT) [4, 8, 3, 16, 1] =
    .ok (.struct [.int 3, .bool true]) := by decide +kernel

/-- C28: what is marshalled from a registered type starts with its prefix bytes. -/
theorem C28_prefixed (f : Nat) (t : Ty) (v : Val) (bz : Bytes) (ci : ConcInfo)
    (hc : c.conc? t.deref = some ci) (h : marshalBare Γ c f t v = .ok bz) :
    ∃ b, bz = ci.prefx ++ b := by
  unfold marshalBare at h
  split at h
  · simp at h
  · obtain ⟨_, _, h⟩ := Res.bind_eq_ok h
    obtain ⟨b, _, h⟩ := Res.bind_eq_ok h
    simp [hc] at h
    exact ⟨b, h.symm⟩

/-- C28: unmarshalling into a registered type is an error on every input that does not start with its
prefix bytes. -/
theorem C28_verified (f : Nat) (t : Ty) (p : Val) (bz : Bytes) (ci : ConcInfo)
    (hc : c.conc? t.deref = some ci) (hi : getInfo Γ c t.deref = .ok ())
    (hbz : ¬ ci.prefx <+: bz) : unmarshalBare Γ c f t p bz = .err .prefixMismatch := by
  unfold unmarshalBare stripPrefix
  rw [hi, Res.bind_ok, hc]
  simp only
  split
  · rfl
  split
  · rfl
  · rename_i h1 h2
    exfalso
    apply hbz
    rw [← Classical.not_not.mp h2]
    exact List.take_prefix _ _

/-- C28: and with the prefix, the remaining bytes are decoded as for an unregistered type. -/
theorem C28_stripped (f : Nat) (t : Ty) (p : Val) (bz : Bytes) (ci : ConcInfo)
    (hc : c.conc? t.deref = some ci) (h4 : ci.prefx.length = 4) (hi : getInfo Γ c t.deref = .ok ()) :
    unmarshalBare Γ c f t p (ci.prefx ++ bz) = unmarshalContents Γ c f t p bz := by
  unfold unmarshalBare stripPrefix
  rw [hi, Res.bind_ok, hc]
  simp only
  rw [if_neg (by simp; omega), if_neg (by simp [← h4]), Res.bind_ok, ← h4, List.drop_left]

example : Demo.codec.conc? Demo.fooT = some Demo.foo ∧ Demo.foo.prefx.length = 4 ∧
    getInfo Demo.prog Demo.codec Demo.fooT = .ok () ∧
    marshalBare Demo.prog Demo.codec 5 (.base Demo.fooT) (.struct [.int 7]) = .ok [1, 2, 3, 4, 8, 7] ∧
    unmarshalBare Demo.prog Demo.codec 5 (.base Demo.fooT) (Demo.zero Demo.fooT) [1, 2, 3, 4, 8, 7] =
      .ok (.struct [.int 7]) ∧
    unmarshalBare Demo.prog Demo.codec 5 (.base Demo.fooT) (Demo.zero Demo.fooT) [1, 2, 3, 5, 8, 7] =
      .err .prefixMismatch := by decide +kernel

/-- C40: the writer form makes one `Write` call with the length-prefixed bytes and reports what the
writer reports; on a marshalling error it writes nothing. -/
theorem C40_writer (f : Nat) (w : Writer) (t : Ty) (v : Val) :
    (∀ bz, marshalLP Γ c f t v = .ok bz →
      marshalLPWriter Γ c f w t v = .ok ([bz], (w bz).1, (w bz).2)) ∧
    (∀ e, marshalLP Γ c f t v = .err e → marshalLPWriter Γ c f w t v = .ok ([], 0, some e)) ∧
    (∀ calls n e, marshalLPWriter Γ c f w t v = .ok (calls, n, e) →
      (∃ bz, marshalLP Γ c f t v = .ok bz ∧ calls = [bz] ∧ (n, e) = w bz) ∨
      (∃ e', marshalLP Γ c f t v = .err e' ∧ calls = [] ∧ n = 0 ∧ e = some e')) := by
  unfold marshalLPWriter
  refine ⟨fun bz h => by rw [h], fun e h => by rw [h], fun calls n e h => ?_⟩
  cases hm : marshalLP Γ c f t v with
  | ok bz =>
    rw [hm] at h; simp at h
    obtain ⟨rfl, rfl, rfl⟩ := h
    exact .inl ⟨bz, rfl, rfl, rfl⟩
  | err e' =>
    rw [hm] at h; simp at h
    obtain ⟨rfl, rfl, rfl⟩ := h
    exact .inr ⟨e', rfl, rfl, rfl, rfl⟩
  | panic => rw [hm] at h; simp at h
  | oof => rw [hm] at h; simp at h

example : marshalLPWriter Demo.prog Demo.codec 5 (fun b => (b.length, none)) (.base Demo.subT)
    (.struct [.int 3, .bool true]) = .ok ([[4, 8, 3, 16, 1]], 5, none) := by decide +kernel

/-- C55: a `Must` function returns what the plain function returns if that reports no error, and panics
if it reports an error (or panics). -/
theorem C55_must {α : Type} (r : Res α) :
    (∀ a, must r = .ok a ↔ r = .ok a) ∧ (∀ e, must r ≠ .err e) ∧
    ((∃ p, must r = .panic p) ↔ (∃ e, r = .err e) ∨ ∃ p, r = .panic p) := by
  cases r <;> simp [must]

example : must (unmarshalBare Demo.prog Demo.codec 5 (.base Demo.subT) (Demo.zero Demo.subT) [8, 3]) =
    .ok (.struct [.int 3, .bool false]) ∧
    must (unmarshalBare Demo.prog Demo.codec 5 (.base Demo.subT) (Demo.zero Demo.subT) [8]) =
    .panic .must := by decide +kernel

end Amino
