import Verif.JReadWrite
import Verif.PropsDoc
import Verif.PropsTime

/-!
# What MarshalJSON accepts

C81 (`MarshalJSON` succeeds exactly on the values described by `JWritable`), C82 (what `UnmarshalJSON` has read can be
written again).
-/

namespace Amino
open Spec

variable {Γ : Prog} {c : Codec} {J : JLib}

theorem marshalJSON_of {t : Ty} {v : Val} (hk : Known Γ c t.deref) {f : Nat} {b : Bytes}
    (h : jenc Γ c J f false t v {} = .ok b) : ∃ b', marshalJSON Γ c J f (some (t, v)) = .ok b' := by
  rw [marshalJSON, known_iff.1 hk]
  show ∃ b', ((jenc Γ c J f false t v {}).bind _) = .ok b'
  rw [h]
  show ∃ b', (match c.conc? t.deref with | some ci => Res.ok (wrapText ci.name b) | none => .ok b) = .ok b'
  split <;> exact ⟨_, rfl⟩

/-- C81: `MarshalJSON` succeeds exactly on the values that can be written, of types whose information can be obtained. -/
theorem C81_writes {t : Ty} {v : Val} :
    (∃ f b, marshalJSON Γ c J f (some (t, v)) = .ok b) ↔ Known Γ c t.deref ∧ JWritable Γ c J false t {} v := by
  constructor
  · rintro ⟨f, b, h⟩
    obtain ⟨hi, b', hb, _⟩ := marshalJSON_inv h
    exact ⟨known_iff.2 hi, jenc_w f _ _ _ _ _ hb⟩
  · rintro ⟨hk, hw⟩
    obtain ⟨f, hf⟩ := succ_of hw
    obtain ⟨b, hb⟩ := hf f (Nat.le_refl _)
    exact ⟨f, marshalJSON_of hk hb⟩

/-- C81: and then at every greater depth of recursion as well. -/
theorem C81_depth {t : Ty} {v : Val} (hk : Known Γ c t.deref) (hw : JWritable Γ c J false t {} v) :
    ∃ f, ∀ g, f ≤ g → ∃ b, marshalJSON Γ c J g (some (t, v)) = .ok b := by
  obtain ⟨f, hf⟩ := succ_of hw
  refine ⟨f, fun g hg => ?_⟩
  obtain ⟨b, hb⟩ := hf g hg
  exact marshalJSON_of hk hb

/-- C82 (partial): what `UnmarshalJSON` has read into a zero variable, `MarshalJSON` can write, if the types meet
`JRewritable`.  Without the conditions it fails: see `C82_float_refuted` and `C82_named_bytes_refuted`. -/
theorem C82_json_rewrite_partial {S : TId → FOpts → Prop} (hZ : ZeroOk Γ) (hR : JRewritable Γ c J S) {t : Ty}
    (hS : S t.deref {}) {f : Nat} {bz : Bytes} {v : Val} (h : unmarshalJSON Γ c J f t (Γ.zeroTy t) bz = .ok v) :
    ∃ g b, marshalJSON Γ c J g (some (t, v)) = .ok b := by
  rw [unmarshalJSON] at h
  split at h
  · cases h
  obtain ⟨_, hi, h⟩ := Res.bind_eq_ok h
  have hk : Known Γ c t.deref := known_iff.2 hi
  refine C81_writes.2 ⟨hk, ?_⟩
  split at h
  · obtain ⟨nd, _, h⟩ := Res.bind_eq_ok h
    split at h
    · cases h
    · exact jdec_rw hZ hR f _ _ _ _ _ hS rfl h false
  · exact jdec_rw hZ hR f _ _ _ _ _ hS rfl h false

/-- C82: the modelled library meets the condition about times. -/
theorem C82_time {b : Bytes} {s ns : Int} (h : J.withTime.timeParse b = some (s, ns)) :
    ∃ b', J.withTime.timeText s ns = some b' := by
  obtain ⟨x, hv, _, rfl, rfl⟩ := parse_inv h
  have hr := unix_range hv
  have hn := hv.nano
  have hr' := hr
  unfold InYears at hr'
  obtain ⟨f, _, h⟩ := text_eq (s := x.unix) (ns := x.nano) (by omega) (by omega) (by omega) hr
  exact ⟨_, h⟩

/-! ## The demonstration program -/

namespace JDemo

/-- A struct with every construct can be written. -/
example : JWritable prog codec lib false (.base recT) {} rec1 := (C81_writes.1 ⟨_, _, rec1_marshals⟩).2

theorem jnm {a : Bool} {id : TId} (h : id ≠ centsT) : NoMarshal prog lib a id :=
  .inr ⟨by simp [prog, h], rfl⟩

theorem known (id : TId) : Known prog codec id := known_iff.2 (info codec rfl id)

theorem jcents {a : Bool} {fo : FOpts} {i : Int} : JWritable prog codec lib a (.base centsT) fo (.struct [.int i]) :=
  .amino (m := centsOut) (rid := int64T) (by decide) rfl rfl rfl (known _) (.int (jnm (by decide)) (k := .int64) rfl)

theorem jzeros {id : TId} {fo : FOpts} (a : Bool) (h : id ≠ f64T ∧ id ≠ flT) :
    JWritable prog codec lib a (.base id) fo (prog.zero id) := by
  have ha : ∀ {fo}, JWritable prog codec lib a (.base arrT) fo (.list [.int 0, .int 0]) := by
    intro fo
    refine .array (n := 2) (e := .base int64T) (jnm (by decide)) rfl (known _) ?_
    intro v hv
    simp at hv
    subst hv
    exact .int (k := .int64) (jnm (by decide)) rfl
  match id with
  | 0 => exact .int (k := .uint8) (jnm (by decide)) rfl
  | 1 => exact .int (k := .int64) (jnm (by decide)) rfl
  | 15 => exact .int (k := .int32) (jnm (by decide)) rfl
  | 2 => exact .str (jnm (by decide)) rfl
  | 3 | 11 => exact .null (jnm (by decide)) (.inr (.inl ⟨_, rfl⟩))
  | 5 => exact .null (jnm (by decide)) (.inr (.inr ⟨_, rfl⟩))
  | 6 => exact .null (jnm (by decide)) (.inl rfl)
  | 4 =>
    refine .struct (fs := recFields) (jnm (by decide)) rfl rfl (fun _ _ _ => known _) ?_
    intro p hp _
    simp only [recFields, List.zip_cons_cons, List.zip_nil_right, List.mem_cons, List.not_mem_nil, or_false] at hp
    rcases hp with rfl | rfl | rfl | rfl | rfl | rfl | rfl | rfl | rfl | rfl | rfl | rfl
    · exact .int (k := .int64) (jnm (by decide)) rfl
    · exact .str (jnm (by decide)) rfl
    · exact .null (jnm (by decide)) (.inr (.inl ⟨_, rfl⟩))
    · exact .null (jnm (by decide)) (.inr (.inr ⟨_, rfl⟩))
    · exact .null (jnm (by decide)) (.inl rfl)
    · exact .time rfl (b := year1Text) rfl
    · exact .nil (by intro w h; cases h)
    · exact .null (jnm (by decide)) (.inr (.inl ⟨_, rfl⟩))
    · exact ha
    · exact jcents
    · exact .bool (jnm (by decide)) rfl
    · exact .int (k := .int32) (jnm (by decide)) rfl
  | 7 =>
    refine .struct (jnm (by decide)) rfl rfl (fun _ _ _ => known _) ?_
    intro p hp _
    simp only [List.zip_cons_cons, List.zip_nil_right, List.mem_cons, List.not_mem_nil, or_false] at hp
    subst hp
    exact .int (k := .int64) (jnm (by decide)) rfl
  | 12 => exact jcents
  | 8 => exact .time rfl (b := year1Text) rfl
  | 9 => exact absurd rfl h.1
  | 10 => exact absurd rfl h.2
  | 13 =>
    refine .struct (jnm (by decide)) rfl rfl (fun _ _ _ => known _) ?_
    intro p hp _
    simp only [List.zip_cons_cons, List.zip_nil_right, List.mem_cons, List.not_mem_nil, or_false] at hp
    subst hp
    exact .str (jnm (by decide)) rfl
  | 14 => exact ha
  | n + 16 => exact .bool (jnm (by simp [centsT])) rfl

/-- Everything but floats. -/
theorem jrewritable : JRewritable prog codec lib fun id _ => id ≠ f64T ∧ id ≠ flT where
  zero a h := jzeros a h
  json a _ _ h := by cases h
  amino := by
    intro id fo rid um _ _ _ h
    simp only [prog] at h
    split at h
    · cases h
      rename_i hid
      subst hid
      refine ⟨by decide, ?_⟩
      intro p r v hr hv a
      unfold centsIn at hv
      split at hv
      · cases hv; exact jcents
      · cases hv
    · cases h
  methods := by
    intro id fo _ _ h
    simp only [prog] at h ⊢
    split at h
    · cases h
    · rename_i hid; rw [if_neg hid]; exact ⟨rfl, fun _ => rfl⟩
  list := by
    intro id fo e _ hs
    cases hsh : prog.shape id with
    | slice e' =>
      rw [hsh] at hs
      cases hs
      split
      · rename_i hb
        match id with
        | 3 => cases hsh; rfl
        | 11 => cases hsh; simp [Prog.isByteKind, prog, shape, int64T] at hb
        | 0 | 1 | 2 | 4 | 5 | 6 | 7 | 8 | 9 | 10 | 12 | 13 | 14 | 15 => simp [prog, shape] at hsh
        | n + 16 => simp [prog, shape] at hsh
      · rename_i hb
        rw [(shape_slice hsh).2 (by simpa using hb)]
        decide
    | array n e' =>
      rw [hsh] at hs
      cases hs
      obtain ⟨rfl, rfl, rfl⟩ := shape_array hsh
      rw [if_neg (by decide)]
      decide
    | _ => rw [hsh] at hs; cases hs
  map _ hs := by rw [shape_map hs]; decide
  struct := by
    intro id fo fs f hS hs hf hv
    obtain ⟨_, _, _, h1, h2⟩ := shape_struct hs
    exact ⟨(h1 f hf).2.2 hv hS.2, h2 hS.2 f hf⟩
  iface := by
    intro id fo n ci _ _ hc _
    have : ci = foo := by
      unfold Codec.name? codec at hc
      simp only [List.lookup_cons] at hc
      split at hc
      · exact (Option.some.inj hc).symm
      · simp at hc
    subst this
    exact ⟨by decide, rfl, known _, rfl⟩
  time := by
    intro b s ns _ h
    simp only [lib] at h
    split at h
    · cases h; exact ⟨_, rfl⟩
    split at h
    · cases h; exact ⟨_, rfl⟩
    · cases h

/-- The hypotheses are met. -/
example {f : Nat} {bz : Bytes} {v : Val} (h : unmarshalJSON prog codec lib f (.base recT) (prog.zeroTy (.base recT)) bz = .ok v) :
    ∃ g b, marshalJSON prog codec lib g (some (.base recT, v)) = .ok b :=
  C82_json_rewrite_partial zeroOk jrewritable (by decide) h

end JDemo

/-! ## Where the code fails -/

namespace JWDemo

/-- `byte`, `type MyByte byte`, `[]MyByte`, `float64`, `[]float64` -/
def prog : Prog where
  shape
    | 0 | 1 => .int .uint8
    | 2 => .slice (.base 1)
    | 3 => .float64
    | _ => .slice (.base 3)
  zero
    | 0 | 1 => .int 0
    | 3 => .f64 0
    | _ => .nil
  marsh _ := none
  unmarsh _ := none
  implements _ _ := false
  byteId := 0

end JWDemo

/-- C82: a list of floats that was read cannot be written.  `null` elements are accepted without looking at the type
(json-decode.go:27-31), and become zeros. -/
theorem C82_float_refuted : ∃ (Γ : Prog) (c : Codec) (J : JLib) (t : Ty) (bz : Bytes) (v : Val),
    unmarshalJSON Γ c J 3 t (Γ.zeroTy t) bz = .ok v ∧ v = .list [.f64 0] ∧
      ∀ f b, marshalJSON Γ c J f (some (t, v)) ≠ .ok b := by
  refine ⟨JWDemo.prog, {}, JDemo.lib, .base 4, "[null]".toList.map (UInt8.ofNat ·.toNat), _, by decide +kernel, rfl, ?_⟩
  intro f b h
  have hw := (C81_writes.1 ⟨f, b, h⟩).2
  cases hw with
  | list _ hs _ hv =>
    cases hs
    cases hv _ (.head _) with
    | f64 _ _ hf _ => cases hf
    | method _ h _ => cases h
    | amino _ _ h => cases h
  | array _ hs => cases hs
  | method _ h _ => cases h
  | amino _ _ h => cases h

/-- C82: a list of a byte type other than `byte` that was read cannot be written, unless a pointer to it is given. -/
theorem C82_named_bytes_refuted : ∃ (Γ : Prog) (c : Codec) (J : JLib) (t : Ty) (bz : Bytes) (v : Val),
    unmarshalJSON Γ c J 3 t (Γ.zeroTy t) bz = .ok v ∧ v = .bytes [0x4d] ∧
      (∀ f b, marshalJSON Γ c J f (some (t, v)) ≠ .ok b) ∧ marshalJSON Γ c J 3 (some (.ptr t, .ptr v)) = .ok bz := by
  refine ⟨JWDemo.prog, {}, JDemo.lib, .base 2, "\"TQ==\"".toList.map (UInt8.ofNat ·.toNat), _, by decide +kernel, rfl, ?_,
    by decide +kernel⟩
  intro f b h
  have hw := (C81_writes.1 ⟨f, b, h⟩).2
  cases hw with
  | bytes _ he ha =>
    cases he
    rcases ha with ha | ha <;> cases ha
  | method _ h _ => cases h
  | amino _ _ h => cases h

end Amino
