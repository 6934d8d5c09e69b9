import Verif.BReadMain
import Verif.Demo

/-!
# C102: exactly which bytes UnmarshalBinaryBare accepts, and what it makes of them
-/

namespace Amino
open Spec

variable {Γ : Prog} {c : Codec}

theorem bread_unique {t : Ty} {fo : FOpts} {whole : Bool} {old v v' : Val} {b : Bytes} {n n' : Nat} (h : BRead Γ c t fo whole old b n v)
    (h' : BRead Γ c t fo whole old b n' v') : n' = n ∧ v' = v := by
  obtain ⟨g, hg⟩ := bread_decodes h
  obtain ⟨g', hg'⟩ := bread_decodes h'
  have h1 := dec_ok_le (Nat.le_max_left g g') hg
  have h2 := dec_ok_le (Nat.le_max_right g g') hg'
  rw [h1] at h2
  cases h2
  exact ⟨rfl, rfl⟩

theorem decodeAll_inv {g : Nat} {t : Ty} {old v : Val} {whole : Bool} {b : Bytes} (h : decodeAll Γ c g t old whole b = .ok v) :
    BRead Γ c t { fnum := 1 } whole old b b.length v := by
  unfold decodeAll at h
  split at h
  · rename_i n w hd
    split at h
    · cases h
    · rename_i hn
      cases h
      have hn : n = b.length := by simpa using hn
      subst hn
      exact dec_reads hd
  all_goals cases h

theorem decodeAll_of {t : Ty} {old v : Val} {whole : Bool} {b : Bytes} (h : BRead Γ c t { fnum := 1 } whole old b b.length v) :
    ∃ g, decodeAll Γ c g t old whole b = .ok v := by
  obtain ⟨g, hg⟩ := bread_decodes h
  refine ⟨g, ?_⟩
  unfold decodeAll
  rw [hg]
  simp

theorem oldOk_iff {t : Ty} {old : Val} : ptrToListPanics Γ t old = false ↔ OldOk Γ t old := by
  unfold ptrToListPanics OldOk Prog.isListKind
  rw [pointee_eq]
  cases t.isPtr with
  | false => simp
  | true =>
    cases derefVal t old with
    | none => simp
    | some v => cases h : Γ.shape t.deref <;> simp [h]

theorem structOrRep_known {id : TId} (h : Γ.structOrRep id = true) : Γ.isKnown id = true := by
  unfold Prog.structOrRep at h
  unfold Prog.isKnown
  split at h <;> simp_all

theorem contents_inv {g : Nat} {t : Ty} {old v : Val} {b : Bytes} (h : unmarshalContents Γ c g t old b = .ok v) :
    Contents Γ c t old b v := by
  unfold unmarshalContents at h
  split at h
  · rename_i hs
    exact .struct (by rw [wrapped_iff, hs]; rfl) (decodeAll_inv h)
  rename_i hs
  split at h
  · cases h
  rename_i ho
  have ho := oldOk_iff.mp (by simpa using ho)
  have hs : Γ.structOrRep t.deref = false := by simpa using hs
  split at h
  · rename_i hc
    simp only [Bool.and_eq_true, decide_eq_true_eq] at hc
    obtain ⟨⟨h1, h2⟩, h3⟩ := hc
    cases hk : decodeKey b with
    | err | panic | oof => rw [hk] at h; cases h
    | ok m ft =>
      obtain ⟨fnum, typ⟩ := ft
      simp only [hk] at h
      split at h
      · cases h
      split at h
      · cases h
      split at h
      · rename_i hf ht hm
        have hf : fnum = 1 := by simpa using hf
        have ht : typ = Γ.typ3 t.deref {} := by simpa using ht
        subst hf ht
        obtain ⟨key, r, rfl, rfl, hk'⟩ := key_iff.mp hk
        rw [List.drop_left] at h
        refine .keyed (by rw [wrapped_iff, hs, h3]; rfl) ?_ ho (by rw [wireType_eq]; exact hk') ?_
        · cases hp : t.isPtr with
          | true => exact .inl rfl
          | false =>
            right
            intro hi
            rw [hp, isIface_iff.mpr hi] at h2
            cases h2
        · rw [wireType_eq]; exact decodeAll_inv h
      · cases h
  · rename_i hc
    cases hw : Γ.isKnown t.deref with
    | false => exact .struct (by rw [wrapped_iff, hw, Bool.and_false]) (decodeAll_inv h)
    | true =>
      refine .plain (by rw [wrapped_iff, hs, hw]; rfl) ?_ ho (decodeAll_inv h)
      cases b with
      | nil => exact .inl rfl
      | cons =>
        right
        rw [hw] at hc
        cases hp : t.isPtr <;> cases hi : Γ.isIface t.deref <;> simp [hp, hi] at hc
        exact ⟨rfl, isIface_iff.mp hi⟩

theorem contents_of {t : Ty} {old v : Val} {b : Bytes} (h : Contents Γ c t old b v) : ∃ g, unmarshalContents Γ c g t old b = .ok v := by
  cases h with
  | struct hw h =>
    obtain ⟨g, hg⟩ := decodeAll_of h
    refine ⟨g, ?_⟩
    unfold unmarshalContents
    split
    · exact hg
    rename_i hs
    have hs : Γ.structOrRep t.deref = false := by simpa using hs
    rw [wrapped_iff, hs] at hw
    have hk : Γ.isKnown t.deref = false := by simpa using hw
    have ho : ptrToListPanics Γ t old = false := by
      unfold Prog.isKnown at hk
      unfold ptrToListPanics Prog.isListKind
      split at hk
      · rename_i hsh; simp [hsh]
      · cases hk
    rw [if_neg (by simp [ho]), if_neg (by simp [hk])]
    exact hg
  | keyed hw hi ho hk h =>
    rename_i key b
    rw [wireType_eq] at hk h
    obtain ⟨g, hg⟩ := decodeAll_of h
    refine ⟨g, ?_⟩
    rw [wrapped_iff, Bool.and_eq_true, Bool.not_eq_true'] at hw
    unfold unmarshalContents
    have hp := key_pos hk
    rw [if_neg (by simp [hw.1]), if_neg (by rw [oldOk_iff.mpr ho]; simp), if_pos, key_of hk]
    · simp only
      rw [if_neg (by simp), if_neg (by simp), if_pos (by simp), List.drop_left]
      exact hg
    · simp only [Bool.and_eq_true, decide_eq_true_eq, hw.2, and_true]
      refine ⟨by rw [List.length_append]; omega, ?_⟩
      rcases hi with hi | hi
      · simp [hi]
      · cases hi' : Γ.isIface t.deref with
        | true => exact absurd (isIface_iff.mp hi') hi
        | false => simp
  | plain hw hb ho h =>
    obtain ⟨g, hg⟩ := decodeAll_of h
    refine ⟨g, ?_⟩
    rw [wrapped_iff, Bool.and_eq_true, Bool.not_eq_true'] at hw
    unfold unmarshalContents
    rw [if_neg (by simp [hw.1]), if_neg (by rw [oldOk_iff.mpr ho]; simp), if_neg]
    · exact hg
    · rcases hb with hb | ⟨h1, h2⟩
      · simp [hb]
      · simp [h1, isIface_iff.mpr h2]

/-- C102: UnmarshalBinaryBare succeeds with a value iff the bytes are read as that value. -/
theorem C102_exactly {t : Ty} {old v : Val} {b : Bytes} :
    (∃ g, unmarshalBare Γ c g t old b = .ok v) ↔ BReading Γ c t old b v := by
  constructor
  · rintro ⟨g, h⟩
    unfold unmarshalBare at h
    cases hi : getInfo Γ c t.deref with
    | err | panic | oof => rw [hi] at h; cases h
    | ok u =>
      rw [hi] at h
      simp only [Res.bind_ok] at h
      unfold stripPrefix at h
      cases hc : c.conc? t.deref with
      | none =>
        simp only [hc, Res.bind_ok] at h
        exact .plain (known_iff.mpr hi) hc (contents_inv h)
      | some ci =>
        simp only [hc] at h
        split at h
        · cases h
        split at h
        · cases h
        rename_i hl hp
        have hp : b.take 4 = ci.prefx := by simpa using hp
        simp only [Res.bind_ok] at h
        have := BReading.registered (known_iff.mpr hi) hc (by rw [← hp, List.length_take]; omega) (contents_inv h)
        rw [← hp, List.take_append_drop] at this
        exact this
  · intro h
    cases h with
    | plain hi hc h =>
      obtain ⟨g, hg⟩ := contents_of h
      refine ⟨g, ?_⟩
      unfold unmarshalBare stripPrefix
      rw [known_iff.mp hi, hc]
      exact hg
    | registered hi hc hl h =>
      obtain ⟨g, hg⟩ := contents_of h
      refine ⟨g, ?_⟩
      unfold unmarshalBare stripPrefix
      rw [known_iff.mp hi, hc]
      simp only [Res.bind_ok]
      rw [if_neg (by rw [List.length_append]; omega), if_neg (by rw [← hl, List.take_left]; simp), ← hl, List.drop_left]
      exact hg

/-- C102: enough recursion depth for such bytes exists, and more does not hurt. -/
theorem C102_accepts {t : Ty} {old v : Val} {b : Bytes} (h : BReading Γ c t old b v) :
    ∃ N, ∀ g, N ≤ g → unmarshalBare Γ c g t old b = .ok v := by
  obtain ⟨N, hN⟩ := C102_exactly.mpr h
  refine ⟨N, fun g hg => ?_⟩
  rcases unmarshalBare_le (Γ := Γ) (c := c) hg t old b with h' | h'
  · rw [hN] at h'; cases h'
  · rw [h', hN]

/-- C102: bytes are read as one value only. -/
theorem C102_unique {t : Ty} {old v v' : Val} {b : Bytes} (h : BReading Γ c t old b v) (h' : BReading Γ c t old b v') : v' = v := by
  obtain ⟨N, h1⟩ := C102_accepts h
  obtain ⟨N', h2⟩ := C102_accepts h'
  have h1 := h1 _ (Nat.le_max_left N N')
  rw [h2 _ (Nat.le_max_right N N')] at h1
  cases h1
  rfl

/-- C102: an error or a panic means that the bytes are read as nothing. -/
theorem C102_failure {t : Ty} {old : Val} {b : Bytes} {g : Nat} (h1 : ∀ v, unmarshalBare Γ c g t old b ≠ .ok v)
    (h2 : unmarshalBare Γ c g t old b ≠ .oof) (v : Val) : ¬ BReading Γ c t old b v := by
  intro h
  obtain ⟨N, hN⟩ := C102_accepts h
  rcases unmarshalBare_le (Γ := Γ) (c := c) (Nat.le_max_right N g) t old b with h' | h'
  · exact h2 h'
  · rw [hN _ (Nat.le_max_left _ _)] at h'
    exact h1 v h'.symm

/-- C102: other bytes are never accepted. -/
theorem C102_refuses {t : Ty} {old : Val} {b : Bytes} (h : ∀ v, ¬ BReading Γ c t old b v) (g : Nat) (v : Val) :
    unmarshalBare Γ c g t old b ≠ .ok v :=
  fun h' => h v (C102_exactly.mp ⟨g, h'⟩)

theorem uvarintLoop_none {b : Bytes} {i : Nat} {x : UInt64} {s : Nat} (h : (uvarintLoop b i x s).2 = 0) : (uvarintLoop b i x s).1 = 0 := by
  induction b generalizing i x s with
  | nil => rfl
  | cons y ys ih =>
    rw [uvarintLoop] at h ⊢
    split
    · rename_i hy
      rw [if_pos hy] at h
      split at h <;> simp only at h <;> omega
    · rename_i hy
      rw [if_neg hy] at h
      exact ih h

/-- C102: UnmarshalBinaryLengthPrefixed accepts the same bytes behind their count, and nothing else. -/
theorem C102_prefixed {t : Ty} {old v : Val} {b : Bytes} :
    (∃ g, unmarshalLP Γ c g t old b = .ok v) ↔ ∃ d body, b = d ++ body ∧ Number body.length d ∧ BReading Γ c t old body v := by
  constructor
  · rintro ⟨g, h⟩
    unfold unmarshalLP at h
    split at h
    · cases h
    rename_i hb
    dsimp only at h
    split at h
    · cases h
    split at h
    · cases h
    split at h
    · cases h
    rename_i h1 h2 h3
    have hz : (uvarint b).2 ≠ 0 := by
      intro hz
      have : (uvarint b).1 = 0 := uvarintLoop_none hz
      rw [this, hz] at h3
      simp at h3
      exact hb (by rw [h3]; rfl)
    have hu : decodeUvarint b = .ok (uvarint b).2.toNat (uvarint b).1 := by
      unfold decodeUvarint
      simp only
      rw [if_neg hz, if_neg h1]
    obtain ⟨d, r, hbd, hdl, hd⟩ := number_iff.mp hu
    rw [← hdl] at h h2 h3
    have hr : (uvarint b).1.toNat = r.length := by
      have := congrArg List.length hbd
      rw [List.length_append] at this
      omega
    rw [hr] at hd
    refine ⟨d, r, hbd, hd, C102_exactly.mp ⟨g, ?_⟩⟩
    have : b.drop d.length = r := by rw [hbd, List.drop_left]
    rw [← this]
    exact h
  · rintro ⟨d, body, rfl, hd, h⟩
    obtain ⟨g, hg⟩ := C102_exactly.mpr h
    refine ⟨g, ?_⟩
    have hp := number_pos hd
    have hu := number_of (r := body) hd
    unfold decodeUvarint at hu
    dsimp only at hu
    split at hu
    · cases hu
    split at hu
    · cases hu
    rename_i hz hneg
    injection hu with hu1 hu2
    unfold unmarshalLP
    dsimp only
    rw [if_neg (by rw [List.length_append]; omega), if_neg hneg, hu1, hu2, ofNat_toNat_lt hd.2.2, if_neg (by simp), if_neg (by simp),
      List.drop_left]
    exact hg

/-! ## Cases -/

namespace Demo

/-- A registered struct, read by the rules. -/
theorem fooReading : BReading prog codec (.base fooT) (.struct [.int 0]) [1, 2, 3, 4, 8, 7] (.struct [.int 7]) := by
  have hk : KeyText 1 0 [8] := ⟨⟨rfl, by decide, by decide⟩, by decide, by decide⟩
  have hf : BRead prog codec (.base int64T) { fnum := 1 } false (.int 0) [7] 1 (.int 7) :=
    .int rfl (k := .int64) rfl (fun h => by cases h) rfl (by decide)
  have hs : BRead prog codec (.base fooT) { fnum := 1 } true (.struct [.int 0]) [8, 7] 2 (.struct [.int 7]) :=
    .struct (fs := [{ ty := .base int64T }]) (body := [8, 7]) (k := 0) (last := 1) (r := [])
      (l := [⟨.keyed, { ty := .base int64T }, 1, [7], 1, .int 0, .int 7⟩]) rfl rfl .whole rfl
      (Layout.keyed (key := [8]) (s := ⟨.keyed, { ty := .base int64T }, 1, [7], 1, .int 0, .int 7⟩) rfl rfl (known_iff.mpr (by decide))
        (by decide) rfl hk .nil) .nil
      (by intro s hs h; simp only [List.mem_singleton] at hs; subst hs; cases h)
      (by intro s hs h; simp only [List.mem_singleton] at hs; subst hs; exact hf)
  exact .registered (ci := foo) (known_iff.mpr (by decide)) rfl rfl (.struct rfl hs)

/-- A message with known fields, an interface, and an unknown field 9. -/
def readBytes : Bytes := [8, 5, 18, 1, 65, 50, 6, 1, 2, 3, 4, 8, 7, 72, 1]

theorem readReading : BReading prog codecFoo (.base msgT) (prog.zero msgT) readBytes
    (.struct [.int 5, .str [65], .nil, .nil, .nil, .iface (.ptr (.base fooT)) (.ptr (.struct [.int 7])), .time 0 0]) :=
  C102_exactly.mp ⟨6, by decide +kernel⟩

end Demo

example : ∃ N, ∀ g, N ≤ g → unmarshalBare Demo.prog Demo.codec g (.base Demo.fooT) (.struct [.int 0]) [1, 2, 3, 4, 8, 7] =
    .ok (.struct [.int 7]) := C102_accepts Demo.fooReading

example {v : Val} (h : BReading Demo.prog Demo.codecFoo (.base Demo.msgT) (Demo.prog.zero Demo.msgT) Demo.readBytes v) :
    v = .struct [.int 5, .str [65], .nil, .nil, .nil, .iface (.ptr (.base Demo.fooT)) (.ptr (.struct [.int 7])), .time 0 0] :=
  C102_unique Demo.readReading h

/-- Fields out of order, a wrong wire type, leftovers: never, with any depth. -/
example (g : Nat) (v : Val) : unmarshalBare Demo.prog Demo.codecFoo g (.base Demo.subT) (Demo.prog.zero Demo.subT) [16, 1, 8, 3] ≠ .ok v :=
  C102_refuses (C102_failure (g := 5) (fun v h => by
    have : unmarshalBare Demo.prog Demo.codecFoo 5 (.base Demo.subT) (Demo.prog.zero Demo.subT) [16, 1, 8, 3] = .err .fieldOrder := by
      decide +kernel
    rw [this] at h; cases h) (by decide +kernel)) g v

/-- The count may have superfluous digits. -/
example : ∃ g, unmarshalLP Demo.prog Demo.codec g (.base Demo.fooT) (.struct [.int 0]) [0x86, 0x80, 0, 1, 2, 3, 4, 8, 7] = .ok (.struct [.int 7]) :=
  C102_prefixed.mpr ⟨[0x86, 0x80, 0], [1, 2, 3, 4, 8, 7], rfl, ⟨by decide, by decide, by decide⟩, Demo.fooReading⟩

end Amino
