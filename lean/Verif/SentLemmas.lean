import Verif.SpecSent
import Verif.PropsBRead

/-!
# What a protobuf implementation may send is read
-/

namespace Amino
open Spec

variable {Γ : Prog} {c : Codec}

theorem wireVar_number {d r : Bytes} {v : Nat} (h : Number v d) : wireVar (d ++ r) = some (v, d.length) :=
  (wireVar_iff _ _ _).mpr ⟨readVarint_app h.1, h.2.1, h.2.2⟩

theorem number_minimal {v : Nat} (h : v < 2 ^ 64) : Number v (varint v) := by
  have h1 := readVarint_varint v []
  rw [List.append_nil] at h1
  refine ⟨h1, ?_, h⟩
  exact varint_u64_length _ h

theorem twos64_back {i : Int} (h1 : -(2 ^ 63) ≤ i) (h2 : i < 2 ^ 63) :
    (if twos64 i < 2 ^ 63 then (twos64 i : Int) else (twos64 i : Int) - 2 ^ 64) = i := by
  unfold twos64
  split <;> split <;> omega

/-- Integers on the wire. -/
theorem wireInt_sint {k : IntKind} {a b : Bool} {i : Int} {d r : Bytes} (hk : k = .int8 ∨ k = .int16) (h : Number (zig i) d) :
    wireInt k a b (d ++ r) = some (i, d.length) := by
  have hv := wireVar_number (r := r) h
  unfold wireVar at hv
  rcases hk with rfl | rfl <;> simp only [wireInt] <;> rw [hv] <;> simp [zag_zig]

theorem wireInt_varint {id : TId} {k : IntKind} {fo : FOpts} {i : Int} {d r : Bytes} (hs : Γ.shape id = .int k) (h8 : k ≠ .int8)
    (h16 : k ≠ .int16) (hw : wireType Γ id fo = 0) (hr : k.inRange i) (h : Number (twos64 i) d) :
    wireInt k fo.fixed64 fo.fixed32 (d ++ r) = some (i, d.length) := by
  have hv := wireVar_number (r := r) h
  unfold wireVar at hv
  unfold wireType at hw
  rw [hs] at hw
  cases k <;> simp [IntKind.inRange, IntKind.signed, IntKind.bits] at hr <;>
    first
    | exact absurd rfl h8
    | exact absurd rfl h16
    | (simp only [wireInt]
       simp only [] at hw
       try (split at hw; · cases hw)
       try (rename_i hf; simp only [Bool.not_eq_true] at hf; rw [hf])
       simp only [hv, Option.map_some, Bool.false_eq_true, if_false]
       first
       | (have := twos64_back (i := i) (by omega) (by omega); simp only [Nat.reduceSub]; rw [this])
       | (unfold twos64; rw [if_neg (by omega)]; congr 2; omega))

theorem wireInt_fixed64 {id : TId} {k : IntKind} {fo : FOpts} {i : Int} {r : Bytes} (hs : Γ.shape id = .int k)
    (hw : wireType Γ id fo = 1) (hr : k.inRange i) : wireInt k fo.fixed64 fo.fixed32 (le 8 (twos64 i) ++ r) = some (i, 8) := by
  unfold wireType at hw
  rw [hs] at hw
  have hl : ¬ (le 8 (twos64 i) ++ r).length < 8 := by rw [List.length_append, le_length]; omega
  have ht : (le 8 (twos64 i) ++ r).take 8 = le 8 (twos64 i) := by
    rw [List.take_append_of_le_length (by rw [le_length]; omega), List.take_of_length_le (by rw [le_length]; omega)]
  have hu : unle (le 8 (twos64 i)) = twos64 i % 256 ^ 8 := unle_le 8 _
  have hk : (k = .int64 ∨ k = .uint64) ∧ fo.fixed64 = true := by
    cases k <;> simp only [] at hw <;> first | (cases hw; done) | (split at hw <;> first | (cases hw; done) | simp_all)
  have hm : twos64 i % 256 ^ 8 = twos64 i := by
    refine Nat.mod_eq_of_lt ?_
    rcases hk.1 with rfl | rfl <;> simp [IntKind.inRange, IntKind.signed, IntKind.bits] at hr <;> unfold twos64 <;> split <;> omega
  generalize le 8 (twos64 i) = x at *
  rw [hm] at hu
  rcases hk.1 with rfl | rfl <;> simp [IntKind.inRange, IntKind.signed, IntKind.bits] at hr <;>
    simp only [wireInt, hk.2, if_true, if_neg hl, ht, hu, Option.map_some]
  · have := twos64_back (i := i) (by omega) (by omega)
    simp only [Nat.reduceSub]
    rw [this]
  · unfold twos64
    rw [if_neg (by omega)]
    congr 2
    omega

theorem wireInt_fixed32 {id : TId} {k : IntKind} {fo : FOpts} {i : Int} {r : Bytes} (hs : Γ.shape id = .int k)
    (hw : wireType Γ id fo = 5) (hr : k.inRange i) :
    wireInt k fo.fixed64 fo.fixed32 (le 4 (twos64 i % 2 ^ 32) ++ r) = some (i, 4) := by
  unfold wireType at hw
  rw [hs] at hw
  have hl : ¬ (le 4 (twos64 i % 2 ^ 32) ++ r).length < 4 := by rw [List.length_append, le_length]; omega
  have ht : (le 4 (twos64 i % 2 ^ 32) ++ r).take 4 = le 4 (twos64 i % 2 ^ 32) := by
    rw [List.take_append_of_le_length (by rw [le_length]; omega), List.take_of_length_le (by rw [le_length]; omega)]
  have hu : unle (le 4 (twos64 i % 2 ^ 32)) = twos64 i % 2 ^ 32 := by rw [unle_le]; exact Nat.mod_eq_of_lt (by omega)
  cases k <;> simp [IntKind.inRange, IntKind.signed, IntKind.bits] at hr <;> simp only [] at hw <;>
    first
    | (cases hw; done)
    | (split at hw
       · rename_i hf
         simp only [wireInt, hf, if_true, if_neg hl, ht, hu, Option.map_some]
         unfold twos64
         congr 2
         split <;> (try split) <;> omega
       · cases hw)

theorem sent_notIface {t : Ty} {fo : FOpts} {v : Val} {b : Bytes} (h : PSent Γ c t fo v b) : Γ.shape t.deref ≠ .iface := by
  induction t generalizing v with
  | ptr t ih => cases h with | ptr h => exact ih h
  | base id =>
    intro hi
    change Γ.shape id = _ at hi
    cases h <;> simp_all

theorem sent_pos {t : Ty} {fo : FOpts} {v : Val} {b : Bytes} (h : PSent Γ c t fo v b) : 0 < b.length := by
  have hv : ∀ n : Nat, 0 < (varint n).length := fun n => by unfold varint; split <;> simp
  induction t generalizing v with
  | ptr t ih => cases h with | ptr h => exact ih h
  | base id =>
    cases h with
    | sint _ _ _ _ h | int _ _ _ _ _ _ h | noBytes _ _ h => exact number_pos h
    | fixed64 | fixed32 | double | float => rw [le_length]; omega
    | bool => simp
    | string _ _ h | bytes _ _ _ _ h => rw [List.length_append]; have := number_pos h; omega
    | time | packed | message =>
      rw [List.length_append]
      exact Nat.add_pos_left (hv _) _

theorem framed_minimal {b r : Bytes} (h : b.length < 2 ^ 63) :
    Framed false ((varint b.length ++ b) ++ r) b (varint b.length).length := by
  rw [List.append_assoc]
  exact .counted (number_minimal (by omega)) h

theorem counted_of {d s r : Bytes} (h : Number s.length d) (hl : s.length < 2 ^ 63) : Counted s (d ++ s).length ((d ++ s) ++ r) :=
  ⟨d, r, by simp, h, hl, by simp⟩

/-- A timestamp is a time. -/
theorem stamp_time {s ns : Int} {b : Bytes} (h : PStamp s ns b) (h1 : -62135596800 ≤ s) (h2 : s < 253402300800) (h3 : ns ≤ 999999999) :
    TimeText b b.length s ns := by
  have hs : s = (if twos64 s < 2 ^ 63 then (twos64 s : Int) else (twos64 s : Int) - 2 ^ 64) :=
    (twos64_back (by omega) (by omega)).symm
  cases h with
  | none => exact ⟨[], [], .none, .none, rfl⟩
  | @secs _ key d hk hd =>
    refine ⟨[], [], ?_, .none, rfl⟩
    have := Secs.some (r := []) hk hd hs h1 h2
    rwa [List.append_nil] at this
  | @nanos n key d hk hd =>
    refine ⟨key ++ d, [], .nanosFirst hk, ?_, rfl⟩
    have := Nanos.some (r := []) hk hd (by omega)
    rwa [List.append_nil] at this
  | @both _ n key d key' d' hk hd hk' hd' =>
    refine ⟨key' ++ d', [], .some hk hd hs h1 h2, ?_, rfl⟩
    have := Nanos.some (r := []) hk' hd' (by omega)
    rwa [List.append_nil] at this

theorem stamp_length {s ns : Int} {b : Bytes} (h : PStamp s ns b) : b.length < 2 ^ 63 := by
  cases h with
  | none => simp
  | secs hk hd | nanos hk hd =>
    have := hk.1.2.1; have := hd.2.1
    rw [List.length_append]; omega
  | both hk hd hk' hd' =>
    have := hk.1.2.1; have := hd.2.1; have := hk'.1.2.1; have := hd'.2.1
    simp only [List.length_append]; omega

theorem unknown_le {a b : Nat} {x : Bytes} (h : Unknown b x) (hab : a ≤ b) : Unknown a x := by
  cases h with
  | nil => exact .nil
  | cons hk hl hs hr => exact .cons hk (by omega) hs hr

theorem ended_le {a b : Nat} {x : Bytes} (h : Ended b x) (hab : a ≤ b) : Ended a x := by
  rcases h with h | ⟨n, t, k, q, h1, h2, h3⟩
  · exact .inl h
  · exact .inr ⟨n, t, k, q, h1, h2, by omega⟩

theorem lenKind_wire {id : TId} {fo : FOpts} (h : lenKind Γ id = true) : wireType Γ id fo = 2 := by
  unfold lenKind at h
  unfold wireType
  split at h <;> simp_all

theorem lenKind_notByte {e : Ty} (h : lenKind Γ e.deref = true) : Γ.isByteKind e = false := by
  cases e with
  | ptr => rfl
  | base id =>
    change lenKind Γ id = true at h
    unfold lenKind at h
    unfold Prog.isByteKind
    split at h <;> simp_all

theorem repeated_elem {f : Field} {id : TId} {e : Ty} (hf : f.ty = .base id) (hs : Γ.shape id = .slice e) (h : repeated Γ f = true) :
    lenKind Γ e.deref = true := by
  unfold repeated at h
  rw [hf] at h
  simpa [hs] using h

theorem zeroed_zero {e : Ty} {fo : FOpts} {x : Item} (hk : keepEmpty Γ e fo = false) (h : x.text.head? = some 0) : Zeroed Γ e fo x :=
  ⟨h, hk⟩

theorem keyText_ne {num typ : Nat} {key : Bytes} (h : KeyText num typ key) : key ≠ [] := by
  intro h'
  have := number_pos h.1
  rw [h'] at this
  exact absurd this (by simp)

/-- The fields of a message, as read. -/
def FieldsRead (Γ : Prog) (c : Codec) (num last : Nat) (fs : List Field) (vs : List Val) (b : Bytes) : Prop :=
  ∃ l last' r, fs = l.map FieldStep.field ∧ l.map FieldStep.old = fs.map (fun f => Γ.zeroTy f.ty) ∧ l.map FieldStep.new = vs ∧
    Layout Γ c num last b l last' r ∧ Unknown last' r ∧
    (∀ s ∈ l, s.found = .repeated → BRead Γ c s.field.ty { s.field.opts with fnum := s.num } true s.old s.text s.used s.new) ∧
    (∀ s ∈ l, s.found = .keyed → BRead Γ c s.field.ty { s.field.opts with fnum := s.num } false s.old s.text s.used s.new)

theorem fieldsRead_struct (hZ : ZeroOk Γ) {id : TId} {fs : List Field} {fo : FOpts} {whole : Bool} {b body : Bytes} {k : Nat}
    {vs : List Val} (hu : Γ.unmarsh id = none) (hs : Γ.shape id = .struct fs) (hf : Framed whole b body k)
    (h : FieldsRead Γ c 0 0 fs vs body) : BRead Γ c (.base id) fo whole (Γ.zero id) b (k + body.length) (.struct vs) := by
  obtain ⟨l, last', r, h1, h2, h3, h4, h5, h6, h7⟩ := h
  have := BRead.struct (Γ := Γ) (c := c) (fo := fo) hu hs hf h1 h4 h5 h6 h7
  rw [h2, h3, ← hZ.struct hs] at this
  exact this

theorem sent_all (hZ : ZeroOk Γ) :
    (∀ {t fo v b}, PSent Γ c t fo v b → ∀ r, BRead Γ c t fo false (Γ.zeroTy t) (b ++ r) b.length v) ∧
    (∀ {num fs vs b}, SentFields Γ c num fs vs b → Ended num b ∧ ∀ last, last ≤ num → FieldsRead Γ c num last fs vs b) := by
  let M1 : ∀ t fo v b, PSent Γ c t fo v b → Prop := fun t fo v b _ =>
    ∀ r, BRead Γ c t fo false (Γ.zeroTy t) (b ++ r) b.length v
  let M2 : ∀ e fo vs b, SentPacked Γ c e fo vs b → Prop := fun e fo vs b _ =>
    ∃ l : List Step, l.map Step.new = vs ∧ Chain l b ∧ (∀ s ∈ l, s.text ≠ []) ∧
      ∀ s ∈ l, BRead Γ c (.base e) fo false (Γ.zeroTy (.base e)) s.text s.used s.new
  let M3 : ∀ e fo vs b, SentItems Γ c e fo vs b → Prop := fun e fo vs b _ =>
    ∀ r, ∃ l : List Item, l.map Item.new = vs ∧ Items fo.fnum l (b ++ r) r ∧
      (∀ x ∈ l, Zeroed Γ e fo x → x.used = 1 ∧ x.new = absent Γ e) ∧
      (∀ x ∈ l, ¬ Zeroed Γ e fo x → BRead Γ c e { fo with fnum := 1 } false (Γ.zeroTy e) x.text x.used x.new)
  let M4 : ∀ num fs vs b, SentFields Γ c num fs vs b → Prop := fun num fs vs b _ =>
    Ended num b ∧ ∀ last, last ≤ num → FieldsRead Γ c num last fs vs b
  have c1 : ∀ {t fo v b} (h : PSent Γ c t fo v b), M1 t fo v b h → M1 (.ptr t) fo (.ptr v) b (.ptr h) := by
    intro t fo v b h ih r
    refine .ptr (sent_notIface h) ?_
    cases t <;> exact ih r
  have c2 : ∀ {id k fo i d} (h1 : Γ.unmarsh id = none) (h2 : Γ.shape id = .int k) (h3 : k = .int8 ∨ k = .int16) (h4 : k.inRange i)
      (h5 : Number (zig i) d), M1 (.base id) fo (.int i) d (.sint h1 h2 h3 h4 h5) := by
    intro id k fo i d h1 h2 h3 h4 h5 r
    exact .int h1 h2 (by rcases h3 with rfl | rfl <;> intro h <;> cases h) (wireInt_sint h3 h5) h4
  have c3 : ∀ {id k fo i d} (h1 : Γ.unmarsh id = none) (h2 : Γ.shape id = .int k) (h3 : k ≠ .int8) (h4 : k ≠ .int16)
      (h5 : wireType Γ id fo = 0) (h6 : k.inRange i) (h7 : Number (twos64 i) d),
      M1 (.base id) fo (.int i) d (.int h1 h2 h3 h4 h5 h6 h7) := by
    intro id k fo i d h1 h2 h3 h4 h5 h6 h7 r
    by_cases hk : k = .uint32
    · subst hk
      have hf : fo.fixed32 = false := by
        unfold wireType at h5
        rw [h2] at h5
        cases hf : fo.fixed32 with
        | false => rfl
        | true => simp [hf] at h5
      have := BRead.uint32 (Γ := Γ) (c := c) (whole := false) (old := Γ.zeroTy (.base id)) (r := r) h1 h2 hf h7
      have he : ((twos64 i % 2 ^ 32 : Nat) : Int) = i := by
        simp [IntKind.inRange, IntKind.signed, IntKind.bits] at h6
        unfold twos64
        rw [if_neg (by omega)]
        omega
      rwa [he] at this
    · exact .int h1 h2 (fun h => absurd h hk) (wireInt_varint h2 h3 h4 h5 h6 h7) h6
  have c4 : ∀ {id k fo i} (h1 : Γ.unmarsh id = none) (h2 : Γ.shape id = .int k) (h3 : wireType Γ id fo = 1) (h4 : k.inRange i),
      M1 (.base id) fo (.int i) (le 8 (twos64 i)) (.fixed64 h1 h2 h3 h4) := by
    intro id k fo i h1 h2 h3 h4 r
    rw [le_length]
    refine .int h1 h2 ?_ (wireInt_fixed64 h2 h3 h4) h4
    rintro rfl
    unfold wireType at h3
    rw [h2] at h3
    simp only [] at h3
    split at h3 <;> cases h3
  have c5 : ∀ {id k fo i} (h1 : Γ.unmarsh id = none) (h2 : Γ.shape id = .int k) (h3 : wireType Γ id fo = 5) (h4 : k.inRange i),
      M1 (.base id) fo (.int i) (le 4 (twos64 i % 2 ^ 32)) (.fixed32 h1 h2 h3 h4) := by
    intro id k fo i h1 h2 h3 h4 r
    rw [le_length]
    refine .int h1 h2 ?_ (wireInt_fixed32 h2 h3 h4) h4
    rintro rfl
    unfold wireType at h3
    rw [h2] at h3
    simp only [] at h3
    split at h3
    · assumption
    · cases h3
  have c6 : ∀ {id fo x} (h1 : Γ.unmarsh id = none) (h2 : Γ.shape id = .bool), M1 (.base id) fo (.bool x) _ (.bool h1 h2) := by
    intro id fo x h1 h2 r
    cases x
    · exact .false h1 h2
    · exact .true h1 h2
  have c7 : ∀ {id fo x} (h1 : Γ.unmarsh id = none) (h2 : Γ.shape id = .float64) (h3 : fo.floatOk = true),
      M1 (.base id) fo (.f64 x) _ (.double h1 h2 h3) := by
    intro id fo x h1 h2 h3 r
    have := BRead.float64 (Γ := Γ) (c := c) (fo := fo) (whole := false) (old := Γ.zeroTy (.base id)) (r := r) h1 h2 h3
      (le_length 8 x.toNat)
    rw [unle_le, Nat.mod_eq_of_lt (show x.toNat < 256 ^ 8 from by have := x.toNat_lt; omega)] at this
    rw [le_length]
    simpa using this
  have c8 : ∀ {id fo x} (h1 : Γ.unmarsh id = none) (h2 : Γ.shape id = .float32) (h3 : fo.floatOk = true) (h4 : x.toNat < 2 ^ 32),
      M1 (.base id) fo (.f32 x) _ (.float h1 h2 h3 h4) := by
    intro id fo x h1 h2 h3 h4 r
    have := BRead.float32 (Γ := Γ) (c := c) (fo := fo) (whole := false) (old := Γ.zeroTy (.base id)) (r := r) h1 h2 h3
      (le_length 4 x.toNat)
    rw [unle_le, Nat.mod_eq_of_lt (show x.toNat < 256 ^ 4 from by omega)] at this
    rw [le_length]
    simpa using this
  have c9 : ∀ {id fo d s} (h1 : Γ.unmarsh id = none) (h2 : Γ.shape id = .string) (h3 : Number s.length d) (h4 : s.length < 2 ^ 63),
      M1 (.base id) fo (.str s) _ (.string h1 h2 h3 h4) := by
    intro id fo d s h1 h2 h3 h4 r
    exact .str h1 h2 (counted_of h3 h4)
  have c10 : ∀ {id fo d} (h1 : Γ.unmarsh id = none) (h2 : Γ.shape id = .slice (.base Γ.byteId)) (h3 : Number 0 d)
      (h4 : Γ.isByteKind (.base Γ.byteId) = true), M1 (.base id) fo .nil d (.noBytes h1 h2 h3 h4) := by
    intro id fo d h1 h2 h3 h4 r
    exact .emptyBytes h1 h2 h4 ⟨d, r, rfl, h3, by simp, by simp⟩
  have c11 : ∀ {id fo d s} (h1 : Γ.unmarsh id = none) (h2 : Γ.shape id = .slice (.base Γ.byteId)) (h3 : s ≠ [])
      (h4 : Γ.isByteKind (.base Γ.byteId) = true) (h5 : Number s.length d) (h6 : s.length < 2 ^ 63),
      M1 (.base id) fo (.bytes s) _ (.bytes h1 h2 h3 h4 h5 h6) := by
    intro id fo d s h1 h2 h3 h4 h5 h6 r
    exact .bytes h1 h2 h4 (counted_of h5 h6) h3
  have c12 : ∀ {id fo s ns b} (h1 : Γ.unmarsh id = none) (h2 : Γ.shape id = .time) (h3 : PStamp s ns b) (h4 : -62135596800 ≤ s)
      (h5 : s < 253402300800) (h6 : ns ≤ 999999999), M1 (.base id) fo (.time s ns) _ (.time h1 h2 h3 h4 h5 h6) := by
    intro id fo s ns b h1 h2 h3 h4 h5 h6 r
    rw [List.length_append]
    exact .time h1 h2 (framed_minimal (stamp_length h3)) (stamp_time h3 h4 h5 h6)
  have c13 : ∀ {id eid fo vs b} (h1 : Γ.unmarsh id = none) (h2 : Γ.shape id = .slice (.base eid))
      (h3 : Γ.isByteKind (.base eid) = false) (h4 : Known Γ c eid) (h5 : wireType Γ eid fo ≠ 2) (h6 : SentPacked Γ c eid fo vs b)
      (h7 : b.length < 2 ^ 63), M2 eid fo vs b h6 → M1 (.base id) fo _ _ (.packed h1 h2 h3 h4 h5 h6 h7) := by
    rintro id eid fo vs b h1 h2 h3 h4 h5 h6 h7 ⟨l, hl1, hl2, hl3, hl4⟩ r
    rw [List.length_append]
    have := BRead.packed (Γ := Γ) (c := c) (old := Γ.zeroTy (.base id)) h1 h2 h3 h4 h5 (framed_minimal (r := r) h7) hl2 hl3 hl4
    have he : (l.map fun s => elemOf Γ (.base eid) s.new) = vs := by
      rw [← hl1]
      rfl
    rw [he] at this
    have hn : (l = []) = (vs = []) := by rw [← hl1]; simp
    simp only [hn] at this
    exact this
  have c14 : ∀ {id fs fo vs b} (h1 : Γ.unmarsh id = none) (h2 : Γ.shape id = .struct fs) (h3 : SentFields Γ c 0 fs vs b)
      (h4 : b.length < 2 ^ 63), M4 0 fs vs b h3 → M1 (.base id) fo (.struct vs) _ (.message h1 h2 h3 h4) := by
    rintro id fs fo vs b h1 h2 h3 h4 ⟨_, ih⟩ r
    rw [List.length_append]
    exact fieldsRead_struct hZ h1 h2 (framed_minimal h4) (ih 0 (Nat.le_refl _))
  have p1 : ∀ {e fo}, M2 e fo [] [] .nil := by
    intro e fo
    exact ⟨[], rfl, rfl, by simp, by simp⟩
  have p2 : ∀ {e fo v vs p b} (h1 : PSent Γ c (.base e) fo v p) (h2 : SentPacked Γ c e fo vs b), M1 _ _ _ _ h1 → M2 _ _ _ _ h2 →
      M2 e fo (v :: vs) (p ++ b) (.cons h1 h2) := by
    rintro e fo v vs p b h1 h2 ih1 ⟨l, hl1, hl2, hl3, hl4⟩
    refine ⟨⟨p ++ b, p.length, .nil, v⟩ :: l, by simp [hl1], ⟨rfl, by simpa using hl2⟩, ?_, ?_⟩
    · intro s hs
      rcases List.mem_cons.mp hs with rfl | hs
      · have := sent_pos h1
        intro h
        rw [(List.append_eq_nil_iff.mp h).1] at this
        exact absurd this (by simp)
      · exact hl3 s hs
    · intro s hs
      rcases List.mem_cons.mp hs with rfl | hs
      · exact ih1 b
      · exact hl4 s hs
  have i1 : ∀ {e fo}, M3 e fo [] [] .nil := by
    intro e fo r
    exact ⟨[], rfl, rfl, by simp, by simp⟩
  have i2 : ∀ {e fo vs key b} (h1 : keepEmpty Γ e fo = false) (h2 : KeyText fo.fnum 2 key) (h3 : SentItems Γ c e fo vs b),
      M3 _ _ _ _ h3 → M3 e fo _ _ (.empty h1 h2 h3) := by
    intro e fo vs key b h1 h2 h3 ih r
    obtain ⟨l, hl1, hl2, hl3, hl4⟩ := ih r
    refine ⟨⟨key, 0 :: (b ++ r), 1, .nil, absent Γ e⟩ :: l, by simp [hl1], ⟨h2, by simp, by simpa using hl2⟩, ?_, ?_⟩
    · intro x hx hz
      rcases List.mem_cons.mp hx with rfl | hx
      · exact ⟨rfl, rfl⟩
      · exact hl3 x hx hz
    · intro x hx hz
      rcases List.mem_cons.mp hx with rfl | hx
      · exact absurd (zeroed_zero h1 rfl) hz
      · exact hl4 x hx hz
  have i3 : ∀ {e fo v vs key p b} (h1 : KeyText fo.fnum 2 key) (h2 : PSent Γ c e { fo with fnum := 1 } v p)
      (h3 : p.head? ≠ some 0 ∨ keepEmpty Γ e fo = true) (h4 : SentItems Γ c e fo vs b),
      M1 _ _ _ _ h2 → M3 _ _ _ _ h4 → M3 e fo (v :: vs) (key ++ (p ++ b)) (.cons h1 h2 h3 h4) := by
    intro e fo v vs key p b h1 h2 h3 h4 ih1 ih2 r
    obtain ⟨l, hl1, hl2, hl3, hl4⟩ := ih2 r
    have hp := sent_pos h2
    refine ⟨⟨key, p ++ (b ++ r), p.length, .nil, v⟩ :: l, by simp [hl1], ⟨h1, by simp, by simpa using hl2⟩, ?_, ?_⟩
    · intro x hx hz
      rcases List.mem_cons.mp hx with rfl | hx
      · exfalso
        obtain ⟨hz1, hz2⟩ := hz
        rcases h3 with h3 | h3
        · cases p with
          | nil => simp at hp
          | cons => exact h3 hz1
        · rw [h3] at hz2; cases hz2
      · exact hl3 x hx hz
    · intro x hx hz
      rcases List.mem_cons.mp hx with rfl | hx
      · exact ih1 (b ++ r)
      · exact hl4 x hx hz
  have f1 : ∀ {num b} (h : Unknown num b), M4 num [] [] b (.unknown h) := by
    intro num b h
    refine ⟨?_, fun last hl => ⟨[], last, b, rfl, rfl, rfl, .nil, unknown_le h hl, by simp, by simp⟩⟩
    cases h with
    | nil => exact .inl rfl
    | cons hk hl _ _ => exact .inr ⟨_, _, _, _, rfl, hk, hl⟩
  have f2 : ∀ {num f fs vs b} (h1 : f.visible = false) (h2 : SentFields Γ c num fs vs b), M4 _ _ _ _ h2 →
      M4 num (f :: fs) (Γ.zeroTy f.ty :: vs) b (.hidden h1 h2) := by
    rintro num f fs vs b h1 h2 ⟨ih1, ih2⟩
    refine ⟨ih1, fun last hl => ?_⟩
    obtain ⟨l, last', r, a1, a2, a3, a4, a5, a6, a7⟩ := ih2 last hl
    refine ⟨⟨.hidden, f, 0, [], 0, Γ.zeroTy f.ty, Γ.zeroTy f.ty⟩ :: l, last', r, by simp [← a1], by simp [a2], by simp [a3],
      .hidden rfl h1 rfl a4, a5, ?_, ?_⟩
    · intro s hs hf
      rcases List.mem_cons.mp hs with rfl | hs
      · cases hf
      · exact a6 s hs hf
    · intro s hs hf
      rcases List.mem_cons.mp hs with rfl | hs
      · cases hf
      · exact a7 s hs hf
  have f3 : ∀ {num f fs vs b} (h1 : f.visible = true) (h2 : Known Γ c f.ty.deref) (h3 : repeated Γ f = false)
      (h4 : SentFields Γ c (num + 1) fs vs b), M4 _ _ _ _ h4 → M4 num (f :: fs) (absent Γ f.ty :: vs) b (.absent h1 h2 h3 h4) := by
    rintro num f fs vs b h1 h2 h3 h4 ⟨ih1, ih2⟩
    refine ⟨ended_le ih1 (by omega), fun last hl => ?_⟩
    obtain ⟨l, last', r, a1, a2, a3, a4, a5, a6, a7⟩ := ih2 last (by omega)
    refine ⟨⟨.absent, f, 0, [], 0, Γ.zeroTy f.ty, absent Γ f.ty⟩ :: l, last', r, by simp [← a1], by simp [a2], by simp [a3],
      .absent rfl h1 h2 rfl (.inr ⟨h3, ih1⟩) a4, a5, ?_, ?_⟩
    · intro s hs hf
      rcases List.mem_cons.mp hs with rfl | hs
      · cases hf
      · exact a6 s hs hf
    · intro s hs hf
      rcases List.mem_cons.mp hs with rfl | hs
      · cases hf
      · exact a7 s hs hf
  have f4 : ∀ {num f fs v vs key p b} (h1 : f.visible = true) (h2 : Known Γ c f.ty.deref) (h3 : repeated Γ f = false)
      (h4 : KeyText (num + 1) (wireType Γ f.ty.deref f.opts) key) (h5 : PSent Γ c f.ty { f.opts with fnum := num + 1 } v p)
      (h6 : SentFields Γ c (num + 1) fs vs b), M1 _ _ _ _ h5 → M4 _ _ _ _ h6 →
      M4 num (f :: fs) (v :: vs) (key ++ (p ++ b)) (.present h1 h2 h3 h4 h5 h6) := by
    rintro num f fs v vs key p b h1 h2 h3 h4 h5 h6 ih5 ⟨ih1, ih2⟩
    refine ⟨.inr ⟨_, _, _, _, rfl, h4, by omega⟩, fun last hl => ?_⟩
    obtain ⟨l, last', r, a1, a2, a3, a4, a5, a6, a7⟩ := ih2 (num + 1) (Nat.le_refl _)
    refine ⟨⟨.keyed, f, num + 1, p ++ b, p.length, Γ.zeroTy f.ty, v⟩ :: l, last', r, by simp [← a1], by simp [a2], by simp [a3],
      .keyed (s := ⟨.keyed, f, num + 1, p ++ b, p.length, Γ.zeroTy f.ty, v⟩) rfl h1 h2 h3 rfl h4 (by simpa using a4), a5, ?_, ?_⟩
    · intro s hs hf
      rcases List.mem_cons.mp hs with rfl | hs
      · cases hf
      · exact a6 s hs hf
    · intro s hs hf
      rcases List.mem_cons.mp hs with rfl | hs
      · exact ih5 b
      · exact a7 s hs hf
  have f5 : ∀ {num f id fs e us vs p b} (h1 : f.visible = true) (h2 : f.ty = .base id) (h3 : Γ.unmarsh id = none)
      (h4 : Γ.shape id = .slice e) (h5 : repeated Γ f = true) (h6 : Known Γ c e.deref)
      (h7 : SentItems Γ c e { f.opts with fnum := num + 1 } us p) (h8 : SentFields Γ c (num + 1) fs vs b), M3 _ _ _ _ h7 →
      M4 _ _ _ _ h8 → M4 num (f :: fs) _ (p ++ b) (.repeated h1 h2 h3 h4 h5 h6 h7 h8) := by
    rintro num f id fs e us vs p b h1 h2 h3 h4 h5 h6 h7 h8 ih7 ⟨ih1, ih2⟩
    have hKn : Known Γ c f.ty.deref := by
      rw [h2]
      refine ⟨fun h => ?_, fun fs h => ?_⟩
      · rw [show (Ty.base id).deref = id from rfl, h4] at h; cases h
      · rw [show (Ty.base id).deref = id from rfl, h4] at h; cases h
    obtain ⟨il, b1, b2, b3, b4⟩ := ih7 b
    refine ⟨?_, fun last hl => ?_⟩
    · cases h7 with
      | nil => exact ended_le ih1 (by omega)
      | empty _ hk _ => exact .inr ⟨_, _, _, _, by rw [List.append_assoc], hk, by simp⟩
      | cons hk _ _ _ => exact .inr ⟨_, _, _, _, by rw [List.append_assoc], hk, by simp⟩
    obtain ⟨l, last', r, a1, a2, a3, a4, a5, a6, a7⟩ := ih2 last (by omega)
    by_cases he : p ++ b = []
    · have hp : p = [] := (List.append_eq_nil_iff.mp he).1
      have hb : b = [] := (List.append_eq_nil_iff.mp he).2
      have hus : us = [] := by
        cases h7 with
        | nil => rfl
        | empty _ hk _ => exact absurd (List.append_eq_nil_iff.mp hp).1 (keyText_ne hk)
        | cons hk _ _ _ => exact absurd (List.append_eq_nil_iff.mp hp).1 (keyText_ne hk)
      have hz : absent Γ f.ty = .nil := by
        rw [h2]
        unfold absent
        rw [show (Ty.base id).deref = id from rfl, h4]
        exact hZ.slice h4
      rw [if_pos hus, he]
      rw [hb] at a4
      refine ⟨⟨.absent, f, 0, [], 0, Γ.zeroTy f.ty, .nil⟩ :: l, last', r, by simp [← a1], by simp [a2], by simp [a3],
        .absent rfl h1 hKn hz.symm (.inl rfl) a4, a5, ?_, ?_⟩
      · intro s hs hf
        rcases List.mem_cons.mp hs with rfl | hs
        · cases hf
        · exact a6 s hs hf
      · intro s hs hf
        rcases List.mem_cons.mp hs with rfl | hs
        · cases hf
        · exact a7 s hs hf
    · have hlk := repeated_elem h2 h4 h5
      have hr : BRead Γ c f.ty { f.opts with fnum := num + 1 } true (Γ.zeroTy f.ty) (p ++ b) (0 + p.length)
          (if us = [] then .nil else .list us) := by
        rw [h2]
        have := BRead.slice (Γ := Γ) (c := c) (old := Γ.zeroTy (.base id)) (fo := { f.opts with fnum := num + 1 }) (n := p.length) h3 h4
          (lenKind_notByte hlk) h6 (lenKind_wire hlk) .whole b2 ih1 (by simp) b3 b4
        have hn : (il = []) = (us = []) := by rw [← b1]; simp
        rw [b1] at this
        simp only [hn] at this
        exact this
      rw [Nat.zero_add] at hr
      refine ⟨⟨.repeated, f, num + 1, p ++ b, p.length, Γ.zeroTy f.ty, if us = [] then .nil else .list us⟩ :: l, last', r,
        by simp [← a1], by simp [a2], by simp [a3],
        .repeated (s := ⟨.repeated, f, num + 1, p ++ b, p.length, Γ.zeroTy f.ty, if us = [] then .nil else .list us⟩) rfl h1 hKn h5 he
          rfl (by simpa using a4), a5, ?_, ?_⟩
      · intro s hs hf
        rcases List.mem_cons.mp hs with rfl | hs
        · exact hr
        · exact a6 s hs hf
      · intro s hs hf
        rcases List.mem_cons.mp hs with rfl | hs
        · cases hf
        · exact a7 s hs hf
  exact ⟨fun h => PSent.rec (motive_1 := M1) (motive_2 := M2) (motive_3 := M3) (motive_4 := M4)
      c1 c2 c3 c4 c5 c6 c7 c8 c9 c10 c11 c12 c13 c14 p1 p2 i1 i2 i3 f1 f2 f3 f4 f5 h,
    fun h => SentFields.rec (motive_1 := M1) (motive_2 := M2) (motive_3 := M3) (motive_4 := M4)
      c1 c2 c3 c4 c5 c6 c7 c8 c9 c10 c11 c12 c13 c14 p1 p2 i1 i2 i3 f1 f2 f3 f4 f5 h⟩

end Amino
