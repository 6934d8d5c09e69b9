import Verif.BReadPrim
import Verif.FuelMono

/-!
# The decoder against the specification of what bytes are read as
-/

namespace Amino
open Spec

variable {Γ : Prog} {c : Codec} {rec : Ty → Val → FOpts → Bool → Bytes → DRes Val}

/-! ## The loops -/

theorem elemOf_eq (e : Ty) (v : Val) : elemOf Γ e v = preferNil Γ e v := by
  unfold elemOf preferNil Prog.isDefault
  rw [pointee_eq]
  cases derefVal e v with
  | none => rfl
  | some dv => simp only [dflt_eq]

theorem packedSlice_inv {e : Ty} {fo : FOpts} {k n m : Nat} {b : Bytes} {vs : List Val}
    (h : decPackedSlice Γ rec e fo k b n = .ok m vs) :
    ∃ l : List Step, Chain l b ∧ (∀ s ∈ l, s.text ≠ []) ∧ (∀ s ∈ l, rec e (Γ.zeroTy e) fo false s.text = .ok s.used s.new) ∧
      vs = l.map (fun s => elemOf Γ e s.new) ∧ m = n + b.length := by
  induction k generalizing b n m vs with
  | zero =>
    cases b with
    | nil => cases h; exact ⟨[], rfl, by simp, by simp, rfl, rfl⟩
    | cons => cases h
  | succ k ih =>
    cases b with
    | nil => cases h; exact ⟨[], rfl, by simp, by simp, rfl, rfl⟩
    | cons x xs =>
      rw [decPackedSlice] at h
      · obtain ⟨j, v, hv, hj, h⟩ := andSlide_inv h
        obtain ⟨ws, h', rfl⟩ := map_inv h
        obtain ⟨l, h1, h2, h3, rfl, rfl⟩ := ih h'
        refine ⟨⟨x :: xs, j, .nil, v⟩ :: l, ⟨rfl, h1⟩, ?_, ?_, ?_, ?_⟩
        · intro s hs
          rcases List.mem_cons.mp hs with rfl | hs
          · simp
          · exact h2 s hs
        · intro s hs
          rcases List.mem_cons.mp hs with rfl | hs
          · exact hv
          · exact h3 s hs
        · simp [elemOf_eq]
        · rw [List.length_drop]; omega
      all_goals simp

theorem packedSlice_of {e : Ty} {fo : FOpts} {l : List Step} : ∀ {b : Bytes}, Chain l b → (∀ s ∈ l, s.text ≠ []) →
    (∀ s ∈ l, rec e (Γ.zeroTy e) fo false s.text = .ok s.used s.new) → (∀ s ∈ l, 1 ≤ s.used ∧ s.used ≤ s.text.length) →
    ∀ k n, b.length ≤ k → decPackedSlice Γ rec e fo k b n = .ok (n + b.length) (l.map fun s => elemOf Γ e s.new) := by
  induction l with
  | nil => intro b h _ _ _ k n _; cases h; cases k <;> rfl
  | cons s l ih =>
    intro b h h1 h2 h3 k n hk
    obtain ⟨rfl, h⟩ := h
    have hs := h3 s (by simp)
    cases k with
    | zero => omega
    | succ k =>
      obtain ⟨x, xs, hx⟩ : ∃ x xs, s.text = x :: xs := by
        cases ht : s.text with
        | nil => exact absurd ht (h1 s (by simp))
        | cons x xs => exact ⟨x, xs, rfl⟩
      rw [hx, decPackedSlice, ← hx, h2 s (by simp), andSlide_of _ hs.2]
      · rw [ih h (fun s hs => h1 s (by simp [hs])) (fun s hs => h2 s (by simp [hs])) (fun s hs => h3 s (by simp [hs])) k _
          (by rw [List.length_drop]; omega)]
        simp only [DRes.map_ok, List.map_cons, elemOf_eq, List.length_drop]
        congr 1
        omega
      all_goals simp

theorem zeroed_iff {e : Ty} {fo : FOpts} {x : Item} :
    (x.text.head? = some 0 ∧ ¬ ((e.isPtr && Γ.isStruct e.deref) && fo.emptyElements) = true) ↔ Zeroed Γ e fo x := by
  unfold Zeroed keepEmpty
  cases e.isPtr <;> cases Γ.isStruct e.deref <;> cases fo.emptyElements <;> simp

theorem ended_of {num n num' typ : Nat} {b : Bytes} (h : decodeKey b = .ok n (num', typ)) (hl : num < num') : Ended num b := by
  obtain ⟨key, r, h1, _, h2⟩ := key_iff.mp h
  exact .inr ⟨_, _, _, _, h1, h2, hl⟩

theorem ended_key {num : Nat} {b : Bytes} (h : Ended num b) (hb : b ≠ []) : ∃ n num' typ, decodeKey b = .ok n (num', typ) ∧ num < num' := by
  rcases h with h | ⟨num', typ, key, q, rfl, h1, h2⟩
  · exact absurd h hb
  · exact ⟨_, _, _, key_of h1, h2⟩

/-- What an item is read as. -/
def ItemRead (Γ : Prog) (rec : Ty → Val → FOpts → Bool → Bytes → DRes Val) (e : Ty) (fo : FOpts) (old : Val) (x : Item) : Prop :=
  (Zeroed Γ e fo x → x.used = 1 ∧ x.new = absent Γ e) ∧
  (¬ Zeroed Γ e fo x → rec e old { fo with fnum := 1 } false x.text = .ok x.used x.new)

theorem unpackedSlice_inv {e : Ty} {fo : FOpts} {k n m : Nat} {b : Bytes} {vs : List Val}
    (h : decUnpackedSlice Γ rec e fo k b n = .ok m vs) :
    ∃ (l : List Item) (r : Bytes), Items fo.fnum l b r ∧ Ended fo.fnum r ∧ (∀ x ∈ l, ItemRead Γ rec e fo (Γ.zeroTy e) x) ∧
      vs = l.map Item.new ∧ m + r.length = n + b.length := by
  induction k generalizing b n m vs with
  | zero =>
    cases b with
    | nil => cases h; exact ⟨[], [], rfl, .inl rfl, by simp, rfl, rfl⟩
    | cons => cases h
  | succ k ih =>
    cases b with
    | nil => cases h; exact ⟨[], [], rfl, .inl rfl, by simp, rfl, rfl⟩
    | cons y ys =>
      rw [decUnpackedSlice] at h
      · cases hk : decodeKey (y :: ys) with
        | err | panic | oof => rw [hk] at h; cases h
        | ok j ft =>
          obtain ⟨fnum, typ⟩ := ft
          rw [hk] at h
          simp only at h
          split at h
          · cases h
          split at h
          · cases h
            exact ⟨[], y :: ys, rfl, ended_of hk ‹_›, by simp, rfl, rfl⟩
          split at h
          · cases h
          rename_i hlt hgt htyp
          have hf : fnum = fo.fnum := by omega
          have ht : typ = 2 := by simpa [typ3ByteLength] using htyp
          subst hf ht
          obtain ⟨key, q, hb, rfl, hk'⟩ := key_iff.mp hk
          rw [hb] at h ⊢
          clear hk
          obtain ⟨hj, h⟩ := slideThen_inv h
          rw [List.drop_left] at h
          split at h
          · rename_i hz
            obtain ⟨hj, h⟩ := slideThen_inv h
            obtain ⟨ws, h', rfl⟩ := map_inv h
            obtain ⟨l, r, h1, h2, h3, rfl, h4⟩ := ih h'
            have hz' : Zeroed Γ e fo ⟨key, q, 1, .nil, Γ.defaultValue e⟩ := zeroed_iff.mp hz
            refine ⟨⟨key, q, 1, .nil, Γ.defaultValue e⟩ :: l, r, ⟨hk', rfl, h1⟩, h2, ?_, rfl, ?_⟩
            · intro x hx
              rcases List.mem_cons.mp hx with rfl | hx
              · exact ⟨fun _ => ⟨rfl, (absent_eq Γ e).symm⟩, fun h => absurd hz' h⟩
              · exact h3 x hx
            · rw [List.length_drop] at h4
              rw [List.length_append]
              omega
          · rename_i hz
            obtain ⟨j, v, hv, hj, h⟩ := andSlide_inv h
            obtain ⟨ws, h', rfl⟩ := map_inv h
            obtain ⟨l, r, h1, h2, h3, rfl, h4⟩ := ih h'
            have hz' : ¬ Zeroed Γ e fo ⟨key, q, j, .nil, v⟩ := fun h => hz (zeroed_iff.mpr h)
            refine ⟨⟨key, q, j, .nil, v⟩ :: l, r, ⟨hk', rfl, h1⟩, h2, ?_, rfl, ?_⟩
            · intro x hx
              rcases List.mem_cons.mp hx with rfl | hx
              · exact ⟨fun h => absurd h hz', fun _ => hv⟩
              · exact h3 x hx
            · rw [List.length_drop] at h4
              rw [List.length_append]
              omega
      all_goals simp

theorem items_len {num : Nat} {l : List Item} : ∀ {b r : Bytes}, Items num l b r → r.length ≤ b.length := by
  induction l with
  | nil => intro b r h; cases h; exact Nat.le_refl _
  | cons x l ih =>
    intro b r h
    obtain ⟨_, rfl, h⟩ := h
    have := ih h
    rw [List.length_drop] at this
    rw [List.length_append]
    omega

theorem counted_len {b s : Bytes} {n : Nat} (h : Counted s n b) : s.length ≤ b.length := by
  obtain ⟨d, r, rfl, _⟩ := h
  simp only [List.length_append]
  omega

theorem zeroed_len {e : Ty} {fo : FOpts} {x : Item} (h : Zeroed Γ e fo x) : 1 ≤ x.text.length := by
  have := h.1
  cases ht : x.text with
  | nil => rw [ht] at this; cases this
  | cons => simp

theorem unpackedSlice_of {e : Ty} {fo : FOpts} {l : List Item} {r : Bytes} (hr : Ended fo.fnum r) : ∀ {b : Bytes}, Items fo.fnum l b r →
    (∀ x ∈ l, ItemRead Γ rec e fo (Γ.zeroTy e) x) → (∀ x ∈ l, x.used ≤ x.text.length) →
    ∀ k n, b.length ≤ k → ∃ m, decUnpackedSlice Γ rec e fo k b n = .ok m (l.map Item.new) ∧ m + r.length = n + b.length := by
  induction l with
  | nil =>
    intro b h _ _ k n hk
    cases h
    cases r with
    | nil => exact ⟨n, by cases k <;> rfl, rfl⟩
    | cons y ys =>
      obtain ⟨j, num', typ, h1, h2⟩ := ended_key hr (by simp)
      cases k with
      | zero => simp at hk
      | succ k =>
        refine ⟨n, ?_, rfl⟩
        rw [decUnpackedSlice, h1]
        · simp only
          rw [if_neg (by omega), if_pos h2]
          rfl
        all_goals simp
  | cons x l ih =>
    intro b h h1 h2 k n hk
    obtain ⟨hkey, rfl, h⟩ := h
    have hp := key_pos hkey
    rw [List.length_append] at hk
    cases k with
    | zero => omega
    | succ k =>
      obtain ⟨y, ys, hx⟩ : ∃ y ys, x.key ++ x.text = y :: ys := by
        cases ht : x.key with
        | nil => rw [ht] at hp; simp at hp
        | cons x xs => exact ⟨_, _, rfl⟩
      obtain ⟨hz1, hz2⟩ := h1 x (by simp)
      obtain ⟨m, hm1, hm2⟩ := ih h (fun s hs => h1 s (by simp [hs])) (fun s hs => h2 s (by simp [hs])) k (n + x.key.length + x.used)
        (by rw [List.length_drop]; omega)
      have hu := h2 x (by simp)
      rw [hx, decUnpackedSlice, ← hx, key_of hkey]
      · simp only
        rw [if_neg (by omega), if_neg (by omega), if_neg (by simp [typ3ByteLength]), slideThen_of _ (by simp), List.drop_left]
        refine ⟨m, ?_, by rw [List.length_append]; rw [List.length_drop] at hm2; omega⟩
        split
        · rename_i hz
          obtain ⟨hu1, hu2⟩ := hz1 (zeroed_iff.mp hz)
          rw [slideThen_of _ (zeroed_len (zeroed_iff.mp hz)), ← hu1, hm1]
          simp [hu2, absent_eq]
        · rename_i hz
          rw [hz2 (fun h => hz (zeroed_iff.mpr h)), andSlide_of _ hu, hm1]
          rfl
      all_goals simp

theorem packedArr_inv {e : Ty} {fo : FOpts} {ps : List Val} {n m : Nat} {b : Bytes} {vs : List Val}
    (h : decPackedArr Γ rec e fo ps b n = .ok m vs) :
    ∃ l : List Step, Chain l b ∧ (∀ s ∈ l, rec e s.old fo false s.text = .ok s.used s.new) ∧ ps = l.map Step.old ∧
      vs = l.map (fun s => elemOf Γ e s.new) ∧ m = n + b.length := by
  induction ps generalizing b n m vs with
  | nil =>
    rw [decPackedArr] at h
    split at h
    · cases h
    · rename_i hb
      cases h
      have : b = [] := by cases b <;> simp_all
      subst this
      exact ⟨[], rfl, by simp, rfl, rfl, rfl⟩
  | cons p ps ih =>
    rw [decPackedArr] at h
    obtain ⟨j, v, hv, hj, h⟩ := andSlide_inv h
    obtain ⟨ws, h', rfl⟩ := map_inv h
    obtain ⟨l, h1, h2, rfl, rfl, rfl⟩ := ih h'
    refine ⟨⟨b, j, p, v⟩ :: l, ⟨rfl, h1⟩, ?_, rfl, ?_, ?_⟩
    · intro s hs
      rcases List.mem_cons.mp hs with rfl | hs
      · exact hv
      · exact h2 s hs
    · simp [elemOf_eq]
    · rw [List.length_drop]; omega

theorem packedArr_of {e : Ty} {fo : FOpts} {l : List Step} : ∀ {b : Bytes}, Chain l b →
    (∀ s ∈ l, rec e s.old fo false s.text = .ok s.used s.new) → (∀ s ∈ l, s.used ≤ s.text.length) →
    ∀ n, decPackedArr Γ rec e fo (l.map Step.old) b n = .ok (n + b.length) (l.map fun s => elemOf Γ e s.new) := by
  induction l with
  | nil => intro b h _ _ n; cases h; rfl
  | cons s l ih =>
    intro b h h2 h3 n
    obtain ⟨rfl, h⟩ := h
    have hs := h3 s (by simp)
    rw [List.map_cons, decPackedArr, h2 s (by simp), andSlide_of _ hs,
      ih h (fun s hs => h2 s (by simp [hs])) (fun s hs => h3 s (by simp [hs]))]
    simp only [DRes.map_ok, List.map_cons, elemOf_eq, List.length_drop]
    congr 1
    omega

theorem unpackedArr_inv {e : Ty} {fo : FOpts} {ps : List Val} {n m : Nat} {b : Bytes} {vs : List Val}
    (h : decUnpackedArr Γ rec e fo ps b n = .ok m vs) :
    ∃ (l : List Item) (r : Bytes), Items fo.fnum l b r ∧ Ended fo.fnum r ∧ (∀ x ∈ l, ItemRead Γ rec e fo x.old x) ∧
      ps = l.map Item.old ∧ vs = l.map Item.new ∧ m + r.length = n + b.length := by
  induction ps generalizing b n m vs with
  | nil =>
    rw [decUnpackedArr] at h
    split at h
    · cases hk : decodeKey b with
      | err | panic | oof => rw [hk] at h; cases h
      | ok j ft =>
        obtain ⟨fnum, typ⟩ := ft
        rw [hk] at h
        simp only at h
        split at h
        · cases h
        · cases h
          exact ⟨[], b, rfl, ended_of hk (by omega), by simp, rfl, rfl, rfl⟩
    · cases h
      have : b = [] := by cases b <;> simp_all
      subst this
      exact ⟨[], [], rfl, .inl rfl, by simp, rfl, rfl, rfl⟩
  | cons p ps ih =>
    rw [decUnpackedArr] at h
    cases hk : decodeKey b with
    | err | panic | oof => rw [hk] at h; cases h
    | ok j ft =>
      obtain ⟨fnum, typ⟩ := ft
      rw [hk] at h
      simp only at h
      split at h
      · cases h
      split at h
      · cases h
      rename_i hf htyp
      have hf : fnum = fo.fnum := by simpa using hf
      have ht : typ = 2 := by simpa [typ3ByteLength] using htyp
      subst hf ht
      obtain ⟨key, q, rfl, rfl, hk'⟩ := key_iff.mp hk
      clear hk
      obtain ⟨hj, h⟩ := slideThen_inv h
      rw [List.drop_left] at h
      split at h
      · rename_i hz
        obtain ⟨hj, h⟩ := slideThen_inv h
        obtain ⟨ws, h', rfl⟩ := map_inv h
        obtain ⟨l, r, h1, h2, h3, rfl, rfl, h4⟩ := ih h'
        have hz' : Zeroed Γ e fo ⟨key, q, 1, p, Γ.defaultValue e⟩ := zeroed_iff.mp hz
        refine ⟨⟨key, q, 1, p, Γ.defaultValue e⟩ :: l, r, ⟨hk', rfl, h1⟩, h2, ?_, rfl, rfl, ?_⟩
        · intro x hx
          rcases List.mem_cons.mp hx with rfl | hx
          · exact ⟨fun _ => ⟨rfl, (absent_eq Γ e).symm⟩, fun h => absurd hz' h⟩
          · exact h3 x hx
        · rw [List.length_drop] at h4
          rw [List.length_append]
          omega
      · rename_i hz
        obtain ⟨j, v, hv, hj, h⟩ := andSlide_inv h
        obtain ⟨ws, h', rfl⟩ := map_inv h
        obtain ⟨l, r, h1, h2, h3, rfl, rfl, h4⟩ := ih h'
        have hz' : ¬ Zeroed Γ e fo ⟨key, q, j, p, v⟩ := fun h => hz (zeroed_iff.mpr h)
        refine ⟨⟨key, q, j, p, v⟩ :: l, r, ⟨hk', rfl, h1⟩, h2, ?_, rfl, rfl, ?_⟩
        · intro x hx
          rcases List.mem_cons.mp hx with rfl | hx
          · exact ⟨fun h => absurd h hz', fun _ => hv⟩
          · exact h3 x hx
        · rw [List.length_drop] at h4
          rw [List.length_append]
          omega

theorem unpackedArr_of {e : Ty} {fo : FOpts} {l : List Item} {r : Bytes} (hr : Ended fo.fnum r) : ∀ {b : Bytes}, Items fo.fnum l b r →
    (∀ x ∈ l, ItemRead Γ rec e fo x.old x) → (∀ x ∈ l, x.used ≤ x.text.length) →
    ∀ n, ∃ m, decUnpackedArr Γ rec e fo (l.map Item.old) b n = .ok m (l.map Item.new) ∧ m + r.length = n + b.length := by
  induction l with
  | nil =>
    intro b h _ _ n
    cases h
    cases r with
    | nil => exact ⟨n, rfl, rfl⟩
    | cons y ys =>
      obtain ⟨j, num', typ, h1, h2⟩ := ended_key hr (by simp)
      refine ⟨n, ?_, rfl⟩
      rw [List.map_nil, decUnpackedArr, if_pos (by simp), h1]
      simp only
      rw [if_neg (by omega)]
      rfl
  | cons x l ih =>
    intro b h h1 h2 n
    obtain ⟨hkey, rfl, h⟩ := h
    obtain ⟨hz1, hz2⟩ := h1 x (by simp)
    obtain ⟨m, hm1, hm2⟩ := ih h (fun s hs => h1 s (by simp [hs])) (fun s hs => h2 s (by simp [hs])) (n + x.key.length + x.used)
    have hu := h2 x (by simp)
    rw [List.map_cons, decUnpackedArr, key_of hkey]
    simp only
    rw [if_neg (by simp), if_neg (by simp [typ3ByteLength]), slideThen_of _ (by simp), List.drop_left]
    refine ⟨m, ?_, by rw [List.length_append]; rw [List.length_drop] at hm2; omega⟩
    split
    · rename_i hz
      obtain ⟨hu1, hu2⟩ := hz1 (zeroed_iff.mp hz)
      rw [slideThen_of _ (zeroed_len (zeroed_iff.mp hz)), ← hu1, hm1]
      simp [hu2, absent_eq]
    · rename_i hz
      rw [hz2 (fun h => hz (zeroed_iff.mpr h)), andSlide_of _ hu, hm1]
      rfl

/-! ## The fields of a struct -/

/-- What a field is read as. -/
def FieldRead (rec : Ty → Val → FOpts → Bool → Bytes → DRes Val) (s : FieldStep) : Prop :=
  (s.found = .repeated → rec s.field.ty s.old { s.field.opts with fnum := s.num } true s.text = .ok s.used s.new) ∧
  (s.found = .keyed → rec s.field.ty s.old { s.field.opts with fnum := s.num } false s.text = .ok s.used s.new)

theorem typ3_setNum {id : TId} {fo : FOpts} {k : Nat} : Γ.typ3 id { fo with fnum := k } = Γ.typ3 id fo := rfl

theorem fields_inv {fs : List Field} {ps : List Val} {num last n m : Nat} {b : Bytes} {vs : List Val}
    (h : decFields Γ c rec fs ps num last b n = .ok m vs) :
    ∃ (l : List FieldStep) (last' : Nat) (r : Bytes), Layout Γ c num last b l last' r ∧ Unknown last' r ∧ (∀ s ∈ l, FieldRead rec s) ∧
      fs = l.map FieldStep.field ∧ ps = l.map FieldStep.old ∧ vs = l.map FieldStep.new ∧ m = n + b.length := by
  induction fs generalizing ps num last b n m vs with
  | nil =>
    cases ps with
    | nil =>
      rw [decFields] at h
      obtain ⟨_, h', rfl⟩ := map_inv h
      obtain ⟨h1, h2⟩ := consumeRest_inv h'
      exact ⟨[], last, b, .nil, h1, by simp, rfl, rfl, rfl, h2⟩
    | cons => cases h
  | cons f fs ih =>
    cases ps with
    | nil => cases h
    | cons p ps =>
      rw [decFields] at h
      split at h
      · rename_i hv
        obtain ⟨ws, h', rfl⟩ := map_inv h
        obtain ⟨l, last', r, h1, h2, h3, rfl, rfl, rfl, h4⟩ := ih h'
        refine ⟨⟨.hidden, f, num, b, 0, p, p⟩ :: l, last', r, .hidden rfl (by simpa using hv) rfl h1, h2, ?_, rfl, rfl, rfl, h4⟩
        intro s hs
        rcases List.mem_cons.mp hs with rfl | hs
        · exact ⟨fun h => by (cases h), fun h => by (cases h)⟩
        · exact h3 s hs
      · rename_i hv
        have hv : f.visible = true := by simpa using hv
        obtain ⟨hi, h⟩ := infoThen_inv h
        have hi := known_iff.mpr hi
        split at h
        · rename_i hb
          have hb : b = [] := List.length_eq_zero_iff.mp hb
          obtain ⟨ws, h', rfl⟩ := map_inv h
          obtain ⟨l, last', r, h1, h2, h3, rfl, rfl, rfl, h4⟩ := ih h'
          refine ⟨⟨.absent, f, num, b, 0, p, Γ.defaultValue f.ty⟩ :: l, last', r,
            .absent rfl hv hi (absent_eq Γ f.ty).symm (.inl hb) h1, h2, ?_, rfl, rfl, rfl, h4⟩
          intro s hs
          rcases List.mem_cons.mp hs with rfl | hs
          · exact ⟨fun h => by (cases h), fun h => by (cases h)⟩
          · exact h3 s hs
        rename_i hb
        have hb : b ≠ [] := fun h => hb (by rw [h]; rfl)
        split at h
        · rename_i hu
          obtain ⟨j, v, hr, hj, h⟩ := andSlide_inv h
          obtain ⟨ws, h', rfl⟩ := map_inv h
          obtain ⟨l, last', r, h1, h2, h3, rfl, rfl, rfl, h4⟩ := ih h'
          refine ⟨⟨.repeated, f, num + 1, b, j, p, v⟩ :: l, last', r,
            Layout.repeated (s := ⟨.repeated, f, num + 1, b, j, p, v⟩) rfl hv hi ((repeated_eq Γ f).trans hu) hb rfl h1, h2, ?_, rfl, rfl, rfl, ?_⟩
          · intro s hs
            rcases List.mem_cons.mp hs with rfl | hs
            · exact ⟨fun _ => hr, fun h => by (cases h)⟩
            · exact h3 s hs
          · rw [List.length_drop] at h4; omega
        · rename_i hu
          have hu : repeated Γ f = false := by rw [repeated_eq]; simpa using hu
          cases hk : decodeKey b with
          | err | panic | oof => rw [hk] at h; cases h
          | ok j ft =>
            obtain ⟨fnum, typ⟩ := ft
            rw [hk] at h
            simp only at h
            split at h
            · rename_i hlt
              obtain ⟨ws, h', rfl⟩ := map_inv h
              obtain ⟨l, last', r, h1, h2, h3, rfl, rfl, rfl, h4⟩ := ih h'
              refine ⟨⟨.absent, f, num, b, 0, p, Γ.defaultValue f.ty⟩ :: l, last', r,
                .absent rfl hv hi (absent_eq Γ f.ty).symm (.inr ⟨hu, ended_of hk hlt⟩) h1, h2, ?_, rfl, rfl, rfl, h4⟩
              intro s hs
              rcases List.mem_cons.mp hs with rfl | hs
              · exact ⟨fun h => by (cases h), fun h => by (cases h)⟩
              · exact h3 s hs
            split at h
            · cases h
            obtain ⟨hj, h⟩ := slideThen_inv h
            obtain ⟨key, q, rfl, rfl, hk'⟩ := key_iff.mp hk
            rw [List.drop_left] at h
            split at h
            · cases h
            rename_i hne
            have hne : num + 1 = fnum := by simpa using hne
            subst hne
            split at h
            · cases h
            rename_i ht
            have ht : typ = Γ.typ3 f.ty.deref { f.opts with fnum := num + 1 } := by simpa using ht
            obtain ⟨j, v, hr, hj, h⟩ := andSlide_inv h
            obtain ⟨ws, h', rfl⟩ := map_inv h
            obtain ⟨l, last', r, h1, h2, h3, rfl, rfl, rfl, h4⟩ := ih h'
            refine ⟨⟨.keyed, f, num + 1, q, j, p, v⟩ :: l, last', r,
              Layout.keyed (s := ⟨.keyed, f, num + 1, q, j, p, v⟩) rfl hv hi hu rfl ?_ h1, h2, ?_, rfl, rfl, rfl, ?_⟩
            · show KeyText (num + 1) (wireType Γ f.ty.deref f.opts) key
              rw [wireType_eq, ← typ3_setNum (k := num + 1), ← ht]
              exact hk'
            · intro s hs
              rcases List.mem_cons.mp hs with rfl | hs
              · exact ⟨fun h => by (cases h), fun _ => hr⟩
              · exact h3 s hs
            · rw [List.length_drop] at h4
              rw [List.length_append]
              omega

theorem fields_of {num last last' : Nat} {b r : Bytes} {l : List FieldStep} (h : Layout Γ c num last b l last' r) (hr : Unknown last' r)
    (hl : last ≤ num) (h1 : ∀ s ∈ l, FieldRead rec s)
    (h2 : ∀ s ∈ l, s.found = .repeated ∨ s.found = .keyed → s.used ≤ s.text.length) (n : Nat) :
    decFields Γ c rec (l.map FieldStep.field) (l.map FieldStep.old) num last b n = .ok (n + b.length) (l.map FieldStep.new) := by
  induction h generalizing n with
  | nil =>
    rw [List.map_nil, List.map_nil, decFields, consumeRest_of hr _ _ (Nat.le_refl _)]
    rfl
  | @hidden num last last' b r s l hf hv hn hL ih =>
    rw [List.map_cons, List.map_cons, decFields, if_pos (by simp [hv]),
      ih hr hl (fun s hs => h1 s (by simp [hs])) (fun s hs => h2 s (by simp [hs]))]
    simp [hn]
  | @absent num last last' b r s l hf hv hi hn hb hL ih =>
    have ih := ih hr (by omega) (fun s hs => h1 s (by simp [hs])) (fun s hs => h2 s (by simp [hs])) n
    rw [List.map_cons, List.map_cons, decFields, if_neg (by simp [hv]), infoThen_of hi]
    have hm : (decFields Γ c rec (l.map FieldStep.field) (l.map FieldStep.old) (num + 1) last b n).map
        (fun vs => Γ.defaultValue s.field.ty :: vs) = .ok (n + b.length) ((s :: l).map FieldStep.new) := by
      rw [ih, List.map_cons, hn, absent_eq]; rfl
    by_cases hb0 : b = []
    · rw [if_pos (by rw [hb0]; rfl), hm]
    · rcases hb with hb | ⟨hu, he⟩
      · exact absurd hb hb0
      · rw [if_neg (fun h => hb0 (List.length_eq_zero_iff.mp h)), if_neg (by rw [← repeated_eq, hu]; simp)]
        obtain ⟨j, num', typ, hk, hlt⟩ := ended_key he hb0
        rw [hk]
        simp only
        rw [if_pos hlt, hm]
  | @repeated num last last' r s l hf hv hi hu hb hs hL ih =>
    have hle := h2 s (by simp) (.inl hf)
    have ih := ih hr (by omega) (fun s hs => h1 s (by simp [hs])) (fun s hs => h2 s (by simp [hs])) (n + s.used)
    rw [List.map_cons, List.map_cons, decFields, if_neg (by simp [hv]), infoThen_of hi,
      if_neg (fun h => hb (List.length_eq_zero_iff.mp h)), if_pos (by rw [← repeated_eq, hu]), ← hs, (h1 s (by simp)).1 hf,
      andSlide_of _ hle, hs, ih]
    simp only [DRes.map_ok, List.map_cons, List.length_drop]
    congr 1
    omega
  | @keyed num last last' key r s l hf hv hi hu hs hk hL ih =>
    have hle := h2 s (by simp) (.inr hf)
    have hp := key_pos hk
    have ih := ih hr (by omega) (fun s hs => h1 s (by simp [hs])) (fun s hs => h2 s (by simp [hs])) (n + key.length + s.used)
    rw [List.map_cons, List.map_cons, decFields, if_neg (by simp [hv]), infoThen_of hi,
      if_neg (by rw [List.length_append]; omega), if_neg (by rw [← repeated_eq, hu]; simp), key_of hk]
    simp only
    rw [if_neg (by omega), if_neg (by omega), slideThen_of _ (by simp), List.drop_left, if_neg (by simp),
      if_neg (by rw [wireType_eq]; exact not_not_intro rfl), ← hs, (h1 s (by simp)).2 hf, andSlide_of _ hle, hs, ih]
    simp only [DRes.map_ok, List.map_cons, List.length_drop, List.length_append]
    congr 1
    omega

/-! ## Interfaces -/

theorem names_inv {ii : IfaceInfo} {b : Bytes} {j : Nat} {dp : Option Bytes × Bytes} {ci : ConcInfo} (h : decodeDisambPrefix b = .ok j dp)
    (hl : lookupConc c ii dp = .ok ci) : ∃ hd q, b = hd ++ q ∧ hd.length = j ∧ Names c ii hd ci := by
  unfold decodeDisambPrefix at h
  split at h
  · cases h
  split at h
  · split at h
    · cases h
    · cases h
      rename_i hb0 hb8
      unfold lookupConc at hl
      simp only at hl
      split at hl
      · cases hl
        rename_i hd
        obtain ⟨x, xs, rfl⟩ : ∃ x xs, b = x :: xs := by cases b with | nil => cases hb0 | cons x xs => exact ⟨x, xs, rfl⟩
        cases hb0
        simp only [List.length_cons, List.drop_succ_cons, List.drop_zero] at *
        refine ⟨0 :: (xs.take 3 ++ (xs.drop 3).take 4), xs.drop 7, ?_, ?_, .dis ?_ ?_ hd⟩
        · rw [List.cons_append, List.append_assoc]
          have h7 : xs.drop 7 = (xs.drop 3).drop 4 := by rw [List.drop_drop]
          rw [h7, List.take_append_drop, List.take_append_drop]
        · simp only [List.length_cons, List.length_append, List.length_take, List.length_drop]; omega
        · rw [List.length_take]; omega
        · rw [List.length_take, List.length_drop]; omega
      · cases hl
  · cases h
    rename_i hb4 hb0
    unfold lookupConc at hl
    simp only at hl
    split at hl
    · cases hl
    · cases hl
      rename_i hd
      refine ⟨b.take 4, b.drop 4, (List.take_append_drop _ _).symm, by rw [List.length_take]; omega,
        .pre (by rw [List.length_take]; omega) ?_ hd⟩
      rw [List.head?_take]
      simpa using hb0
    · cases hl

theorem names_of {ii : IfaceInfo} {hd q : Bytes} {ci : ConcInfo} (h : Names c ii hd ci) :
    ∃ dp, decodeDisambPrefix (hd ++ q) = .ok hd.length dp ∧ lookupConc c ii dp = .ok ci := by
  unfold decodeDisambPrefix
  cases h with
  | pre h1 h2 h3 =>
    refine ⟨(none, hd), ?_, by unfold lookupConc; simp only [h3]⟩
    rw [if_neg (by rw [List.length_append]; omega), if_neg, h1, ← h1, List.take_left]
    cases hd with
    | nil => simp at h1
    | cons => simpa using h2
  | @dis d p _ h1 h2 h3 =>
    refine ⟨(some d, p), ?_, by unfold lookupConc; simp only [h3]⟩
    rw [if_neg (by simp; omega), if_pos (by simp), if_neg (by simp; omega)]
    have e1 : ((0 :: (d ++ p) ++ q).drop 1).take 3 = d := by
      rw [List.cons_append, List.drop_succ_cons, List.drop_zero, List.append_assoc, ← h1, List.take_left]
    have e2 : ((0 :: (d ++ p) ++ q).drop 4).take 4 = p := by
      rw [List.cons_append, List.drop_succ_cons, List.append_assoc, ← h1, List.drop_left, ← h2, List.take_left]
    rw [e1, e2]
    congr 1
    simp; omega

theorem names_len {ii : IfaceInfo} {hd : Bytes} {ci : ConcInfo} (h : Names c ii hd ci) : 0 < hd.length := by
  cases h with
  | pre h => omega
  | dis h => simp

theorem wrapped_iff {id : TId} : wrapped Γ id = (!Γ.structOrRep id && Γ.isKnown id) := by
  unfold wrapped Prog.structOrRep Prog.isKnown
  cases h : Γ.shape id with
  | slice e =>
    cases e with
    | base e => simp only [Prog.isStruct]; cases h' : Γ.shape e <;> rfl
    | ptr => rfl
  | array n e =>
    cases e with
    | base e => simp only [Prog.isStruct]; cases h' : Γ.shape e <;> rfl
    | ptr => rfl
  | _ => rfl

theorem isIface_iff {id : TId} : Γ.isIface id = true ↔ Γ.shape id = .iface := by
  unfold Prog.isIface
  split <;> simp_all

theorem concText_inv {α : Type} {cid : TId} {fo : FOpts} {q : Bytes} {n m : Nat} {k : Bytes → Nat → DRes α} {a : α}
    (h : concKey Γ cid fo q n k = .ok m a) :
    ∃ q' j, ConcText Γ cid fo q q' ∧ j + q'.length = q.length ∧ k q' (n + j) = .ok m a := by
  unfold concKey at h
  split at h
  · rename_i hc
    simp only [Bool.and_eq_true, Bool.not_eq_true', decide_eq_true_eq, beq_iff_eq] at hc
    obtain ⟨⟨⟨⟨h1, h2⟩, h3⟩, h4⟩, h5⟩ := hc
    cases hk : decodeKey q with
    | err | panic | oof => rw [hk] at h; cases h
    | ok j ft =>
      obtain ⟨fnum, typ⟩ := ft
      rw [hk] at h
      simp only at h
      split at h
      · cases h
      split at h
      · cases h
      rename_i hf ht
      have hf : fnum = 1 := by simpa using hf
      have ht : typ = Γ.typ3 cid {} := by simpa using ht
      subst hf
      obtain ⟨hj, h⟩ := slideThen_inv h
      obtain ⟨key, r, rfl, rfl, hk'⟩ := key_iff.mp hk
      rw [List.drop_left] at h
      refine ⟨r, key.length, .keyed ?_ ?_ h5 ?_, by simp, h⟩
      · rw [wrapped_iff, h1, h4]; rfl
      · intro h'; rw [isIface_iff.mpr h'] at h3; cases h3
      · rw [wireType_eq, ← ht]; exact hk'
  · rename_i hc
    refine ⟨q, 0, .plain ?_, by simp, h⟩
    rw [wrapped_iff]
    by_cases h5 : fo.fnum = 1
    · cases hi : Γ.isIface cid with
      | true => exact .inr (.inl (isIface_iff.mp hi))
      | false =>
        cases q with
        | nil => exact .inr (.inr (.inr rfl))
        | cons => left; simp_all
    · exact .inr (.inr (.inl h5))

theorem concText_of {α : Type} {cid : TId} {fo : FOpts} {q q' : Bytes} (h : ConcText Γ cid fo q q') (n : Nat) (k : Bytes → Nat → DRes α) :
    ∃ j, j + q'.length = q.length ∧ concKey Γ cid fo q n k = k q' (n + j) := by
  unfold concKey
  cases h with
  | @keyed key _ h1 h2 h3 h4 =>
    rw [wrapped_iff, Bool.and_eq_true, Bool.not_eq_true'] at h1
    have hp := key_pos h4
    have hi : Γ.isIface cid = false := by
      cases hi : Γ.isIface cid with
      | true => exact absurd (isIface_iff.mp hi) h2
      | false => rfl
    refine ⟨key.length, by simp, ?_⟩
    rw [if_pos (by rw [h1.1, h1.2, hi, h3]; simp; omega), key_of h4]
    simp only
    rw [if_neg (by simp), if_neg (by rw [wireType_eq]; simp), slideThen_of _ (by simp), List.drop_left]
  | plain h1 =>
    refine ⟨0, by simp, ?_⟩
    rw [if_neg]
    · rfl
    · intro hc
      simp only [Bool.and_eq_true, Bool.not_eq_true', decide_eq_true_eq, beq_iff_eq] at hc
      obtain ⟨⟨⟨⟨c1, c2⟩, c3⟩, c4⟩, c5⟩ := hc
      rw [wrapped_iff, c1, c4] at h1
      rcases h1 with h1 | h1 | h1 | h1
      · cases h1
      · rw [isIface_iff.mpr h1] at c3; cases c3
      · exact h1 c5
      · rw [h1] at c2; simp at c2

/-! ## What is read is within the bytes -/

theorem wireInt_within {k : IntKind} {f64 f32 : Bool} {b : Bytes} {i : Int} {n : Nat} (h : wireInt k f64 f32 b = some (i, n)) :
    n ≤ b.length ∧ 1 ≤ n := by
  have hv : ∀ p, (readVarint b).filter (fun p => p.2 ≤ 10 && p.1 < 2 ^ 64) = some p → p.2 ≤ b.length ∧ 1 ≤ p.2 := by
    intro p hp
    obtain ⟨h1, _⟩ := Option.filter_eq_some_iff.mp hp
    have := readVarint_len (v := p.1) (l := p.2) h1
    omega
  have hf : ∀ w p, 1 ≤ w → (if b.length < w then none else some (unle (b.take w), w)) = some p → p.2 ≤ b.length ∧ 1 ≤ p.2 := by
    intro w p hw hp
    split at hp
    · cases hp
    · cases hp; exact ⟨by simp_all, hw⟩
  unfold wireInt at h
  cases k <;> cases f64 <;> cases f32 <;>
    simp only [Option.map_eq_some_iff, if_true, if_false, Bool.false_eq_true, Prod.mk.injEq] at h <;>
    (obtain ⟨p, hp, hq⟩ := h; first
      | (have := hv p hp; rw [← hq.2]; exact this)
      | (have := hf 8 p (by omega) hp; rw [← hq.2]; exact this)
      | (have := hf 4 p (by omega) hp; rw [← hq.2]; exact this))

theorem bread_within {t : Ty} {fo : FOpts} {whole : Bool} {old v : Val} {b : Bytes} {n : Nat} (h : BRead Γ c t fo whole old b n v) :
    n ≤ b.length ∧ (whole = false → b ≠ [] → 1 ≤ n) := by
  induction h with
  | ptr _ _ ih => exact ih
  | amino _ _ _ _ ih => exact ih
  | int _ _ _ h => exact ⟨(wireInt_within h).1, fun _ _ => (wireInt_within h).2⟩
  | uint32 _ _ _ h => exact ⟨by simp, fun _ _ => number_pos h⟩
  | false => simp
  | true => simp
  | float64 _ _ _ h => simp [h]
  | float32 _ _ _ h => simp [h]
  | str _ _ h => exact ⟨(counted_within h).1, fun _ _ => (counted_within h).2⟩
  | time _ _ h h' =>
    have := framed_within h
    have := time_within h'
    exact ⟨by omega, fun hw _ => by have := (framed_within h).2 hw; omega⟩
  | byteArray _ _ _ h => exact ⟨(counted_within h).1, fun _ _ => (counted_within h).2⟩
  | noBytes => simp
  | emptyBytes _ _ _ h => exact ⟨(counted_within h).1, fun _ _ => (counted_within h).2⟩
  | bytes _ _ _ h => exact ⟨(counted_within h).1, fun _ _ => (counted_within h).2⟩
  | packed _ _ _ _ _ h | packedArray _ _ _ _ _ h | struct _ _ h | iface _ _ _ h =>
    have := framed_within h
    exact ⟨by omega, fun hw _ => by have := this.2 hw; omega⟩
  | slice _ _ _ _ _ h _ _ h' | array _ _ _ _ _ h _ _ h' =>
    have := framed_within h
    exact ⟨by omega, fun hw _ => by have := this.2 hw; omega⟩

end Amino
