import Verif.BReadAs

/-!
# The decoder reads exactly what the specification says
-/

namespace Amino
open Spec

variable {Γ : Prog} {c : Codec} {rec : Ty → Val → FOpts → Bool → Bytes → DRes Val}

theorem refsDec_of {t : Ty} {fo : FOpts} {whole : Bool} {old v : Val} {b : Bytes} {n : Nat} (ht : t.isPtr = true → Γ.shape t.deref ≠ .iface)
    (h : BRead Γ c (.base t.deref) fo whole (Γ.derefPrior t old) b n v) : BRead Γ c t fo whole old b n (wrapTy t v) := by
  induction t generalizing old with
  | base id => exact h
  | ptr t ih =>
    rw [derefPrior_target] at h
    exact .ptr (ht rfl) (ih (fun _ => ht rfl) h)

theorem decFloat64_iff {b : Bytes} {n : Nat} {v : UInt64} : decodeUint64 b = .ok n v ↔
    ∃ d r, b = d ++ r ∧ d.length = 8 ∧ n = 8 ∧ v = UInt64.ofNat (unle d) := by
  unfold decodeUint64
  constructor
  · intro h
    split at h
    · cases h
    · cases h
      exact ⟨b.take 8, b.drop 8, (List.take_append_drop _ _).symm, by rw [List.length_take]; omega, rfl, getLE_take b 8 (by omega)⟩
  · rintro ⟨d, r, rfl, h, rfl, rfl⟩
    rw [if_neg (by rw [List.length_append]; omega), getLE_take _ _ (by omega), ← h, List.take_left]

theorem decFloat32_iff {b : Bytes} {n : Nat} {v : UInt64} : decodeUint32 b = .ok n v ↔
    ∃ d r, b = d ++ r ∧ d.length = 4 ∧ n = 4 ∧ v = UInt64.ofNat (unle d) := by
  unfold decodeUint32
  constructor
  · intro h
    split at h
    · cases h
    · cases h
      exact ⟨b.take 4, b.drop 4, (List.take_append_drop _ _).symm, by rw [List.length_take]; omega, rfl, getLE_take b 4 (by omega)⟩
  · rintro ⟨d, r, rfl, h, rfl, rfl⟩
    rw [if_neg (by rw [List.length_append]; omega), getLE_take _ _ (by omega), ← h, List.take_left]

theorem uint32_iff {fo : FOpts} {b : Bytes} {n : Nat} {i : Int} (hf : fo.fixed32 = false) : decInt .uint32 fo b = .ok n i ↔
    ∃ d r u, b = d ++ r ∧ d.length = n ∧ Number u d ∧ i = (u % 2 ^ 32 : Nat) := by
  unfold decInt
  simp only [hf, Bool.false_eq_true, if_false]
  constructor
  · intro h
    obtain ⟨j, u, hu, hj, h⟩ := andSlide_inv h
    obtain ⟨d, r, rfl, rfl, hd⟩ := number_iff.mp hu
    cases h
    exact ⟨d, r, _, rfl, by simp, hd, rfl⟩
  · rintro ⟨d, r, u, rfl, rfl, hd, rfl⟩
    rw [number_of hd, andSlide_of _ (by simp), ofNat_toNat_lt hd.2.2]
    simp

theorem isEmpty_if {l : List Val} : (if l.isEmpty then Val.nil else .list l) = if l = [] then .nil else .list l := by
  cases l <;> simp

theorem decShape_sound (hrec : ∀ {t old fo w b n v}, rec t old fo w b = .ok n v → BRead Γ c t fo w old b n v) {id : TId}
    {old v : Val} {fo : FOpts} {whole : Bool} {b : Bytes} {n : Nat} (hu : Γ.unmarsh id = none)
    (h : decShape Γ c rec id old fo whole b = .ok n v) : BRead Γ c (.base id) fo whole old b n v := by
  unfold decShape at h
  cases hs : Γ.shape id with
  | iface =>
    simp only [hs] at h
    unfold decIface at h
    cases old with
    | nil =>
      simp only at h
      cases hi : c.iface? id with
      | none => rw [hi] at h; cases h
      | some ii =>
        simp only [hi] at h
        obtain ⟨body, k, hf, h⟩ := framed_inv h
        obtain ⟨j, dp, hd, hj, h⟩ := andSlide_inv h
        cases hl : lookupConc c ii dp with
        | error e => rw [hl] at h; cases h
        | ok ci =>
          simp only [hl] at h
          obtain ⟨hd', q, rfl, rfl, hn⟩ := names_inv hd hl
          rw [List.drop_left] at h
          obtain ⟨q', j, hct, hjq, h⟩ := concText_inv h
          cases hr : rec (.base ci.tid) (Γ.zero ci.tid) fo true q' with
          | err m e => rw [hr] at h; simp only at h; split at h <;> (try split at h) <;> cases h
          | panic | oof => rw [hr] at h; cases h
          | ok m w =>
            simp only [hr] at h
            split at h
            · split at h
              · cases h
              rename_i hm hrest
              split at h
              · rename_i himp
                cases h
                have hm : m = q'.length := by rw [List.length_drop] at hrest; omega
                subst hm
                have hcount : k + hd'.length + j + q'.length = k + (hd' ++ q).length := by rw [List.length_append]; omega
                rw [hcount]
                unfold ConcInfo.dynTy at himp ⊢
                have hw : (Val.iface (if ci.ptrPref then Ty.ptr (.base ci.tid) else .base ci.tid)
                    (wrapTy (if ci.ptrPref then Ty.ptr (.base ci.tid) else .base ci.tid) w)) =
                    (if ci.ptrPref then .iface (.ptr (.base ci.tid)) (.ptr w) else .iface (.base ci.tid) w) := by
                  cases ci.ptrPref <;> rfl
                rw [hw]
                exact .iface hu hs hi hf rfl hn hct (hrec hr) himp
              · cases h
            · cases h
    | _ => cases h
  | array len e =>
    simp only [hs] at h
    split at h
    · rename_i hbk
      unfold decByteArray at h
      split at h
      · cases h
      obtain ⟨j, x, hx, hj, h⟩ := andSlide_inv h
      split at h
      · cases h
      split at h
      · rename_i hlen he
        cases h
        subst he
        rw [Nat.zero_add]
        exact .byteArray hu hs hbk (counted_iff.mp hx) (by simpa using hlen)
      · cases h
    · rename_i hbk
      have hbk : Γ.isByteKind e = false := by simpa using hbk
      unfold decArray at h
      obtain ⟨hi, h⟩ := infoThen_inv h
      have hi := known_iff.mpr hi
      obtain ⟨body, k, hf, h⟩ := framed_inv h
      cases old with
      | list ps =>
        simp only at h
        obtain ⟨vs, h', rfl⟩ := map_inv h
        split at h'
        · rename_i ht
          obtain ⟨l, h1, h2, rfl, rfl, rfl⟩ := packedArr_inv h'
          exact .packedArray hu hs hbk hi (by rw [wireType_eq]; exact ht) hf h1 (fun s hs => hrec (h2 s hs))
        · rename_i ht
          have ht : Γ.typ3 e.deref fo = 2 := by simpa [typ3ByteLength] using ht
          obtain ⟨l, r, h1, h2, h3, rfl, rfl, h4⟩ := unpackedArr_inv h'
          obtain ⟨m, rfl⟩ : ∃ m, n = k + m := ⟨n - k, by have := items_len h1; omega⟩
          exact .array hu hs hbk hi (by rw [wireType_eq]; exact ht) hf h1 h2 (by omega) (fun x hx => (h3 x hx).1)
            (fun x hx hz => hrec ((h3 x hx).2 hz))
      | _ => cases h
  | slice e =>
    simp only [hs] at h
    split at h
    · rename_i hbk
      unfold decByteSlice at h
      split at h
      · rename_i hb
        cases h
        cases List.length_eq_zero_iff.mp hb
        exact .noBytes hu hs hbk
      obtain ⟨j, x, hx, hj, h⟩ := andSlide_inv h
      split at h
      · rename_i hlen
        cases h
        cases List.length_eq_zero_iff.mp hlen
        rw [Nat.zero_add]
        exact .emptyBytes hu hs hbk (counted_iff.mp hx)
      split at h
      · rename_i hlen he
        cases h
        subst he
        rw [Nat.zero_add]
        exact .bytes hu hs hbk (counted_iff.mp hx) (fun h => hlen (by rw [h]; rfl))
      · cases h
    · rename_i hbk
      have hbk : Γ.isByteKind e = false := by simpa using hbk
      unfold decSlice at h
      obtain ⟨hi, h⟩ := infoThen_inv h
      have hi := known_iff.mpr hi
      obtain ⟨body, k, hf, h⟩ := framed_inv h
      obtain ⟨vs, h', rfl⟩ := map_inv h
      rw [isEmpty_if]
      split at h'
      · rename_i ht
        obtain ⟨l, h1, h2, h3, rfl, rfl⟩ := packedSlice_inv h'
        simp only [List.map_eq_nil_iff]
        exact .packed hu hs hbk hi (by rw [wireType_eq]; exact ht) hf h1 h2 (fun s hs => hrec (h3 s hs))
      · rename_i ht
        have ht : Γ.typ3 e.deref fo = 2 := by simpa [typ3ByteLength] using ht
        obtain ⟨l, r, h1, h2, h3, rfl, h4⟩ := unpackedSlice_inv h'
        obtain ⟨m, rfl⟩ : ∃ m, n = k + m := ⟨n - k, by have := items_len h1; omega⟩
        simp only [List.map_eq_nil_iff]
        exact .slice hu hs hbk hi (by rw [wireType_eq]; exact ht) hf h1 h2 (by omega) (fun x hx => (h3 x hx).1)
          (fun x hx hz => hrec ((h3 x hx).2 hz))
  | struct fs =>
    simp only [hs] at h
    obtain ⟨body, k, hf, h⟩ := framed_inv h
    cases old with
    | struct ps =>
      simp only at h
      obtain ⟨vs, h', rfl⟩ := map_inv h
      obtain ⟨l, last', r, h1, h2, h3, h4, rfl, rfl, rfl⟩ := fields_inv h'
      exact .struct hu hs hf h4 h1 h2 (fun s hs hf => hrec ((h3 s hs).1 hf)) (fun s hs hf => hrec ((h3 s hs).2 hf))
    | _ => cases h
  | time =>
    simp only [hs] at h
    obtain ⟨body, k, hf, h⟩ := framed_inv h
    obtain ⟨j, p, hp, hj, h⟩ := andSlide_inv h
    cases h
    exact .time hu hs hf (time_iff.mp hp)
  | int k =>
    simp only [hs] at h
    obtain ⟨i, h', rfl⟩ := map_inv h
    by_cases hk : k = .uint32 → fo.fixed32 = true
    · obtain ⟨h1, h2⟩ := (decInt_wire k fo b n i hk).mp h'
      exact .int hu hs hk h1 h2
    · simp only [Classical.not_imp, Bool.not_eq_true] at hk
      obtain ⟨rfl, hk⟩ := hk
      obtain ⟨d, r, u, rfl, rfl, h1, rfl⟩ := (uint32_iff hk).mp h'
      exact .uint32 hu hs hk h1
  | bool =>
    simp only [hs] at h
    obtain ⟨j, x, hx, hj, h⟩ := andSlide_inv h
    cases h
    cases b with
    | nil => cases hx
    | cons y ys =>
      simp only [decodeBool] at hx
      split at hx
      · rename_i hy; cases hx; subst hy; exact .false hu hs
      · split at hx
        · rename_i hy; cases hx; subst hy; exact .true hu hs
        · cases hx
  | float64 =>
    simp only [hs] at h
    split at h
    · cases h
    · rename_i hf
      obtain ⟨j, x, hx, hj, h⟩ := andSlide_inv h
      cases h
      obtain ⟨d, r, rfl, hd, rfl, rfl⟩ := decFloat64_iff.mp hx
      exact .float64 hu hs (by simpa using hf) hd
  | float32 =>
    simp only [hs] at h
    split at h
    · cases h
    · rename_i hf
      obtain ⟨j, x, hx, hj, h⟩ := andSlide_inv h
      cases h
      obtain ⟨d, r, rfl, hd, rfl, rfl⟩ := decFloat32_iff.mp hx
      exact .float32 hu hs (by simpa using hf) hd
  | string =>
    simp only [hs] at h
    obtain ⟨j, x, hx, hj, h⟩ := andSlide_inv h
    cases h
    rw [Nat.zero_add]
    exact .str hu hs (counted_iff.mp hx)
  | map => simp only [hs] at h; cases h

theorem dec_reads {g : Nat} {t : Ty} {old v : Val} {fo : FOpts} {whole : Bool} {b : Bytes} {n : Nat}
    (h : dec Γ c g t old fo whole b = .ok n v) : BRead Γ c t fo whole old b n v := by
  induction g generalizing t old v fo whole b n with
  | zero => cases h
  | succ g ih =>
    rw [dec] at h
    unfold decBody at h
    split at h
    · cases h
    rename_i hp
    have hp : t.isPtr = true → Γ.shape t.deref ≠ .iface := by
      intro h1 h2
      rw [h1, isIface_iff.mpr h2] at hp
      exact hp rfl
    dsimp only at h
    obtain ⟨w, h', rfl⟩ := map_inv h
    refine refsDec_of hp ?_
    cases hu : Γ.unmarsh t.deref with
    | none => simp only [hu] at h'; exact decShape_sound ih hu h'
    | some ru =>
      obtain ⟨rid, um⟩ := ru
      simp only [hu] at h'
      obtain ⟨hi, h'⟩ := infoThen_inv h'
      obtain ⟨j, r, hr, hj, h'⟩ := andSlide_inv h'
      split at h'
      · rename_i x hx
        cases h'
        rw [Nat.zero_add]
        exact .amino hu (known_iff.mpr hi) (ih hr) hx
      all_goals cases h'

/-! ## Completeness -/

theorem dec_ok_le {g g' : Nat} (hg : g ≤ g') {t : Ty} {old v : Val} {fo : FOpts} {whole : Bool} {b : Bytes} {n : Nat}
    (h : dec Γ c g t old fo whole b = .ok n v) : dec Γ c g' t old fo whole b = .ok n v := by
  rcases dec_le (Γ := Γ) (c := c) hg t old fo whole b with h' | h'
  · rw [h] at h'; cases h'
  · rw [h', h]

theorem fuel_for {α : Type} {l : List α} {P : Nat → α → Prop} (hm : ∀ g g' a, g ≤ g' → P g a → P g' a) (h : ∀ a ∈ l, ∃ g, P g a) :
    ∃ g, ∀ a ∈ l, P g a := by
  induction l with
  | nil => exact ⟨0, by simp⟩
  | cons a l ih =>
    obtain ⟨g, hg⟩ := ih (fun a ha => h a (by simp [ha]))
    obtain ⟨g', hg'⟩ := h a (by simp)
    refine ⟨max g g', ?_⟩
    intro x hx
    rcases List.mem_cons.mp hx with rfl | hx
    · exact hm _ _ _ (Nat.le_max_right _ _) hg'
    · exact hm _ _ _ (Nat.le_max_left _ _) (hg x hx)

theorem dec_base {g : Nat} {id : TId} {old v : Val} {fo : FOpts} {whole : Bool} {b : Bytes} {n : Nat} (hu : Γ.unmarsh id = none)
    (h : decShape Γ c (dec Γ c g) id old fo whole b = .ok n v) : dec Γ c (g + 1) (.base id) old fo whole b = .ok n v := by
  rw [dec]
  unfold decBody
  rw [if_neg (by simp [Ty.isPtr])]
  simp only [Ty.deref, hu, Prog.derefPrior]
  rw [h]
  rfl

theorem bread_decodes {t : Ty} {fo : FOpts} {whole : Bool} {old v : Val} {b : Bytes} {n : Nat} (h : BRead Γ c t fo whole old b n v) :
    ∃ g, dec Γ c g t old fo whole b = .ok n v := by
  induction h with
  | @ptr t fo whole old v b n hi h ih =>
    obtain ⟨g, hg⟩ := ih
    cases g with
    | zero => cases hg
    | succ g =>
      refine ⟨g + 1, ?_⟩
      rw [dec] at hg ⊢
      unfold decBody at hg ⊢
      have hi' : Γ.isIface t.deref = false := by
        cases h' : Γ.isIface t.deref with
        | true => exact absurd (isIface_iff.mp h') hi
        | false => rfl
      rw [if_neg (by simp [hi'])] at hg
      rw [if_neg (by simp [Ty.deref, hi'])]
      dsimp only at hg ⊢
      obtain ⟨w, h', rfl⟩ := map_inv hg
      rw [derefPrior_target]
      simp only [Ty.deref]
      rw [h']
      rfl
  | @amino id rid fo whole old r v b n um hu hk h hum ih =>
    obtain ⟨g, hg⟩ := ih
    refine ⟨g + 1, ?_⟩
    rw [dec]
    unfold decBody
    rw [if_neg (by simp [Ty.isPtr])]
    simp only [Ty.deref, hu, Prog.derefPrior]
    rw [infoThen_of hk, hg, andSlide_of _ (bread_within h).1]
    simp only [hum]
    rw [Nat.zero_add]
    rfl
  | int hu hs hk h hr =>
    refine ⟨1, dec_base hu ?_⟩
    unfold decShape
    simp only [hs]
    rw [(decInt_wire _ _ _ _ _ hk).mpr ⟨h, hr⟩]
    rfl
  | uint32 hu hs hf h =>
    refine ⟨1, dec_base hu ?_⟩
    unfold decShape
    simp only [hs]
    rw [(uint32_iff hf).mpr ⟨_, _, _, rfl, rfl, h, rfl⟩]
    rfl
  | false hu hs =>
    refine ⟨1, dec_base hu ?_⟩
    unfold decShape
    simp only [hs]
    rfl
  | true hu hs =>
    refine ⟨1, dec_base hu ?_⟩
    unfold decShape
    simp only [hs]
    rfl
  | float64 hu hs hf h =>
    refine ⟨1, dec_base hu ?_⟩
    unfold decShape
    simp only [hs, hf]
    rw [if_neg (by simp), decFloat64_iff.mpr ⟨_, _, rfl, h, rfl, rfl⟩, andSlide_of _ (by rw [List.length_append]; omega)]
  | float32 hu hs hf h =>
    refine ⟨1, dec_base hu ?_⟩
    unfold decShape
    simp only [hs, hf]
    rw [if_neg (by simp), decFloat32_iff.mpr ⟨_, _, rfl, h, rfl, rfl⟩, andSlide_of _ (by rw [List.length_append]; omega)]
  | str hu hs h =>
    refine ⟨1, dec_base hu ?_⟩
    unfold decShape
    simp only [hs]
    unfold decodeString
    rw [counted_iff.mpr h, andSlide_of _ (counted_within h).1, Nat.zero_add]
  | time hu hs hf h =>
    refine ⟨1, dec_base hu ?_⟩
    unfold decShape
    simp only [hs]
    rw [unframe_of hf, time_iff (p := (_, _)) |>.mpr h, andSlide_of _ (time_within h)]
  | byteArray hu hs hbk h hl =>
    refine ⟨1, dec_base hu ?_⟩
    unfold decShape
    simp only [hs, hbk, if_true]
    unfold decByteArray
    have := counted_within h
    have hlen : _ ≤ _ := counted_len h
    rw [if_neg (by omega), counted_iff.mpr h, andSlide_of _ (counted_within h).1, if_neg (by simpa using hl), if_pos rfl, Nat.zero_add]
  | noBytes hu hs hbk =>
    refine ⟨1, dec_base hu ?_⟩
    unfold decShape
    simp only [hs, hbk, if_true]
    rfl
  | emptyBytes hu hs hbk h =>
    refine ⟨1, dec_base hu ?_⟩
    unfold decShape
    simp only [hs, hbk, if_true]
    unfold decByteSlice
    have := counted_within h
    rw [if_neg (by omega), counted_iff.mpr h, andSlide_of _ (counted_within h).1, Nat.zero_add]
    rfl
  | bytes hu hs hbk h hx =>
    refine ⟨1, dec_base hu ?_⟩
    unfold decShape
    simp only [hs, hbk, if_true]
    unfold decByteSlice
    have := counted_within h
    rw [if_neg (by omega), counted_iff.mpr h, andSlide_of _ (counted_within h).1, Nat.zero_add,
      if_neg (fun h => hx (List.length_eq_zero_iff.mp h)), if_pos rfl]
  | @packed id e fo whole old b body k l hu hs hbk hi ht hf hc hne hr ih =>
    obtain ⟨g, hg⟩ := fuel_for (P := fun g (s : Step) => dec Γ c g e (Γ.zeroTy e) fo false s.text = .ok s.used s.new)
      (fun g g' s hgg h => dec_ok_le hgg h) ih
    refine ⟨g + 1, dec_base hu ?_⟩
    unfold decShape
    simp only [hs, hbk, if_false, Bool.false_eq_true]
    unfold decSlice
    rw [infoThen_of hi, unframe_of hf, if_pos (by rw [← wireType_eq]; exact ht),
      packedSlice_of hc hne hg (fun s hs => ⟨(bread_within (hr s hs)).2 rfl (hne s hs), (bread_within (hr s hs)).1⟩) _ _ (Nat.le_refl _)]
    simp only [DRes.map_ok, isEmpty_if, List.map_eq_nil_iff]
  | @slice id e fo whole old b body r k n l hu hs hbk hi ht hf hc he hn hz hr ih =>
    obtain ⟨g, hg⟩ := fuel_for (P := fun g (x : Item) => ¬ Zeroed Γ e fo x →
        dec Γ c g e (Γ.zeroTy e) { fo with fnum := 1 } false x.text = .ok x.used x.new) (l := l)
      (fun g g' s hgg hx h => dec_ok_le hgg (hx h)) (fun x hx => by
        by_cases h : Zeroed Γ e fo x
        · exact ⟨0, fun h' => absurd h h'⟩
        · obtain ⟨g, hg⟩ := ih x hx h
          exact ⟨g, fun _ => hg⟩)
    refine ⟨g + 1, dec_base hu ?_⟩
    unfold decShape
    simp only [hs, hbk, if_false, Bool.false_eq_true]
    unfold decSlice
    rw [infoThen_of hi, unframe_of hf, if_neg (by rw [← wireType_eq, ht]; simp [typ3ByteLength])]
    obtain ⟨m, hm1, hm2⟩ := unpackedSlice_of (rec := dec Γ c g) he hc (fun x hx => ⟨hz x hx, hg x hx⟩) (fun x hx => by
      by_cases h : Zeroed Γ e fo x
      · rw [(hz x hx h).1]; exact zeroed_len h
      · exact (bread_within (hr x hx h)).1) body.length k (Nat.le_refl _)
    rw [hm1]
    simp only [DRes.map_ok, isEmpty_if, List.map_eq_nil_iff]
    congr 1
    omega
  | @packedArray id e len fo whole b body k l hu hs hbk hi ht hf hc hr ih =>
    obtain ⟨g, hg⟩ := fuel_for (P := fun g (s : Step) => dec Γ c g e s.old fo false s.text = .ok s.used s.new)
      (fun g g' s hgg h => dec_ok_le hgg h) ih
    refine ⟨g + 1, dec_base hu ?_⟩
    unfold decShape
    simp only [hs, hbk, if_false, Bool.false_eq_true]
    unfold decArray
    rw [infoThen_of hi, unframe_of hf]
    simp only
    rw [if_pos (by rw [← wireType_eq]; exact ht), packedArr_of hc hg (fun s hs => (bread_within (hr s hs)).1)]
    rfl
  | @array id e len fo whole b body r k n l hu hs hbk hi ht hf hc he hn hz hr ih =>
    obtain ⟨g, hg⟩ := fuel_for (P := fun g (x : Item) => ¬ Zeroed Γ e fo x →
        dec Γ c g e x.old { fo with fnum := 1 } false x.text = .ok x.used x.new) (l := l)
      (fun g g' s hgg hx h => dec_ok_le hgg (hx h)) (fun x hx => by
        by_cases h : Zeroed Γ e fo x
        · exact ⟨0, fun h' => absurd h h'⟩
        · obtain ⟨g, hg⟩ := ih x hx h
          exact ⟨g, fun _ => hg⟩)
    refine ⟨g + 1, dec_base hu ?_⟩
    unfold decShape
    simp only [hs, hbk, if_false, Bool.false_eq_true]
    unfold decArray
    rw [infoThen_of hi, unframe_of hf]
    simp only
    rw [if_neg (by rw [← wireType_eq, ht]; simp [typ3ByteLength])]
    obtain ⟨m, hm1, hm2⟩ := unpackedArr_of (rec := dec Γ c g) he hc (fun x hx => ⟨hz x hx, hg x hx⟩) (fun x hx => by
      by_cases h : Zeroed Γ e fo x
      · rw [(hz x hx h).1]; exact zeroed_len h
      · exact (bread_within (hr x hx h)).1) k
    rw [hm1]
    simp only [DRes.map_ok]
    congr 1
    omega
  | @struct id fs fo whole b body r k last l hu hs hf hfs hL hU hr hk ihr ihk =>
    obtain ⟨g, hg⟩ := fuel_for (P := fun g (s : FieldStep) => FieldRead (dec Γ c g) s) (l := l)
      (fun g g' s hgg hx => ⟨fun h => dec_ok_le hgg (hx.1 h), fun h => dec_ok_le hgg (hx.2 h)⟩) (fun s hs => by
        cases hfound : s.found with
        | hidden => exact ⟨0, fun h => by (rw [hfound] at h; cases h), fun h => by (rw [hfound] at h; cases h)⟩
        | absent => exact ⟨0, fun h => by (rw [hfound] at h; cases h), fun h => by (rw [hfound] at h; cases h)⟩
        | repeated =>
          obtain ⟨g, hg⟩ := ihr s hs hfound
          exact ⟨g, fun _ => hg, fun h => by (rw [hfound] at h; cases h)⟩
        | keyed =>
          obtain ⟨g, hg⟩ := ihk s hs hfound
          exact ⟨g, fun h => by (rw [hfound] at h; cases h), fun _ => hg⟩)
    refine ⟨g + 1, dec_base hu ?_⟩
    unfold decShape
    simp only [hs]
    rw [unframe_of hf]
    rw [hfs, fields_of hL hU (Nat.le_refl _) hg (fun s hs h => by
      rcases h with h | h
      · exact (bread_within (hr s hs h)).1
      · exact (bread_within (hk s hs h)).1)]
    rfl
  | @iface id fo whole b body hd q q' k ii ci v hu hs hi hf hb hn hct hr himp ih =>
    obtain ⟨g, hg⟩ := ih
    refine ⟨g + 1, dec_base hu ?_⟩
    unfold decShape
    simp only [hs]
    unfold decIface
    simp only [hi]
    obtain ⟨dp, hdp, hl⟩ := names_of (q := q) hn
    rw [unframe_of hf, hb, hdp, andSlide_of _ (by simp)]
    simp only [hl]
    rw [List.drop_left]
    obtain ⟨j, hj, hck⟩ := concText_of (α := Val) hct (k + hd.length) fun bz n =>
        match dec Γ c g (.base ci.tid) (Γ.zero ci.tid) fo true bz with
        | .ok m v =>
          if m ≤ bz.length then
            if (bz.drop m).length > 0 then .err (n + m) .leftover
            else if Γ.implements ci.dynTy id then .ok (n + m) (.iface ci.dynTy (wrapTy ci.dynTy v))
            else .panic .notAssignable
          else .panic .slide
        | .err m e =>
          if m ≤ bz.length then
            if Γ.implements ci.dynTy id then .err (n + m) e else .panic .notAssignable
          else .panic .slide
        | .panic p => .panic p
        | .oof => .oof
    refine hck.trans ?_
    simp only [hg]
    rw [if_pos (Nat.le_refl _), if_neg (by simp)]
    unfold ConcInfo.dynTy
    rw [if_pos himp]
    have hcount : k + hd.length + j + q'.length = k + (hd ++ q).length := by rw [List.length_append]; omega
    rw [hcount]
    cases ci.ptrPref <;> rfl

theorem dec_iff {t : Ty} {fo : FOpts} {whole : Bool} {old v : Val} {b : Bytes} {n : Nat} :
    (∃ g, dec Γ c g t old fo whole b = .ok n v) ↔ BRead Γ c t fo whole old b n v :=
  ⟨fun ⟨_, h⟩ => dec_reads h, bread_decodes⟩

end Amino
