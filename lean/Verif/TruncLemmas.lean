import Verif.SpecTrunc
import Verif.BReadMain
import Verif.WireLemmas
import Verif.PropsRT

/-!
# Decoding the front of an encoding
-/

namespace Amino
open Spec

variable {Γ : Prog} {c : Codec}

theorem wireInt_app {k : IntKind} {f64 f32 : Bool} {b x : Bytes} {i : Int} {n : Nat} (h : wireInt k f64 f32 b = some (i, n)) :
    wireInt k f64 f32 (b ++ x) = some (i, n) := by
  have hv : ∀ {g : Nat × Nat → Int × Nat}, ((readVarint b).filter fun p => p.2 ≤ 10 && p.1 < 2 ^ 64).map g = some (i, n) →
      ((readVarint (b ++ x)).filter fun p => p.2 ≤ 10 && p.1 < 2 ^ 64).map g = some (i, n) := by
    intro g hg
    obtain ⟨p, hp, he⟩ := Option.map_eq_some_iff.mp hg
    obtain ⟨h1, h2⟩ := Option.filter_eq_some_iff.mp hp
    refine Option.map_eq_some_iff.mpr ⟨p, Option.filter_eq_some_iff.mpr ⟨readVarint_app (v := p.1) (l := p.2) h1, h2⟩, he⟩
  have hf : ∀ {w : Nat} {g : Nat × Nat → Int × Nat}, (if b.length < w then none else some (unle (b.take w), w)).map g = some (i, n) →
      (if (b ++ x).length < w then none else some (unle ((b ++ x).take w), w)).map g = some (i, n) := by
    intro w g hg
    by_cases hw : b.length < w
    · rw [if_pos hw] at hg; cases hg
    · rw [if_neg hw] at hg
      rw [if_neg (by rw [List.length_append]; omega), List.take_append_of_le_length (by omega)]
      exact hg
  unfold wireInt at h ⊢
  cases k <;> simp only at h ⊢ <;> (try split at h) <;> (try split) <;> first | exact hv h | exact hf h | contradiction

theorem counted_app {s b x : Bytes} {n : Nat} (h : Counted s n b) : Counted s n (b ++ x) := by
  obtain ⟨d, r, rfl, h1, h2, h3⟩ := h
  exact ⟨d, r ++ x, by simp, h1, h2, h3⟩

theorem framed_app {b body x : Bytes} {k : Nat} (h : Framed false b body k) : Framed false (b ++ x) body k := by
  cases h with
  | counted h1 h2 =>
    rename_i d r
    rw [List.append_assoc, List.append_assoc]
    exact .counted h1 h2

/-- More bytes behind a value with a count make no difference. -/
theorem bread_more {t : Ty} {fo : FOpts} {whole : Bool} {old v : Val} {a x : Bytes} {n : Nat} (h : BRead Γ c t fo whole old a n v)
    (hw : whole = false) (ha : a ≠ []) : BRead Γ c t fo whole old (a ++ x) n v := by
  induction h with
  | ptr h1 _ ih => exact .ptr h1 (ih hw ha)
  | amino h1 h2 _ h4 ih => exact .amino h1 h2 (ih hw ha) h4
  | int h1 h2 h3 h4 h5 => exact .int h1 h2 h3 (wireInt_app h4) h5
  | uint32 h1 h2 h3 h4 => rw [List.append_assoc]; exact .uint32 h1 h2 h3 h4
  | false h1 h2 => exact .false h1 h2
  | true h1 h2 => exact .true h1 h2
  | float64 h1 h2 h3 h4 => rw [List.append_assoc]; exact .float64 h1 h2 h3 h4
  | float32 h1 h2 h3 h4 => rw [List.append_assoc]; exact .float32 h1 h2 h3 h4
  | str h1 h2 h3 => exact .str h1 h2 (counted_app h3)
  | time h1 h2 h3 h4 => subst hw; exact .time h1 h2 (framed_app h3) h4
  | byteArray h1 h2 h3 h4 h5 => exact .byteArray h1 h2 h3 (counted_app h4) h5
  | noBytes => exact absurd rfl ha
  | emptyBytes h1 h2 h3 h4 => exact .emptyBytes h1 h2 h3 (counted_app h4)
  | bytes h1 h2 h3 h4 h5 => exact .bytes h1 h2 h3 (counted_app h4) h5
  | packed h1 h2 h3 h4 h5 h6 h7 h8 h9 => subst hw; exact .packed h1 h2 h3 h4 h5 (framed_app h6) h7 h8 h9
  | slice h1 h2 h3 h4 h5 h6 h7 h8 h9 h10 h11 => subst hw; exact .slice h1 h2 h3 h4 h5 (framed_app h6) h7 h8 h9 h10 h11
  | packedArray h1 h2 h3 h4 h5 h6 h7 h8 => subst hw; exact .packedArray h1 h2 h3 h4 h5 (framed_app h6) h7 h8
  | array h1 h2 h3 h4 h5 h6 h7 h8 h9 h10 h11 => subst hw; exact .array h1 h2 h3 h4 h5 (framed_app h6) h7 h8 h9 h10 h11
  | struct h1 h2 h3 h4 h5 h6 h7 h8 => subst hw; exact .struct h1 h2 (framed_app h3) h4 h5 h6 h7 h8
  | iface h1 h2 h3 h4 h5 h6 h7 h8 h9 => subst hw; exact .iface h1 h2 h3 (framed_app h4) h5 h6 h7 h8 h9

theorem counted_nil {s : Bytes} {n : Nat} (h : Counted s n []) : False := by
  have := counted_within h
  simp at this; omega

theorem framed_nil {body : Bytes} {k : Nat} (h : Framed false [] body k) : False := by
  have := framed_within h
  simp at this; omega

theorem bread_none {t : Ty} {fo : FOpts} {whole : Bool} {old v : Val} {a : Bytes} {n : Nat} (h : BRead Γ c t fo whole old a n v)
    (hw : whole = false) (ha : a = []) (ho : old = Γ.zeroTy t) : n = 0 ∧ ∃ y, v = refs t y ∧ NoBytes Γ t.deref y := by
  induction h with
  | ptr h1 _ ih =>
    rename_i t fo whole old v b n
    obtain ⟨h2, y, rfl, h3⟩ := ih hw ha (by subst ho; cases t <;> rfl)
    exact ⟨h2, y, rfl, h3⟩
  | amino h1 h2 _ h4 ih =>
    subst ho
    obtain ⟨h5, y, h6, h7⟩ := ih hw ha rfl
    subst h6
    exact ⟨h5, _, rfl, .rep h1 h7 h4⟩
  | int h1 h2 h3 h4 h5 => have := wireInt_within h4; rw [ha] at this; simp at this; omega
  | uint32 h1 h2 h3 h4 => have := number_pos h4; rw [(List.append_eq_nil_iff.mp ha).1] at this; simp at this
  | false h1 h2 => cases ha
  | true h1 h2 => cases ha
  | float64 h1 h2 h3 h4 => rw [(List.append_eq_nil_iff.mp ha).1] at h4; simp at h4
  | float32 h1 h2 h3 h4 => rw [(List.append_eq_nil_iff.mp ha).1] at h4; simp at h4
  | str h1 h2 h3 => subst ha; exact (counted_nil h3).elim
  | time h1 h2 h3 h4 => subst hw; subst ha; exact (framed_nil h3).elim
  | byteArray h1 h2 h3 h4 h5 => subst ha; exact (counted_nil h4).elim
  | noBytes h1 h2 h3 => exact ⟨rfl, _, rfl, .slice h1 h2 h3⟩
  | emptyBytes h1 h2 h3 h4 => subst ha; exact (counted_nil h4).elim
  | bytes h1 h2 h3 h4 h5 => subst ha; exact (counted_nil h4).elim
  | packed h1 h2 h3 h4 h5 h6 h7 h8 h9 => subst hw; subst ha; exact (framed_nil h6).elim
  | slice h1 h2 h3 h4 h5 h6 h7 h8 h9 h10 h11 => subst hw; subst ha; exact (framed_nil h6).elim
  | packedArray h1 h2 h3 h4 h5 h6 h7 h8 => subst hw; subst ha; exact (framed_nil h6).elim
  | array h1 h2 h3 h4 h5 h6 h7 h8 h9 h10 h11 => subst hw; subst ha; exact (framed_nil h6).elim
  | struct h1 h2 h3 h4 h5 h6 h7 h8 => subst hw; subst ha; exact (framed_nil h3).elim
  | iface h1 h2 h3 h4 h5 h6 h7 h8 h9 => subst hw; subst ha; exact (framed_nil h4).elim

/-- What is known about the calls one level down, on the front of an encoding. -/
structure RecCut (Γ : Prog) (rd : Ty → Val → FOpts → Bool → Bytes → DRes Val) : Prop where
  more : ∀ {t fo a x m v m' v'}, a ≠ [] → rd t (Γ.zeroTy t) fo false a = .ok m v →
    rd t (Γ.zeroTy t) fo false (a ++ x) = .ok m' v' → m' = m ∧ v' = v ∧ m ≤ a.length
  none : ∀ {t fo m v}, rd t (Γ.zeroTy t) fo false [] = .ok m v → m = 0 ∧ ∃ y, v = refs t y ∧ NoBytes Γ t.deref y

theorem dec_cut (g : Nat) : RecCut Γ (dec Γ c g) where
  more {t fo a x m v m' v'} ha h h' := by
    have hb := dec_reads h
    have h2 := bread_more (x := x) hb rfl ha
    obtain ⟨g', hg'⟩ := bread_decodes h2
    have h3 := dec_ok_le (Nat.le_max_left g g') h'
    have h4 := dec_ok_le (Nat.le_max_right g g') hg'
    rw [h3] at h4
    cases h4
    exact ⟨rfl, rfl, (bread_within hb).1⟩
  none h := bread_none (dec_reads h) rfl rfl rfl

theorem key_app {a b : Bytes} {m num typ : Nat} (h : decodeKey a = .ok m (num, typ)) : decodeKey (a ++ b) = .ok m (num, typ) ∧ m ≤ a.length := by
  obtain ⟨key, r, rfl, rfl, hk⟩ := key_iff.mp h
  rw [List.append_assoc]
  exact ⟨key_of hk, by simp⟩

/-- The key at the front of an encoding. -/
theorem key_front {key a b r : Bytes} {m num typ num' typ' : Nat} (hd : decodeKey (key ++ r) = .ok key.length (num', typ'))
    (hab : a ++ b = key ++ r) (h : decodeKey a = .ok m (num, typ)) :
    m = key.length ∧ num = num' ∧ typ = typ' ∧ ∃ a', a = key ++ a' ∧ a' ++ b = r := by
  obtain ⟨h1, h2⟩ := key_app (b := b) h
  rw [hab, hd] at h1
  cases h1
  rcases List.append_eq_append_iff.mp hab with ⟨x, rfl, rfl⟩ | ⟨x, rfl, rfl⟩
  · have hx : x = [] := by simp at h2; exact List.length_eq_zero_iff.mp (by omega)
    subst hx
    exact ⟨rfl, rfl, rfl, [], by simp, by simp⟩
  · exact ⟨rfl, rfl, rfl, x, rfl, rfl⟩

section
variable {S : TId → FOpts → Prop} {rec : TId → Val → FOpts → Bool → Res Bytes} {bl : TId → Val → FOpts → Bool}
  {nm : TId → Val → FOpts → Option Val} {rd : Ty → Val → FOpts → Bool → Bytes → DRes Val}

theorem Spec.CutList.cons {e : Ty} {w : Val} {ws us : List Val} (h : CutList Γ e ws us) : CutList Γ e (w :: ws) (w :: us) := by
  cases h with
  | front => exact .front (ws := w :: us)
  | key h => exact .key (ws := w :: _) h

theorem cut_slice (h : RecRT Γ S nm rec rd) (hp : RecPtr Γ rd) (hlead : RecLead Γ S bl rec) (hc : RecCut Γ rd)
    {e : Ty} {fo : FOpts} (hn : noIfacePtr Γ e) (hS : S e.deref { fo with fnum := 1 })
    (hlen : lenKind Γ e.deref = true) {vs ws us : List Val} {buf rest a b : Bytes} {k n m : Nat}
    (ht : ∀ v ∈ vs, HasTy Γ e v) (he : encUnpacked Γ rec e fo vs = .ok buf) (hl : buf.length < 2 ^ 63)
    (hr : Starts fo.fnum rest) (hw : normElems Γ bl nm e fo vs = some ws) (hab : a ++ b = buf ++ rest)
    (hd : decUnpackedSlice Γ rd e fo k a n = .ok m us) :
    (∃ a', a = buf ++ a' ∧ m = n + buf.length ∧ us = ws) ∨ (m = n + a.length ∧ buf ≠ [] ∧ CutList Γ e ws us ∧ (a ≠ [] → us ≠ [])) := by
  induction vs generalizing ws us buf k n a with
  | nil =>
    simp [encUnpacked] at he; simp [normElems] at hw
    subst he; subst hw
    refine .inl ⟨a, rfl, ?_⟩
    cases a with
    | nil => cases k <;> (simp only [decUnpackedSlice] at hd; cases hd; exact ⟨rfl, rfl⟩)
    | cons x xs =>
      cases k with
      | zero => cases hd
      | succ k =>
        simp only [decUnpackedSlice] at hd
        split at hd
        · cases hd
        · cases hd
        · cases hd
        · rename_i m' fn ty hk
          have hk' := (key_app (b := b) hk).1
          rw [hab, List.nil_append] at hk'
          rcases hr with rfl | ⟨m2, fn2, ty2, hk2, hfn⟩
          · simp at hab
          · rw [hk'] at hk2
            cases hk2
            rw [if_neg (by omega), if_pos (by omega)] at hd
            cases hd
            exact ⟨rfl, rfl⟩
  | cons v vs ih =>
    unfold encUnpacked at he
    obtain ⟨key, hkey, he⟩ := Res.bind_eq_ok he
    obtain ⟨bE, hb, he⟩ := Res.bind_eq_ok he
    obtain ⟨bs, hbs, he⟩ := Res.bind_eq_ok he
    simp only [Res.ok.injEq] at he
    obtain ⟨hkv, hfn⟩ := encodeKey_ok hkey (by decide)
    subst he
    rw [List.length_append, List.length_append] at hl
    unfold normElems at hw
    rw [hlen] at hw
    simp only [if_true, Option.bind_eq_some_iff, Option.map_eq_some_iff] at hw
    obtain ⟨w, hw1, ws', hws, rfl⟩ := hw
    obtain ⟨hbne, hA, hB⟩ := unpackedElem (rest := bs ++ rest) h hp hlead hn hS hlen (ht v (by simp)) hb
      (by omega) hw1
    have hdk : decodeKey (key ++ (bE ++ (bs ++ rest))) = .ok key.length (fo.fnum, typ3ByteLength) := by
      rw [hkv]; exact decodeKey_varint _ _ hfn (by decide) _
    have hab' : a ++ b = key ++ (bE ++ (bs ++ rest)) := by rw [hab]; simp
    have hih := fun {a k n us} h1 h2 => ih (a := a) (k := k) (n := n) (us := us) (fun u hu => ht u (by simp [hu])) hbs (by omega) hws h1 h2
    cases a with
    | nil => cases k <;> (simp only [decUnpackedSlice] at hd; cases hd; exact .inr ⟨rfl, by simp [hbne], .front (ws := []), by simp⟩)
    | cons x xs =>
      cases k with
      | zero => cases hd
      | succ k =>
        simp only [decUnpackedSlice] at hd
        split at hd
        · cases hd
        · cases hd
        · cases hd
        · rename_i m' fn ty hk
          obtain ⟨rfl, rfl, rfl, a1, ha1, hab1⟩ := key_front hdk hab' hk
          rw [if_neg (by omega), if_neg (by omega), if_neg (by simp), ha1, slideThen_append] at hd
          have hlena : (x :: xs).length = key.length + a1.length := by rw [ha1]; simp
          have finish : ∀ {a2 : Bytes} {us' : List Val}, a1 = bE ++ a2 →
              decUnpackedSlice Γ rd e fo k a2 (n + key.length + bE.length) = .ok m us' →
              (∃ a', x :: xs = key ++ bE ++ bs ++ a' ∧ m = n + (key ++ bE ++ bs).length ∧ w :: us' = w :: ws') ∨
                (m = n + (x :: xs).length ∧ key ++ bE ++ bs ≠ [] ∧ CutList Γ e (w :: ws') (w :: us') ∧ (x :: xs ≠ [] → w :: us' ≠ [])) := by
            intro a2 us' hx hdd
            subst hx
            have hab2 : a2 ++ b = bs ++ rest := by
              rw [List.append_assoc] at hab1
              exact List.append_cancel_left hab1
            rcases hih hab2 hdd with ⟨a', rfl, h2, h3⟩ | ⟨h2, _, h3, _⟩
            · refine .inl ⟨a', by rw [ha1]; simp, ?_, by rw [h3]⟩
              simp only [List.length_append]; omega
            · refine .inr ⟨?_, by simp [hbne], h3.cons, by simp⟩
              rw [hlena]
              simp only [List.length_append]; omega
          by_cases hz : a1.head? = some 0 ∧ ¬ ((e.isPtr && Γ.isStruct e.deref) && fo.emptyElements) = true
          · rw [if_pos hz] at hd
            cases a1 with
            | nil => simp at hz
            | cons y a2 =>
              simp only [List.head?_cons, Option.some.injEq] at hz
              obtain ⟨rfl, hz2⟩ := hz
              have hbh : bE.head? = some 0 := by
                cases bE with
                | nil => exact absurd rfl hbne
                | cons z zs => simp at hab1; simp [hab1.1]
              obtain ⟨rfl, rfl⟩ := hA ⟨hbh, hz2⟩
              obtain ⟨_, hq⟩ := slideThen_inv hd; clear hd; have hd := hq; clear hq
              obtain ⟨us', hm, rfl⟩ := map_inv hd; clear hd; have hd := hm; clear hm
              exact finish (a2 := a2) rfl hd
          · rw [if_neg hz] at hd
            obtain ⟨j, u, hu, hj, hq⟩ := andSlide_inv hd; clear hd; have hd := hq; clear hq
            obtain ⟨us', hm, rfl⟩ := map_inv hd; clear hd; have hd := hm; clear hm
            cases a1 with
            | nil =>
              obtain ⟨rfl, y, rfl, hy⟩ := hc.none hu
              have : us' = [] ∧ m = n + key.length := by
                cases k <;> (simp only [List.drop_nil, decUnpackedSlice] at hd; cases hd; exact ⟨rfl, rfl⟩)
              obtain ⟨rfl, rfl⟩ := this
              exact .inr ⟨by rw [hlena]; simp, by simp [hbne], .key (ws := []) hy, by simp⟩
            | cons y a2 =>
              have hbh : bE.head? = some y := by
                cases bE with
                | nil => exact absurd rfl hbne
                | cons z zs => simp at hab1; simp [hab1.1]
              have hBB := hB (by rw [hbh]; exact hz)
              rw [← hab1] at hBB
              obtain ⟨h1, h2, h3⟩ := hc.more (by simp) hu hBB
              subst h2
              rw [← h1] at hd h3
              rcases List.append_eq_append_iff.mp hab1 with ⟨z, h4, h5⟩ | ⟨z, h4, h5⟩
              · have hz0 : z = [] := by
                  have := congrArg List.length h4
                  simp only [List.length_append] at this
                  exact List.length_eq_zero_iff.mp (by omega)
                subst hz0
                rw [List.append_nil] at h4
                refine finish (a2 := []) (by simp [h4]) ?_
                rw [← h4] at hd
                simpa using hd
              · refine finish h4 ?_
                rw [h4] at hd
                simpa using hd

theorem cut_array (h : RecRT Γ S nm rec rd) (hp : RecPtr Γ rd) (hlead : RecLead Γ S bl rec) (hc : RecCut Γ rd)
    {e : Ty} {fo : FOpts} (hn : noIfacePtr Γ e) (hS : S e.deref { fo with fnum := 1 })
    (hlen : lenKind Γ e.deref = true) {vs ws us : List Val} {buf rest a b : Bytes} {n m : Nat}
    (ht : ∀ v ∈ vs, HasTy Γ e v) (he : encUnpacked Γ rec e fo vs = .ok buf) (hl : buf.length < 2 ^ 63)
    (hw : normElems Γ bl nm e fo vs = some ws) (hab : a ++ b = buf ++ rest)
    (hd : decUnpackedArr Γ rd e fo (List.replicate vs.length (Γ.zeroTy e)) a n = .ok m us) :
    (∃ a', a = buf ++ a' ∧ m = n + buf.length ∧ us = ws) ∨ (m = n + a.length ∧ buf ≠ [] ∧ us ≠ [] ∧ CutList Γ e ws us ∧ us.length = ws.length) := by
  induction vs generalizing ws us buf n a with
  | nil =>
    simp [encUnpacked] at he; simp [normElems] at hw
    subst he; subst hw
    refine .inl ⟨a, rfl, ?_⟩
    simp only [List.length_nil, List.replicate_zero, decUnpackedArr] at hd
    split at hd
    · split at hd
      · cases hd
      · cases hd
      · cases hd
      · split at hd
        · cases hd
        · cases hd; exact ⟨rfl, rfl⟩
    · cases hd; exact ⟨rfl, rfl⟩
  | cons v vs ih =>
    unfold encUnpacked at he
    obtain ⟨key, hkey, he⟩ := Res.bind_eq_ok he
    obtain ⟨bE, hb, he⟩ := Res.bind_eq_ok he
    obtain ⟨bs, hbs, he⟩ := Res.bind_eq_ok he
    simp only [Res.ok.injEq] at he
    obtain ⟨hkv, hfn⟩ := encodeKey_ok hkey (by decide)
    subst he
    rw [List.length_append, List.length_append] at hl
    unfold normElems at hw
    rw [hlen] at hw
    simp only [if_true, Option.bind_eq_some_iff, Option.map_eq_some_iff] at hw
    obtain ⟨w, hw1, ws', hws, rfl⟩ := hw
    obtain ⟨hbne, hA, hB⟩ := unpackedElem (rest := bs ++ rest) h hp hlead hn hS hlen (ht v (by simp)) hb
      (by omega) hw1
    have hdk : decodeKey (key ++ (bE ++ (bs ++ rest))) = .ok key.length (fo.fnum, typ3ByteLength) := by
      rw [hkv]; exact decodeKey_varint _ _ hfn (by decide) _
    have hab' : a ++ b = key ++ (bE ++ (bs ++ rest)) := by rw [hab]; simp
    have hih := fun {a n us} h1 h2 => ih (a := a) (n := n) (us := us) (fun u hu => ht u (by simp [hu])) hbs (by omega) hws h1 h2
    simp only [List.length_cons, List.replicate_succ, decUnpackedArr] at hd
    split at hd
    · cases hd
    · cases hd
    · cases hd
    · rename_i m' fn ty hk
      obtain ⟨rfl, rfl, rfl, a1, ha1, hab1⟩ := key_front hdk hab' hk
      rw [if_neg (by simp), if_neg (by simp), ha1, slideThen_append] at hd
      have hlena : a.length = key.length + a1.length := by rw [ha1]; simp
      have finish : ∀ {a2 : Bytes} {us' : List Val}, a1 = bE ++ a2 →
          decUnpackedArr Γ rd e fo (List.replicate vs.length (Γ.zeroTy e)) a2 (n + key.length + bE.length) = .ok m us' →
          (∃ a', a = key ++ bE ++ bs ++ a' ∧ m = n + (key ++ bE ++ bs).length ∧ w :: us' = w :: ws') ∨
            (m = n + a.length ∧ key ++ bE ++ bs ≠ [] ∧ w :: us' ≠ [] ∧ CutList Γ e (w :: ws') (w :: us') ∧ (w :: us').length = (w :: ws').length) := by
        intro a2 us' hx hdd
        subst hx
        have hab2 : a2 ++ b = bs ++ rest := by
          rw [List.append_assoc] at hab1
          exact List.append_cancel_left hab1
        rcases hih hab2 hdd with ⟨a', rfl, h2, h3⟩ | ⟨h2, _, _, h3, h4⟩
        · refine .inl ⟨a', by rw [ha1]; simp, ?_, by rw [h3]⟩
          simp only [List.length_append]; omega
        · refine .inr ⟨?_, by simp [hbne], by simp, h3.cons, by simp [h4]⟩
          rw [hlena]
          simp only [List.length_append]; omega
      by_cases hz : a1.head? = some 0 ∧ ¬ ((e.isPtr && Γ.isStruct e.deref) && fo.emptyElements) = true
      · rw [if_pos hz] at hd
        cases a1 with
        | nil => simp at hz
        | cons y a2 =>
          simp only [List.head?_cons, Option.some.injEq] at hz
          obtain ⟨rfl, hz2⟩ := hz
          have hbh : bE.head? = some 0 := by
            cases bE with
            | nil => exact absurd rfl hbne
            | cons z zs => simp at hab1; simp [hab1.1]
          obtain ⟨rfl, rfl⟩ := hA ⟨hbh, hz2⟩
          obtain ⟨_, hq⟩ := slideThen_inv hd; clear hd; have hd := hq; clear hq
          obtain ⟨us', hm, rfl⟩ := map_inv hd; clear hd; have hd := hm; clear hm
          exact finish (a2 := a2) rfl hd
      · rw [if_neg hz] at hd
        obtain ⟨j, u, hu, hj, hq⟩ := andSlide_inv hd; clear hd; have hd := hq; clear hq
        obtain ⟨us', hm, rfl⟩ := map_inv hd; clear hd; have hd := hm; clear hm
        cases a1 with
        | nil =>
          obtain ⟨rfl, y, rfl, hy⟩ := hc.none hu
          cases vs with
          | nil =>
            simp [normElems] at hws
            subst hws
            simp [decUnpackedArr] at hd
            obtain ⟨rfl, rfl⟩ := hd
            exact .inr ⟨by rw [hlena]; simp, by simp [hbne], by simp, .key (ws := []) hy, rfl⟩
          | cons v2 vs2 =>
            simp only [List.drop_nil, List.length_cons, List.replicate_succ, decUnpackedArr] at hd
            rw [show decodeKey [] = .err 0 .bufTooSmall by decide] at hd
            cases hd
        | cons y a2 =>
          have hbh : bE.head? = some y := by
            cases bE with
            | nil => exact absurd rfl hbne
            | cons z zs => simp at hab1; simp [hab1.1]
          have hBB := hB (by rw [hbh]; exact hz)
          rw [← hab1] at hBB
          obtain ⟨h1, h2, h3⟩ := hc.more (by simp) hu hBB
          subst h2
          rw [← h1] at hd h3
          rcases List.append_eq_append_iff.mp hab1 with ⟨z, h4, h5⟩ | ⟨z, h4, h5⟩
          · have hz0 : z = [] := by
              have := congrArg List.length h4
              simp only [List.length_append] at this
              exact List.length_eq_zero_iff.mp (by omega)
            subst hz0
            rw [List.append_nil] at h4
            refine finish (a2 := []) (by simp [h4]) ?_
            rw [← h4] at hd
            simpa using hd
          · refine finish h4 ?_
            rw [h4] at hd
            simpa using hd

/-- Decoding the front of a repeated list field and the fields behind it. -/
def ListCut (Γ : Prog) (c : Codec) (S : TId → FOpts → Prop) (bl : TId → Val → FOpts → Bool)
    (nm : TId → Val → FOpts → Option Val) (rec : TId → Val → FOpts → Bool → Res Bytes)
    (rd : Ty → Val → FOpts → Bool → Bytes → DRes Val) : Prop :=
  ∀ {id e fo v b rest w a x m u}, (Γ.shape id).elem? = some e → Γ.isByteKind e = false → Γ.unmarsh id = none →
    ElemOk Γ S e fo → lenKind Γ e.deref = true → HasTy Γ (.base id) v →
    encList Γ c rec e v fo true = .ok b → b.length < 2 ^ 63 → Starts fo.fnum rest →
    normList Γ bl nm (Γ.shape id) fo v = some w → a ≠ [] → a ++ x = b ++ rest →
    rd (.base id) (Γ.zero id) fo true a = .ok m u →
    (∃ a', a = b ++ a' ∧ m = b.length ∧ u = w) ∨
      (m = a.length ∧ b ≠ [] ∧ ∃ ws us, w = .list ws ∧ u = .list us ∧ us ≠ [] ∧ CutList Γ e ws us ∧
        ∀ n, Γ.shape id = .array n e → us.length = ws.length)

theorem Spec.CutList.ne {e : Ty} {ws us : List Val} (h : CutList Γ e ws us) (hu : us ≠ []) : ws ≠ [] := by
  cases h with
  | front => simp [hu]
  | key => simp

theorem encList_list {e : Ty} {vs : List Val} {fo : FOpts} {b : Bytes} (hlk : lenKind Γ e.deref = true)
    (h : encList Γ c rec e (.list vs) fo true = .ok b) : encUnpacked Γ rec e fo vs = .ok b := by
  unfold encList at h
  obtain ⟨_, _, h⟩ := Res.bind_eq_ok h
  simp only at h
  obtain ⟨buf, hb, h⟩ := Res.bind_eq_ok h
  simp [framed] at h
  subst h
  rwa [if_neg (by simpa using isLen_iff.mp (by rwa [lenKind_eq] at hlk))] at hb

theorem encList_nil {e : Ty} {fo : FOpts} {b : Bytes} (h : encList Γ c rec e .nil fo true = .ok b) : b = [] := by
  unfold encList at h
  obtain ⟨_, _, h⟩ := Res.bind_eq_ok h
  simp [framed] at h
  exact h

theorem decBody_cut (h : RecRT Γ S nm rec rd) (hp : RecPtr Γ rd) (hlead : RecLead Γ S bl rec) (hc : RecCut Γ rd)
    (hZ : ZeroOk Γ) : ListCut Γ c S bl nm rec (decBody Γ c rd) := by
  intro id e fo v b rest w a x m u he hbk hum hel hlk ht hen hl hst hw hane hab hd
  unfold decBody at hd
  rw [if_neg (by simp [Ty.isPtr])] at hd
  simp only [Ty.deref, hum, Prog.derefPrior] at hd
  obtain ⟨u1, hd1, hu⟩ := map_inv hd
  clear hd
  simp only [wrapTy] at hu
  subst hu
  unfold decShape at hd1
  have htyp : ¬ Γ.typ3 e.deref fo ≠ typ3ByteLength := by simpa using isLen_iff.mp (by rwa [lenKind_eq] at hlk)
  have hS : S e.deref { fo with fnum := 1 } := by have := hel.2; rwa [hlk, if_pos rfl] at this
  cases hs : Γ.shape id with
  | slice e' =>
    rw [hs] at he hw hd1
    simp [Shape.elem?] at he
    subst he
    simp only [hbk, Bool.false_eq_true, if_false] at hd1
    unfold decSlice at hd1
    have hd2 := (infoThen_inv hd1).2
    simp only [unframe, if_true] at hd2
    rw [if_neg htyp] at hd2
    obtain ⟨us, hd3, rfl⟩ := map_inv hd2
    obtain ⟨vs, ws, hv, hen', hw', hwn⟩ : ∃ vs ws, (∀ v ∈ vs, HasTy Γ e' v) ∧ encUnpacked Γ rec e' fo vs = .ok b ∧
        normElems Γ bl nm e' fo vs = some ws ∧ w = if ws.isEmpty then .nil else .list ws := by
      cases ht with
      | sliceNil =>
        have := encList_nil hen
        subst this
        simp only [normList, Option.some.injEq] at hw
        exact ⟨[], [], by simp, rfl, rfl, hw.symm⟩
      | @slice _ _ vs hs' _ h3 =>
        rw [hs] at hs'; cases hs'
        simp only [normList, Option.map_eq_some_iff] at hw
        obtain ⟨ws, hw1, hw2⟩ := hw
        refine ⟨vs, ws, h3, encList_list hlk hen, hw1, ?_⟩
        rw [← hw2]
        cases ws <;> rfl
      | _ => simp_all
    subst hwn
    rcases cut_slice h hp hlead hc hel.1 hS hlk hv hen' hl hst hw' hab hd3 with ⟨a', h1, h2, h3⟩ | ⟨h1, h2, h3, h4⟩
    · exact .inl ⟨a', h1, by omega, by rw [h3]⟩
    · have hus := h4 hane
      have hws := h3.ne hus
      refine .inr ⟨by omega, h2, ws, us, ?_, ?_, hus, h3, by simp⟩
      · cases ws with | nil => exact absurd rfl hws | cons => rfl
      · cases us with | nil => exact absurd rfl hus | cons => rfl
  | array n e' =>
    rw [hs] at he hw hd1
    simp [Shape.elem?] at he
    subst he
    simp only [hbk, Bool.false_eq_true, if_false] at hd1
    rw [hZ.array hs hbk] at hd1
    cases ht with
    | array hs' _ hlen h3 =>
      rw [hs] at hs'; cases hs'
      rename_i vs
      simp only [normList, Option.map_eq_some_iff] at hw
      obtain ⟨ws, hw1, rfl⟩ := hw
      unfold decArray at hd1
      have hd2 := (infoThen_inv hd1).2
      simp only [unframe, if_true] at hd2
      rw [if_neg htyp, ← hlen] at hd2
      obtain ⟨us, hd3, rfl⟩ := map_inv hd2
      rcases cut_array h hp hlead hc hel.1 hS hlk h3 (encList_list hlk hen) hl hw1 hab hd3 with ⟨a', h1, h2, h3⟩ | ⟨h1, h2, h3, h4, h5⟩
      · exact .inl ⟨a', h1, by omega, by rw [h3]⟩
      · exact .inr ⟨by omega, h2, ws, us, rfl, rfl, h3, h4, fun _ _ => h5⟩
    | arrayBytes hs' hb' => rw [hs] at hs'; cases hs'; rw [hbk] at hb'; cases hb'
    | _ => simp_all
  | _ => rw [hs] at he; simp [Shape.elem?] at he

theorem missing_cons {f : Field} {fs : List Field} : missing Γ (f :: fs) =
    (if f.visible then Γ.defaultValue f.ty else Γ.zeroTy f.ty) :: missing Γ fs := by
  unfold missing
  rw [List.map_cons, absent_eq]
  cases f.ty <;> rfl

theorem decFields_end {fs : List Field} {num last n m : Nat} {us : List Val}
    (h : decFields Γ c rd fs (fs.map fun f => Γ.zeroTy f.ty) num last [] n = .ok m us) : us = missing Γ fs := by
  induction fs generalizing num n us with
  | nil =>
    simp only [List.map_nil, decFields] at h
    obtain ⟨_, _, rfl⟩ := map_inv h
    rfl
  | cons f fs ih =>
    simp only [List.map_cons, decFields] at h
    rw [missing_cons]
    cases hv : f.visible with
    | false =>
      rw [hv] at h
      simp only [Bool.not_false, if_true] at h
      obtain ⟨us', h', rfl⟩ := map_inv h
      rw [ih h']
      rfl
    | true =>
      rw [hv] at h
      simp only [Bool.not_true, Bool.false_eq_true, if_false] at h
      have h := (infoThen_inv h).2
      rw [if_pos (by rfl)] at h
      obtain ⟨us', h', rfl⟩ := map_inv h
      rw [ih h']
      rfl

theorem cut_omitted (hl : ListCut Γ c S bl nm rec rd) (hU : Universe Γ c S) (hZ : ZeroOk Γ) {f : Field} {num : Nat}
    {v u : Val} {rest a x : Bytes} {m : Nat} (hf : FieldOk Γ S f num) (ht : HasTy Γ f.ty v) (hu : Γ.unpackedList f = true)
    (ho : omits Γ bl f num v = true) (hs : Starts num rest) (ha : a ≠ []) (hab : a ++ x = rest)
    (hd : rd f.ty (Γ.zeroTy f.ty) { f.opts with fnum := num } true a = .ok m u) : m = 0 ∧ u = Γ.defaultValue f.ty := by
  obtain ⟨id, e, hid, he, hbk, hlk⟩ := unpackedList_inv hu
  obtain ⟨_, hum, hel⟩ := hf.rep (by rw [repeated_eq]; exact hu)
  rw [hid] at ht hum hel hd ⊢
  have hok := hel e he
  have hinfo := getInfo_ok hU hok.2
  have key : ∃ dv, HasTy Γ (.base id) dv ∧ encList Γ c rec e dv { f.opts with fnum := num } true = .ok [] ∧
      normList Γ bl nm (Γ.shape id) { f.opts with fnum := num } dv = some (Γ.zero id) := by
    cases hsh : Γ.shape id with
    | slice e' =>
      rw [hsh] at he
      simp [Shape.elem?] at he
      subst he
      refine ⟨.nil, .sliceNil hsh, ?_, ?_⟩
      · unfold encList; rw [hinfo]; rfl
      · rw [hZ.slice hsh]; rfl
    | array n e' =>
      rw [hsh] at he
      simp [Shape.elem?] at he
      subst he
      unfold omits at ho
      rw [repeated_eq, hu, hid] at ho
      simp only [pointee, Ty.deref, hsh, if_true] at ho
      cases ht with
      | array hsh' _ hlen hvs =>
        rename_i vs
        rw [hsh] at hsh'; cases hsh'
        simp [dflt] at ho
        subst ho
        simp at hlen
        refine ⟨.list [], .array hsh hbk (by simpa using hlen) (by simp), ?_, ?_⟩
        · unfold encList; rw [hinfo]
          simp only [Res.bind_ok]
          split <;> rfl
        · rw [hZ.array hsh hbk, ← hlen]; rfl
      | arrayBytes hsh' hb' => rw [hsh] at hsh'; cases hsh'; rw [hbk] at hb'; cases hb'
      | _ => simp_all
    | _ => rw [hsh] at he; simp [Shape.elem?] at he
  obtain ⟨dv, hdt, hde, hdn⟩ := key
  have hnt : Γ.shape id ≠ .time := by intro hh; rw [hh] at he; simp [Shape.elem?] at he
  rcases hl he hbk hum hok hlk hdt hde (by simp) hs hdn ha hab hd with ⟨a', _, h2, h3⟩ | ⟨_, h2, _⟩
  · refine ⟨h2, ?_⟩
    rw [h3]
    unfold Prog.defaultValue
    cases hsh : Γ.shape id <;> simp [Ty.deref, hsh, Prog.zeroTy]
    exact absurd hsh hnt
  · exact absurd rfl h2

theorem cut_fields (h : RecRT Γ S nm rec rd) (hp : RecPtr Γ rd) (hlead : RecLead Γ S bl rec) (hc : RecCut Γ rd)
    (hl : ListCut Γ c S bl nm rec rd) (hz : ∀ id, HasTy Γ (.base id) (Γ.zero id)) (hU : Universe Γ c S)
    (hZ : ZeroOk Γ) {num last n m : Nat} {fs : List Field} {vs ws us : List Val} {buf a x : Bytes}
    (hf : FieldsOk Γ S num fs) (ht : FieldsTy Γ fs vs) (he : encFields Γ c rec num fs vs = .ok buf)
    (hlen : buf.length < 2 ^ 63) (hw : normFields Γ bl nm num fs vs = some ws) (hab : a ++ x = buf)
    (hd : decFields Γ c rd fs (fs.map fun f => Γ.zeroTy f.ty) num last a n = .ok m us) : CutFields Γ fs ws us := by
  induction fs generalizing num last n vs ws us buf a with
  | nil =>
    cases vs with
    | nil =>
      simp [encFields] at he
      subst he
      obtain ⟨rfl, rfl⟩ := List.append_eq_nil_iff.mp hab
      rw [decFields_end hd]
      exact .missing
    | cons => simp [encFields] at he
  | cons f fs ih =>
    cases vs with
    | nil => simp [encFields] at he
    | cons v vs =>
      have ht' := fieldsTy_cons.mp ht
      unfold encFields at he
      unfold normFields at hw
      unfold FieldsOk at hf
      by_cases hane : a = []
      · subst hane
        rw [decFields_end hd]
        exact .missing
      simp only [List.map_cons, decFields] at hd
      cases hv : f.visible with
      | false =>
        rw [hv] at he hw hf hd
        simp only [Bool.not_false, if_true, Bool.false_eq_true, if_false, Option.map_eq_some_iff] at he hw hf hd
        obtain ⟨ws', hws, rfl⟩ := hw
        obtain ⟨us', hd', rfl⟩ := map_inv hd
        have := ih hf ht'.2 he hlen hws hab hd'
        cases hft : f.ty <;> exact .keep this
      | true =>
        rw [hv] at he hw hf hd
        simp only [Bool.not_true, Bool.false_eq_true, if_false, if_true, Option.bind_eq_some_iff,
          Option.map_eq_some_iff] at he hw hf hd
        obtain ⟨b, hb, he⟩ := Res.bind_eq_ok he
        obtain ⟨bs, hbs, he⟩ := Res.bind_eq_ok he
        simp only [Res.ok.injEq] at he
        subst he
        rw [List.length_append] at hlen
        obtain ⟨w, hw1, ws', hws, rfl⟩ := hw
        have hom := encField_nil hlead hz hf.1 ht'.1 hb (by omega)
        have hih := fun {a last n us} => ih (a := a) (last := last) (n := n) (us := us) hf.2 ht'.2 hbs (by omega) hws
        have hst : Starts (num + 1) bs := by simpa using encFields_starts (tail := []) hbs (.inl rfl)
        obtain ⟨hinfo, hd1⟩ := infoThen_inv hd
        clear hd
        rw [if_neg (by simpa using hane)] at hd1
        unfold normField at hw1
        by_cases ho : omits Γ bl f (num + 1) v = true
        · have hb0 := hom.mpr ho
          subst hb0
          rw [if_pos ho] at hw1
          simp only [Option.some.injEq] at hw1
          rw [absent_eq] at hw1
          subst hw1
          simp only [List.nil_append] at hab
          cases hu : Γ.unpackedList f with
          | true =>
            rw [hu] at hd1
            simp only [if_true] at hd1
            obtain ⟨j, u, hrd, _, hd2⟩ := andSlide_inv hd1
            obtain ⟨us', hd3, rfl⟩ := map_inv hd2
            obtain ⟨rfl, rfl⟩ := cut_omitted hl hU hZ hf.1 ht'.1 hu ho hst hane hab hrd
            exact .keep (hih hab hd3)
          | false =>
            rw [hu] at hd1
            simp only [Bool.false_eq_true, if_false] at hd1
            split at hd1
            · cases hd1
            · cases hd1
            · cases hd1
            · rename_i m' fn ty hk
              have hk' := (key_app (b := x) hk).1
              rw [hab] at hk'
              rcases hst with rfl | ⟨m2, fn2, ty2, hk2, hfn⟩
              · exact absurd (List.append_eq_nil_iff.mp hab).1 hane
              · rw [hk'] at hk2
                cases hk2
                rw [if_pos hfn] at hd1
                obtain ⟨us', hd3, rfl⟩ := map_inv hd1
                exact .keep (hih hab hd3)
        · rw [if_neg ho, pointee_eq] at hw1
          have hbne : b ≠ [] := fun hh => ho (hom.mp hh)
          simp only [Option.bind_eq_some_iff] at hw1
          obtain ⟨dv, hdv, hw1⟩ := hw1
          unfold encField at hb
          rw [hinfo, Res.bind_ok, hdv] at hb
          simp only at hb
          have htd := hasTy_derefVal ht'.1 hdv
          have hnd : ¬ (isDefaultBase (Γ.shape f.ty.deref) dv && !f.opts.writeEmpty) = true := by
            intro hh
            apply ho
            unfold omits
            rw [pointee_eq, hdv]
            simp only [dflt_eq, hh, Bool.true_or]
          rw [if_neg hnd] at hb
          rw [repeated_eq] at hw1
          cases hu : Γ.unpackedList f with
          | true =>
            rw [hu] at hb hw1 hd1
            simp only [if_true] at hb hw1 hd1
            obtain ⟨id, e, hid, hel, hbk, hlk⟩ := unpackedList_inv hu
            obtain ⟨_, hum, helm⟩ := hf.1.rep (by rw [repeated_eq]; exact hu)
            have hel' : (Γ.shape f.ty.deref).elem? = some e := by rw [hid]; exact hel
            rw [hel'] at hb
            simp only at hb
            obtain ⟨j, u, hrd, _, hd2⟩ := andSlide_inv hd1
            obtain ⟨us', hd3, rfl⟩ := map_inv hd2
            have hzt : Γ.zeroTy f.ty = Γ.zero id := by rw [hid]; rfl
            rw [hzt, hid] at hrd
            rcases hl hel hbk (by rw [hid] at hum; exact hum) (helm e hel') hlk (by rw [hid] at htd; exact htd) hb (by omega)
              hst (by rw [hid] at hw1; exact hw1) hane hab hrd with ⟨a', h1, h2, h3⟩ | ⟨h1, h2, ws1, us1, h3, h4, h5, h6, h7⟩
            · subst h1; subst h2; subst h3
              rw [List.append_assoc] at hab
              rw [List.drop_left] at hd3
              exact .keep (hih (List.append_cancel_left hab) hd3)
            · subst h1; subst h3; subst h4
              rw [List.drop_length] at hd3
              rw [decFields_end hd3]
              exact .last hv (.list hid hel (by rw [repeated_eq]; exact hu) h5 h6 h7)
          | false =>
            rw [hu] at hb hw1 hd1
            simp only [Bool.false_eq_true, if_false, Option.map_eq_some_iff] at hb hw1 hd1
            obtain ⟨w1, hw1, rfl⟩ := hw1
            obtain ⟨hS, hwe⟩ := hf.1.single (by rw [repeated_eq]; exact hu)
            unfold writeField at hb
            obtain ⟨k, hk, hb⟩ := Res.bind_eq_ok hb
            obtain ⟨b', hb', hb⟩ := Res.bind_eq_ok hb
            obtain ⟨hk, hn29⟩ := encodeKey_ok hk (typ3_lt _ _ _)
            split at hb
            · simp only [Res.ok.injEq] at hb
              exact absurd hb.symm hbne
            · simp only [Res.ok.injEq] at hb
              subst hb
              rw [List.length_append] at hlen
              have hdk : decodeKey (k ++ (b' ++ bs)) = .ok k.length
                  (num + 1, Γ.typ3 f.ty.deref { f.opts with fnum := num + 1 }) := by
                rw [hk]; exact decodeKey_varint _ _ hn29 (typ3_lt _ _ _) _
              rw [List.append_assoc] at hab
              split at hd1
              · cases hd1
              · cases hd1
              · cases hd1
              · rename_i m' fn ty hka
                obtain ⟨rfl, rfl, rfl, a1, rfl, hab1⟩ := key_front hdk hab hka
                rw [if_neg (by omega)] at hd1
                split at hd1
                · cases hd1
                rw [slideThen_append, if_neg (by simp), if_neg (by simp)] at hd1
                have hni : Γ.isIface f.ty.deref = true → dv ≠ .nil := by
                  intro hif hnil
                  apply hnd
                  have := hwe hif
                  unfold Prog.isIface at hif
                  split at hif
                  · rename_i hs; rw [hs, hnil, this]; rfl
                  · cases hif
                have hfull := h.ptr hp hf.1.noPtr hS htd hni hb' (by omega) (rest := bs) (by simp) hw1
                obtain ⟨j, u, hrd, _, hd2⟩ := andSlide_inv hd1
                obtain ⟨us', hd3, rfl⟩ := map_inv hd2
                cases a1 with
                | nil =>
                  obtain ⟨rfl, y, rfl, hy⟩ := hc.none hrd
                  rw [List.drop_nil] at hd3
                  rw [decFields_end hd3]
                  exact .last hv (.key (by rw [repeated_eq]; exact hu) hy)
                | cons y a2 =>
                  rw [← hab1] at hfull
                  obtain ⟨h1, h2, h3⟩ := hc.more (by simp) hrd hfull
                  rw [← h2]
                  subst h1
                  rcases List.append_eq_append_iff.mp hab1 with ⟨z, h4, h5⟩ | ⟨z, h4, h5⟩
                  · have hz0 : z = [] := by
                      have := congrArg List.length h4
                      simp only [List.length_append] at this
                      exact List.length_eq_zero_iff.mp (by omega)
                    subst hz0
                    rw [List.append_nil] at h4
                    rw [← h4, List.drop_length] at hd3
                    rw [decFields_end hd3]
                    exact .keep .missing
                  · rw [h4, List.drop_left] at hd3
                    exact .keep (hih h5.symm hd3)

end

end Amino
