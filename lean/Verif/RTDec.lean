import Verif.RTEnc
import Verif.BinDecode
import Verif.PropsPrim

/-!
# The binary round trip: decoding what the encoder wrote gives the normalised value
-/

namespace Amino
open Spec

/-! ## Plumbing -/

theorem andSlide_append {α β : Type} {b rest : Bytes} {n : Nat} {a : α} {k : α → Bytes → Nat → DRes β} :
    (DRes.ok b.length a).andSlide (b ++ rest) n k = k a rest (n + b.length) := by
  simp [DRes.andSlide]

theorem slideThen_append {β : Type} {b rest : Bytes} {n : Nat} {k : Bytes → Nat → DRes β} :
    slideThen b.length (b ++ rest) n k = k rest (n + b.length) := by
  simp [slideThen]

theorem unframe_framed {α : Type} {bare : Bool} {p b rest : Bytes} {k : Bytes → Nat → DRes α}
    (h : framed bare p = .ok b) (hl : b.length < 2 ^ 63) :
    ∃ n, n + p.length = b.length ∧ p.length < 2 ^ 63 ∧
      unframe bare (b ++ rest) k = k (if bare then p ++ rest else p) n := by
  obtain ⟨hb, hpl⟩ := framed_ok h hl
  cases bare with
  | true =>
    simp at hb
    subst hb
    exact ⟨0, by simp, hpl, by simp [unframe]⟩
  | false =>
    simp at hb
    refine ⟨(varint p.length).length, by rw [hb]; simp, hpl, ?_⟩
    have hdec := decodeByteSlice_varint p rest hpl
    rw [← List.append_assoc, ← hb] at hdec
    have hle : (varint p.length).length + p.length ≤ (b ++ rest).length := by rw [hb]; simp
    unfold unframe
    rw [hdec]
    simp only [Bool.false_eq_true, if_false]
    rw [if_pos hle, uvarintSize_eq]
    have : (UInt64.ofNat p.length).toNat = p.length := by simp; omega
    rw [this]

theorem derefVal_wrap (t : Ty) (v : Val) : derefVal t (wrapTy t v) = some v := by
  induction t with
  | base => rfl
  | ptr t ih => exact ih

theorem derefPrior_zeroTy (Γ : Prog) (t : Ty) : Γ.derefPrior t (Γ.zeroTy t) = Γ.zero t.deref := by
  induction t with
  | base => rfl
  | ptr t ih => exact ih

theorem map_map {α β γ : Type} (r : DRes α) (f : α → β) (g : β → γ) :
    (r.map f).map g = r.map (fun a => g (f a)) := by cases r <;> rfl

/-- Decoding through (fresh) pointers is decoding the pointee. -/
theorem decBody_ptr {Γ : Prog} {c : Codec} {rec : Ty → Val → FOpts → Bool → Bytes → DRes Val} {t : Ty}
    (hn : noIfacePtr Γ t) (fo : FOpts) (bare : Bool) (bz : Bytes) :
    decBody Γ c rec t (Γ.zeroTy t) fo bare bz =
      (decBody Γ c rec (.base t.deref) (Γ.zero t.deref) fo bare bz).map (wrapTy t) := by
  have h1 : (t.isPtr && Γ.isIface t.deref) = false := by
    cases hp : t.isPtr with
    | false => rfl
    | true => simp [hn hp]
  unfold decBody
  rw [if_neg (by simp [h1]), if_neg (by simp [Ty.isPtr])]
  simp only [derefPrior_zeroTy, Ty.deref, map_map]
  rfl

/-- A byte string that is empty or starts with the key of a field numbered above `num`. -/
def Starts (num : Nat) (bz : Bytes) : Prop :=
  bz = [] ∨ ∃ m fn ty, decodeKey bz = .ok m (fn, ty) ∧ num < fn

theorem Starts.mono {a b : Nat} {bz : Bytes} (h : Starts b bz) (hab : a ≤ b) : Starts a bz := by
  rcases h with h | ⟨m, fn, ty, h, h'⟩
  · exact .inl h
  · exact .inr ⟨m, fn, ty, h, by omega⟩

/-! ## One level of the round trip -/

section
variable {Γ : Prog} {c : Codec} {S : TId → FOpts → Prop}

/-- What is known about the calls one level down. -/
def RecRT (Γ : Prog) (S : TId → FOpts → Prop) (nm : TId → Val → FOpts → Option Val)
    (rec : TId → Val → FOpts → Bool → Res Bytes)
    (rd : Ty → Val → FOpts → Bool → Bytes → DRes Val) : Prop :=
  ∀ id v fo bare b rest w, S id fo → HasTy Γ (.base id) v → (Γ.isIface id = true → v ≠ .nil) →
    rec id v fo bare = .ok b → b.length < 2 ^ 63 → (bare = true → rest = []) → nm id v fo = some w →
    rd (.base id) (Γ.zero id) fo bare (b ++ rest) = .ok b.length w

/-- Pointers are handled by the recursive decoder. -/
def RecPtr (Γ : Prog) (rd : Ty → Val → FOpts → Bool → Bytes → DRes Val) : Prop :=
  ∀ t fo bare bz, noIfacePtr Γ t →
    rd t (Γ.zeroTy t) fo bare bz = (rd (.base t.deref) (Γ.zero t.deref) fo bare bz).map (wrapTy t)

variable {rec : TId → Val → FOpts → Bool → Res Bytes} {bl : TId → Val → FOpts → Bool}
  {nm : TId → Val → FOpts → Option Val} {rd : Ty → Val → FOpts → Bool → Bytes → DRes Val}

theorem RecRT.ptr (h : RecRT Γ S nm rec rd) (hp : RecPtr Γ rd) {t : Ty} {v w : Val} {fo : FOpts} {bare : Bool}
    {b rest : Bytes} (hn : noIfacePtr Γ t) (hS : S t.deref fo) (ht : HasTy Γ (.base t.deref) v)
    (hi : Γ.isIface t.deref = true → v ≠ .nil) (he : rec t.deref v fo bare = .ok b) (hl : b.length < 2 ^ 63)
    (hr : bare = true → rest = []) (hw : nm t.deref v fo = some w) :
    rd t (Γ.zeroTy t) fo bare (b ++ rest) = .ok b.length (refs t w) := by
  rw [hp t fo bare _ hn, h t.deref v fo bare b rest w hS ht hi he hl hr hw, refs_eq]
  rfl

/-! ### Packed lists -/

theorem packedElem (h : RecRT Γ S nm rec rd) (hp : RecPtr Γ rd) (hz : ∀ id, HasTy Γ (.base id) (Γ.zero id))
    {e : Ty} {v w : Val} {fo : FOpts} {b rest : Bytes} (hn : noIfacePtr Γ e) (hS : S e.deref fo)
    (hlen : lenKind Γ e.deref = false) (ht : HasTy Γ e v)
    (he : rec e.deref (Γ.derefZero e v) fo false = .ok b) (hl : b.length < 2 ^ 63)
    (hw : normPackedElem Γ nm e fo v = some w) :
    ∃ w0, rd e (Γ.zeroTy e) fo false (b ++ rest) = .ok b.length w0 ∧ preferNil Γ e w0 = w := by
  unfold normPackedElem at hw
  rw [pointee_eq] at hw
  have hd : (derefVal e v).getD (Γ.zero e.deref) = Γ.derefZero e v := by
    unfold Prog.derefZero; cases derefVal e v <;> rfl
  rw [hd] at hw
  simp only [Option.map_eq_some_iff] at hw
  obtain ⟨w1, hw1, hw⟩ := hw
  have hni : Γ.isIface e.deref = false := by
    unfold lenKind at hlen; unfold Prog.isIface
    split at hlen <;> simp_all
  refine ⟨refs e w1, h.ptr hp hn hS (hasTy_derefZero hz ht) (by simp [hni]) he hl (by simp) hw1, ?_⟩
  rw [← hw]
  unfold preferNil Prog.isDefault
  rw [refs_eq, derefVal_wrap, dflt_eq]

theorem decPackedSlice_rt (h : RecRT Γ S nm rec rd) (hp : RecPtr Γ rd) (hlead : RecLead Γ S bl rec)
    (hz : ∀ id, HasTy Γ (.base id) (Γ.zero id)) {e : Ty} {fo : FOpts} (hn : noIfacePtr Γ e) (hS : S e.deref fo)
    (hlen : lenKind Γ e.deref = false) {vs ws : List Val} {buf : Bytes} {k n : Nat} (ht : ∀ v ∈ vs, HasTy Γ e v)
    (he : encPacked Γ rec e fo vs = .ok buf) (hl : buf.length < 2 ^ 63) (hk : buf.length ≤ k)
    (hw : normElems Γ bl nm e fo vs = some ws) :
    decPackedSlice Γ rd e fo k buf n = .ok (n + buf.length) ws := by
  induction vs generalizing ws buf k n with
  | nil =>
    simp [encPacked] at he; simp [normElems] at hw
    subst he; subst hw
    simp [decPackedSlice]
  | cons v vs ih =>
    unfold encPacked at he
    obtain ⟨b, hb, he⟩ := Res.bind_eq_ok he
    obtain ⟨bs, hbs, he⟩ := Res.bind_eq_ok he
    simp only [Res.ok.injEq] at he
    subst he
    rw [List.length_append] at hl hk
    unfold normElems at hw
    rw [hlen] at hw
    simp only [Bool.false_eq_true, if_false, Option.bind_eq_some_iff, Option.map_eq_some_iff] at hw
    obtain ⟨w, hw1, ws', hws, rfl⟩ := hw
    have hbne := (hlead _ _ _ _ hS (hasTy_derefZero hz (ht v (by simp))) hb (by omega)).ne
    have hbpos := List.length_pos_iff.mpr hbne
    obtain ⟨w0, hrd, hpn⟩ := packedElem (rest := bs) h hp hz hn hS hlen (ht v (by simp)) hb (by omega) hw1
    cases k with
    | zero => omega
    | succ k =>
      have hcons : ∃ x xs, b ++ bs = x :: xs := by
        cases b with
        | nil => exact absurd rfl hbne
        | cons x xs => exact ⟨x, xs ++ bs, rfl⟩
      have hstep : decPackedSlice Γ rd e fo (k + 1) (b ++ bs) n =
          (rd e (Γ.zeroTy e) fo false (b ++ bs)).andSlide (b ++ bs) n fun v bz n =>
            (decPackedSlice Γ rd e fo k bz n).map fun vs => preferNil Γ e v :: vs := by
        obtain ⟨x, xs, hx⟩ := hcons
        rw [hx]; rfl
      rw [hstep, hrd, andSlide_append, ih (fun u hu => ht u (by simp [hu])) hbs (by omega) (by omega) hws]
      simp [hpn]
      omega

theorem decPackedArr_rt (h : RecRT Γ S nm rec rd) (hp : RecPtr Γ rd)
    (hz : ∀ id, HasTy Γ (.base id) (Γ.zero id)) {e : Ty} {fo : FOpts} (hn : noIfacePtr Γ e) (hS : S e.deref fo)
    (hlen : lenKind Γ e.deref = false) {vs ws : List Val} {buf : Bytes} {n : Nat} (ht : ∀ v ∈ vs, HasTy Γ e v)
    (he : encPacked Γ rec e fo vs = .ok buf) (hl : buf.length < 2 ^ 63)
    (hw : normElems Γ bl nm e fo vs = some ws) :
    decPackedArr Γ rd e fo (List.replicate vs.length (Γ.zeroTy e)) buf n = .ok (n + buf.length) ws := by
  induction vs generalizing ws buf n with
  | nil =>
    simp [encPacked] at he; simp [normElems] at hw
    subst he; subst hw
    simp [decPackedArr]
  | cons v vs ih =>
    unfold encPacked at he
    obtain ⟨b, hb, he⟩ := Res.bind_eq_ok he
    obtain ⟨bs, hbs, he⟩ := Res.bind_eq_ok he
    simp only [Res.ok.injEq] at he
    subst he
    rw [List.length_append] at hl
    unfold normElems at hw
    rw [hlen] at hw
    simp only [Bool.false_eq_true, if_false, Option.bind_eq_some_iff, Option.map_eq_some_iff] at hw
    obtain ⟨w, hw1, ws', hws, rfl⟩ := hw
    obtain ⟨w0, hrd, hpn⟩ := packedElem (rest := bs) h hp hz hn hS hlen (ht v (by simp)) hb (by omega) hw1
    simp only [List.length_cons, List.replicate_succ, decPackedArr]
    rw [hrd, andSlide_append, ih (fun u hu => ht u (by simp [hu])) hbs (by omega) hws]
    simp [hpn]
    omega

/-! ### Unpacked lists -/

/-- Reading one element after its key: either a lone zero byte standing for the default, or an encoding. -/
theorem unpackedElem (h : RecRT Γ S nm rec rd) (hp : RecPtr Γ rd) (hlead : RecLead Γ S bl rec)
    {e : Ty} {v w : Val} {fo : FOpts} {b rest : Bytes} (hn : noIfacePtr Γ e)
    (hS : S e.deref { fo with fnum := 1 }) (hlen : lenKind Γ e.deref = true) (ht : HasTy Γ e v)
    (he : encElem Γ rec e fo v = .ok b) (hl : b.length < 2 ^ 63) (hw : normElem Γ bl nm e fo v = some w) :
    b ≠ [] ∧
    ((b.head? = some 0 ∧ ¬ ((e.isPtr && Γ.isStruct e.deref) && fo.emptyElements) = true) →
      b = [0] ∧ w = Γ.defaultValue e) ∧
    (¬ (b.head? = some 0 ∧ ¬ ((e.isPtr && Γ.isStruct e.deref) && fo.emptyElements) = true) →
      rd e (Γ.zeroTy e) { fo with fnum := 1 } false (b ++ rest) = .ok b.length w) := by
  have hke : keepEmpty Γ e fo = ((e.isPtr && Γ.isStruct e.deref) && fo.emptyElements) := by
    unfold keepEmpty
    cases fo.emptyElements <;> simp
  have hzero : encodeUint8 0 = .ok [0] := by decide
  have hfx : fixedKind Γ e.deref { fo with fnum := 1 } = false := by
    unfold lenKind at hlen; unfold fixedKind
    split at hlen <;> simp_all
  unfold encElem at he
  unfold normElem at hw
  rw [pointee_eq] at hw
  rw [hke] at hw
  cases hd : derefVal e v with
  | none =>
    rw [hd] at he hw
    simp only [Option.some.injEq] at he hw
    by_cases hc : ((e.isPtr && Γ.isStruct e.deref) && fo.emptyElements) = true
    · rw [if_pos hc] at he; simp at he
    · rw [if_neg hc, hzero] at he
      simp only [Res.ok.injEq] at he
      subst he
      rw [absent_eq] at hw
      exact ⟨by simp, fun _ => ⟨rfl, hw.symm⟩, fun hh => absurd ⟨rfl, hc⟩ hh⟩
  | some dv =>
    rw [hd] at he hw
    simp only [dflt_eq] at he hw
    by_cases hdef : isDefaultBase (Γ.shape e.deref) dv = true
    · rw [if_pos hdef] at he
      by_cases hc : ((e.isPtr && Γ.isStruct e.deref) && fo.emptyElements) = true
      · rw [if_pos hc] at he; simp at he
      · rw [if_neg hc, hzero] at he
        simp only [Res.ok.injEq] at he
        subst he
        rw [if_pos (by simp [hdef])] at hw
        simp only [Option.some.injEq] at hw
        rw [absent_eq] at hw
        exact ⟨by simp, fun _ => ⟨rfl, hw.symm⟩, fun hh => absurd ⟨rfl, hc⟩ hh⟩
    · rw [if_neg hdef] at he
      have htd := hasTy_derefVal ht hd
      have hL := hlead _ _ _ _ hS htd he hl
      refine ⟨hL.ne, ?_, ?_⟩
      · rintro ⟨h0, hc⟩
        have hb0 := hL.head hfx h0
        have hbl := hL.blank.mp hb0
        rw [if_pos (by simp only [Bool.or_eq_true, Bool.and_eq_true]; right; exact ⟨hbl, by rw [Bool.not_eq_true] at hc; rw [hc]; rfl⟩)] at hw
        simp only [Option.some.injEq] at hw
        rw [absent_eq] at hw
        exact ⟨hb0, hw.symm⟩
      · intro hh
        have hcond : ¬ ((isDefaultBase (Γ.shape e.deref) dv || (bl e.deref dv { fo with fnum := 1 } &&
            !((e.isPtr && Γ.isStruct e.deref) && fo.emptyElements))) = true) := by
          intro hx
          simp only [Bool.or_eq_true, Bool.and_eq_true] at hx
          rcases hx with hx | ⟨hx, hc⟩
          · exact hdef hx
          · refine hh ⟨?_, by intro hh'; rw [hh'] at hc; cases hc⟩
            rw [hL.blank.mpr hx]; rfl
        rw [if_neg hcond] at hw
        simp only [Option.map_eq_some_iff] at hw
        obtain ⟨w1, hw1, rfl⟩ := hw
        refine h.ptr hp hn hS htd ?_ he hl (by simp) hw1
        intro hif hnil
        apply hdef
        unfold Prog.isIface at hif
        split at hif
        · rename_i hs; rw [hs, hnil]; rfl
        · cases hif

theorem decUnpackedSlice_rt (h : RecRT Γ S nm rec rd) (hp : RecPtr Γ rd) (hlead : RecLead Γ S bl rec)
    {e : Ty} {fo : FOpts} (hn : noIfacePtr Γ e) (hS : S e.deref { fo with fnum := 1 })
    (hlen : lenKind Γ e.deref = true) {vs ws : List Val} {buf rest : Bytes} {k n : Nat}
    (ht : ∀ v ∈ vs, HasTy Γ e v) (he : encUnpacked Γ rec e fo vs = .ok buf) (hl : buf.length < 2 ^ 63)
    (hk : buf.length + rest.length ≤ k) (hr : Starts fo.fnum rest)
    (hw : normElems Γ bl nm e fo vs = some ws) :
    decUnpackedSlice Γ rd e fo k (buf ++ rest) n = .ok (n + buf.length) ws := by
  induction vs generalizing ws buf k n with
  | nil =>
    simp [encUnpacked] at he; simp [normElems] at hw
    subst he; subst hw
    rcases hr with rfl | ⟨m, fn, ty, hkey, hfn⟩
    · simp [decUnpackedSlice]
    · cases rest with
      | nil => simp [decUnpackedSlice]
      | cons x xs =>
        cases k with
        | zero => simp at hk
        | succ k =>
          simp only [List.nil_append, decUnpackedSlice, hkey, List.length_nil, Nat.add_zero]
          rw [if_neg (by omega), if_pos (by omega)]
  | cons v vs ih =>
    unfold encUnpacked at he
    obtain ⟨key, hkey, he⟩ := Res.bind_eq_ok he
    obtain ⟨b, hb, he⟩ := Res.bind_eq_ok he
    obtain ⟨bs, hbs, he⟩ := Res.bind_eq_ok he
    simp only [Res.ok.injEq] at he
    obtain ⟨hkv, hfn⟩ := encodeKey_ok hkey (by decide)
    subst he
    rw [List.length_append, List.length_append] at hl hk
    unfold normElems at hw
    rw [hlen] at hw
    simp only [if_true, Option.bind_eq_some_iff, Option.map_eq_some_iff] at hw
    obtain ⟨w, hw1, ws', hws, rfl⟩ := hw
    have hkpos : 0 < key.length := by rw [hkv]; exact varint_length_pos _
    obtain ⟨hbne, hA, hB⟩ := unpackedElem (rest := bs ++ rest) h hp hlead hn hS hlen (ht v (by simp)) hb
      (by omega) hw1
    have hdk : decodeKey (key ++ (b ++ (bs ++ rest))) = .ok key.length (fo.fnum, typ3ByteLength) := by
      rw [hkv]; exact decodeKey_varint _ _ hfn (by decide) _
    have hassoc : key ++ b ++ bs ++ rest = key ++ (b ++ (bs ++ rest)) := by simp
    have hih := fun n => ih (k := k - 1) (n := n) (fun u hu => ht u (by simp [hu])) hbs (by omega) (by omega) hws
    cases k with
    | zero => omega
    | succ k =>
      simp only [Nat.add_sub_cancel] at hih
      have hcons : ∃ x xs, key ++ (b ++ (bs ++ rest)) = x :: xs := by
        cases key with
        | nil => simp at hkpos
        | cons x xs => exact ⟨x, _, rfl⟩
      have hhead : (b ++ (bs ++ rest)).head? = b.head? := by
        cases b with
        | nil => exact absurd rfl hbne
        | cons => rfl
      rw [hassoc]
      have hstep : ∀ bz, (∃ x xs, bz = x :: xs) → decodeKey bz = .ok key.length (fo.fnum, typ3ByteLength) →
          decUnpackedSlice Γ rd e fo (k + 1) bz n = slideThen key.length bz n fun bz n =>
            if bz.head? = some 0 ∧ ¬ ((e.isPtr && Γ.isStruct e.deref) && fo.emptyElements) = true then
              slideThen 1 bz n fun bz n =>
              (decUnpackedSlice Γ rd e fo k bz n).map fun vs => Γ.defaultValue e :: vs
            else
              (rd e (Γ.zeroTy e) { fo with fnum := 1 } false bz).andSlide bz n fun v bz n =>
              (decUnpackedSlice Γ rd e fo k bz n).map fun vs => v :: vs := by
        rintro bz ⟨x, xs, rfl⟩ hd
        simp only [decUnpackedSlice, hd]
        rw [if_neg (by omega), if_neg (by omega), if_neg (by simp)]
      rw [hstep _ hcons hdk, slideThen_append, hhead]
      by_cases hc : b.head? = some 0 ∧ ¬ ((e.isPtr && Γ.isStruct e.deref) && fo.emptyElements) = true
      · rw [if_pos hc]
        obtain ⟨hb0, hwd⟩ := hA hc
        have h1 : (1 : Nat) = b.length := by rw [hb0]; rfl
        rw [h1, slideThen_append, hih]
        simp [hwd]
        omega
      · rw [if_neg hc, hB hc, andSlide_append, hih]
        simp
        omega

theorem decUnpackedArr_rt (h : RecRT Γ S nm rec rd) (hp : RecPtr Γ rd) (hlead : RecLead Γ S bl rec)
    {e : Ty} {fo : FOpts} (hn : noIfacePtr Γ e) (hS : S e.deref { fo with fnum := 1 })
    (hlen : lenKind Γ e.deref = true) {vs ws : List Val} {buf rest : Bytes} {n : Nat}
    (ht : ∀ v ∈ vs, HasTy Γ e v) (he : encUnpacked Γ rec e fo vs = .ok buf) (hl : buf.length < 2 ^ 63)
    (hr : Starts fo.fnum rest) (hw : normElems Γ bl nm e fo vs = some ws) :
    decUnpackedArr Γ rd e fo (List.replicate vs.length (Γ.zeroTy e)) (buf ++ rest) n =
      .ok (n + buf.length) ws := by
  induction vs generalizing ws buf n with
  | nil =>
    simp [encUnpacked] at he; simp [normElems] at hw
    subst he; subst hw
    rcases hr with rfl | ⟨m, fn, ty, hkey, hfn⟩
    · simp [decUnpackedArr]
    · simp only [List.length_nil, List.replicate_zero, List.nil_append, decUnpackedArr, hkey, Nat.add_zero]
      split
      · rw [if_neg (by omega)]
      · rfl
  | cons v vs ih =>
    unfold encUnpacked at he
    obtain ⟨key, hkey, he⟩ := Res.bind_eq_ok he
    obtain ⟨b, hb, he⟩ := Res.bind_eq_ok he
    obtain ⟨bs, hbs, he⟩ := Res.bind_eq_ok he
    simp only [Res.ok.injEq] at he
    obtain ⟨hkv, hfn⟩ := encodeKey_ok hkey (by decide)
    subst he
    rw [List.length_append, List.length_append] at hl
    unfold normElems at hw
    rw [hlen] at hw
    simp only [if_true, Option.bind_eq_some_iff, Option.map_eq_some_iff] at hw
    obtain ⟨w, hw1, ws', hws, rfl⟩ := hw
    obtain ⟨hbne, hA, hB⟩ := unpackedElem (rest := bs ++ rest) h hp hlead hn hS hlen (ht v (by simp)) hb
      (by omega) hw1
    have hdk : decodeKey (key ++ (b ++ (bs ++ rest))) = .ok key.length (fo.fnum, typ3ByteLength) := by
      rw [hkv]; exact decodeKey_varint _ _ hfn (by decide) _
    have hassoc : key ++ b ++ bs ++ rest = key ++ (b ++ (bs ++ rest)) := by simp
    have hih := fun n => ih (n := n) (fun u hu => ht u (by simp [hu])) hbs (by omega) hws
    have hhead : (b ++ (bs ++ rest)).head? = b.head? := by
      cases b with
      | nil => exact absurd rfl hbne
      | cons => rfl
    rw [hassoc]
    simp only [List.length_cons, List.replicate_succ, decUnpackedArr, hdk]
    rw [if_neg (by simp), if_neg (by simp), slideThen_append, hhead]
    by_cases hc : b.head? = some 0 ∧ ¬ ((e.isPtr && Γ.isStruct e.deref) && fo.emptyElements) = true
    · rw [if_pos hc]
      obtain ⟨hb0, hwd⟩ := hA hc
      have h1 : (1 : Nat) = b.length := by rw [hb0]; rfl
      rw [h1, slideThen_append, hih]
      simp [hwd]
      omega
    · rw [if_neg hc, hB hc, andSlide_append, hih]
      simp
      omega

/-! ### Lists -/

/-- Slices.  What may follow a bare list: nothing, or (for length delimited elements) a field with a larger
number. -/
theorem decSlice_rt (h : RecRT Γ S nm rec rd) (hp : RecPtr Γ rd) (hlead : RecLead Γ S bl rec)
    (hz : ∀ id, HasTy Γ (.base id) (Γ.zero id)) (hU : Universe Γ c S) {e : Ty} {fo : FOpts} {v w : Val} {bare : Bool}
    {b rest : Bytes} (hS : ElemOk Γ S e fo) (ht : ∀ vs, v = .list vs → ∀ u ∈ vs, HasTy Γ e u)
    (he : encList Γ c rec e v fo bare = .ok b) (hl : b.length < 2 ^ 63)
    (hr : bare = true → Starts fo.fnum rest ∧ (rest ≠ [] → lenKind Γ e.deref = true))
    (hw : normList Γ bl nm (.slice e) fo v = some w) :
    decSlice Γ c rd e fo bare (b ++ rest) = .ok b.length w := by
  obtain ⟨hn, hS⟩ := hS
  have hinfo := getInfo_ok hU hS
  have key : ∃ vs buf ws, framed bare buf = .ok b ∧ (∀ u ∈ vs, HasTy Γ e u) ∧
      (if Γ.typ3 e.deref fo ≠ typ3ByteLength then encPacked Γ rec e fo vs else encUnpacked Γ rec e fo vs) =
        .ok buf ∧ normElems Γ bl nm e fo vs = some ws ∧ w = (if ws.isEmpty then .nil else .list ws) := by
    unfold encList at he
    rw [hinfo, Res.bind_ok] at he
    split at he
    · simp only [normList, Option.some.injEq] at hw
      exact ⟨[], [], [], he, by simp, by split <;> rfl, rfl, hw.symm⟩
    · rename_i _ vs
      obtain ⟨buf, hbuf, he⟩ := Res.bind_eq_ok he
      simp only [normList, Option.map_eq_some_iff] at hw
      obtain ⟨ws, hws, hw⟩ := hw
      refine ⟨vs, buf, ws, he, ht vs rfl, hbuf, hws, ?_⟩
      rw [← hw]
      cases ws <;> rfl
    · simp at he
  obtain ⟨vs, buf, ws, hf, hts, hbuf, hws, rfl⟩ := key
  unfold decSlice infoThen
  rw [hinfo]
  simp only
  obtain ⟨n, hn1, hpl, hun⟩ := unframe_framed (rest := rest)
    (k := fun bz n => (if Γ.typ3 e.deref fo ≠ typ3ByteLength then decPackedSlice Γ rd e fo bz.length bz n
      else decUnpackedSlice Γ rd e fo bz.length bz n).map fun vs => if vs.isEmpty then Val.nil else .list vs) hf hl
  rw [hun]
  by_cases h3 : Γ.typ3 e.deref fo ≠ typ3ByteLength
  · have hlk : lenKind Γ e.deref = false := by
      rw [lenKind_eq, Bool.eq_false_iff]; intro hh; exact h3 (isLen_iff.mp hh)
    rw [if_pos h3] at hbuf
    rw [hlk, if_neg (by simp)] at hS
    have hin : (if bare = true then buf ++ rest else buf) = buf := by
      cases bare with
      | false => rfl
      | true =>
        have : rest = [] := by
          by_cases hre : rest = []
          · exact hre
          · have := (hr rfl).2 hre; rw [hlk] at this; cases this
        simp [this]
    rw [hin, if_pos h3, decPackedSlice_rt h hp hlead hz hn hS hlk hts hbuf hpl (Nat.le_refl _) hws]
    simp [hn1]
  · have h3' : Γ.typ3 e.deref fo = typ3ByteLength := by simpa using h3
    have hlk : lenKind Γ e.deref = true := by rw [lenKind_eq]; exact isLen_iff.mpr h3'
    rw [if_neg h3] at hbuf
    rw [hlk, if_pos rfl] at hS
    rw [if_neg h3]
    have hin : ∃ r, (if bare = true then buf ++ rest else buf) = buf ++ r ∧ Starts fo.fnum r := by
      cases bare with
      | false => exact ⟨[], by simp, .inl rfl⟩
      | true => exact ⟨rest, by simp, (hr rfl).1⟩
    obtain ⟨r, hr1, hr2⟩ := hin
    rw [hr1, decUnpackedSlice_rt h hp hlead hn hS hlk hts hbuf hpl (by simp) hr2 hws]
    simp [hn1]

/-- Arrays. -/
theorem decArray_rt (h : RecRT Γ S nm rec rd) (hp : RecPtr Γ rd) (hlead : RecLead Γ S bl rec)
    (hz : ∀ id, HasTy Γ (.base id) (Γ.zero id)) (hU : Universe Γ c S) {e : Ty} {fo : FOpts} {vs : List Val} {m : Nat}
    {w : Val} {bare : Bool} {b rest : Bytes} (hS : ElemOk Γ S e fo) (ht : ∀ u ∈ vs, HasTy Γ e u)
    (he : encList Γ c rec e (.list vs) fo bare = .ok b) (hl : b.length < 2 ^ 63)
    (hr : bare = true → Starts fo.fnum rest ∧ (rest ≠ [] → lenKind Γ e.deref = true))
    (hw : normList Γ bl nm (.array m e) fo (.list vs) = some w) :
    decArray Γ c rd e (.list (List.replicate vs.length (Γ.zeroTy e))) fo bare (b ++ rest) = .ok b.length w := by
  obtain ⟨hn, hS⟩ := hS
  have hinfo := getInfo_ok hU hS
  unfold encList at he
  rw [hinfo, Res.bind_ok] at he
  simp only at he
  obtain ⟨buf, hbuf, hf⟩ := Res.bind_eq_ok he
  simp only [normList, Option.map_eq_some_iff] at hw
  obtain ⟨ws, hws, rfl⟩ := hw
  unfold decArray infoThen
  rw [hinfo]
  simp only
  obtain ⟨n, hn1, hpl, hun⟩ := unframe_framed (rest := rest)
    (k := fun bz n => (if Γ.typ3 e.deref fo ≠ typ3ByteLength then
        decPackedArr Γ rd e fo (List.replicate vs.length (Γ.zeroTy e)) bz n
      else decUnpackedArr Γ rd e fo (List.replicate vs.length (Γ.zeroTy e)) bz n).map Val.list) hf hl
  rw [hun]
  by_cases h3 : Γ.typ3 e.deref fo ≠ typ3ByteLength
  · have hlk : lenKind Γ e.deref = false := by
      rw [lenKind_eq, Bool.eq_false_iff]; intro hh; exact h3 (isLen_iff.mp hh)
    rw [if_pos h3] at hbuf
    rw [hlk, if_neg (by simp)] at hS
    have hin : (if bare = true then buf ++ rest else buf) = buf := by
      cases bare with
      | false => rfl
      | true =>
        have : rest = [] := by
          by_cases hre : rest = []
          · exact hre
          · have := (hr rfl).2 hre; rw [hlk] at this; cases this
        simp [this]
    rw [hin, if_pos h3, decPackedArr_rt h hp hz hn hS hlk ht hbuf hpl hws]
    simp [hn1]
  · have h3' : Γ.typ3 e.deref fo = typ3ByteLength := by simpa using h3
    have hlk : lenKind Γ e.deref = true := by rw [lenKind_eq]; exact isLen_iff.mpr h3'
    rw [if_neg h3] at hbuf
    rw [hlk, if_pos rfl] at hS
    rw [if_neg h3]
    have hin : ∃ r, (if bare = true then buf ++ rest else buf) = buf ++ r ∧ Starts fo.fnum r := by
      cases bare with
      | false => exact ⟨[], by simp, .inl rfl⟩
      | true => exact ⟨rest, by simp, (hr rfl).1⟩
    obtain ⟨r, hr1, hr2⟩ := hin
    rw [hr1, decUnpackedArr_rt h hp hlead hn hS hlk ht hbuf hpl hr2 hws]
    simp [hn1]

end

end Amino
