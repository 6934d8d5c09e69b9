import Verif.OutLemmas
import Verif.JsonEncode

/-!
# How long the JSON encoding of a value is
-/

namespace Amino.OutJ
open Spec
open Amino.OutB (vsize_pos' derefVal_size)

theorem utf8Len_le (b : Bytes) : utf8Len b ≤ 4 := by
  unfold utf8Len
  split
  · split
    · split <;> omega
    · split
      · omega
      · repeat' split
        all_goals omega
  · omega

theorem escByte_le (c : UInt8) : (escByte c).length ≤ 6 := by
  unfold escByte
  repeat' split
  all_goals simp

theorem quoteBody_le : ∀ (n : Nat) (b : Bytes), (quoteBody n b).length ≤ 6 * n
  | 0, _ => by simp [quoteBody]
  | n + 1, [] => by simp [quoteBody]
  | n + 1, c :: r => by
    unfold quoteBody
    split
    · have := escByte_le c
      have := quoteBody_le n r
      simp only [List.length_append]; omega
    · split
      · have := quoteBody_le n r
        simp only [List.length_append, List.length_cons, List.length_nil]; omega
      · have h1 := quoteBody_le n ((c :: r).drop (utf8Len (c :: r)))
        have h2 := utf8Len_le (c :: r)
        rw [List.length_append]
        have h3 : (if (c :: r).take 3 = [0xe2, 0x80, 0xa8] then ([0x5c, 0x75, 0x32, 0x30, 0x32, 0x38] : Bytes)
          else if (c :: r).take 3 = [0xe2, 0x80, 0xa9] then [0x5c, 0x75, 0x32, 0x30, 0x32, 0x39]
          else (c :: r).take (utf8Len (c :: r))).length ≤ 6 := by
          split
          · simp
          · split
            · simp
            · rw [List.length_take]; omega
        omega

theorem quoteStr_le (s : Bytes) : (quoteStr s).length ≤ 6 * s.length + 2 := by
  have := quoteBody_le s.length s
  simp only [quoteStr, List.length_cons, List.length_append, List.length_nil]; omega

theorem b64_le : ∀ b : Bytes, (b64Enc b).length ≤ 4 * b.length
  | [] => by simp [b64Enc]
  | [a] => by simp [b64Enc]
  | [a, b] => by simp [b64Enc]
  | a :: b :: c :: r => by
    have := b64_le r
    simp only [b64Enc, List.length_cons]; omega

theorem digits_le : ∀ k n, (digits k n).length ≤ k + 1
  | 0, n => by simp [digits]
  | k + 1, n => by
    unfold digits
    split
    · simp
    · have := digits_le k (n / 10)
      simp only [List.length_append, List.length_cons, List.length_nil]; omega

theorem natText_le {n : Nat} (h : n < 2 ^ 64) : (natText n).length ≤ 65 := by
  have h1 := digits_le (n.log2 + 1) n
  have h2 : n.log2 < 64 := by
    by_cases h0 : n = 0
    · subst h0; decide
    · exact (Nat.log2_lt h0).2 h
  unfold natText; omega

theorem intText_le {k : IntKind} {i : Int} (h : k.inRange i) : (intText i).length ≤ 66 := by
  have h1 : i.natAbs < 2 ^ 64 := by
    cases k <;> simp [IntKind.inRange, IntKind.bits, IntKind.signed] at h <;> omega
  have h2 := natText_le h1
  unfold intText
  split
  · simp only [List.length_cons]; omega
  · omega

section
variable {Γ : Prog} {c : Codec} {J : JLib} {B A : Nat}

/-- Lengths with room for the name of a member. -/
def Fits (B A : Nat) (v : Val) (b : Bytes) : Prop := b.length + (6 * B + 10) ≤ A * vsize v

theorem Fits.mono {v w : Val} {b : Bytes} (h : Fits B A v b) (hs : vsize v ≤ vsize w) : Fits B A w b :=
  Nat.le_trans h (Nat.mul_le_mul_left _ hs)

theorem fits_small {v : Val} {b : Bytes} (hA : 12 * B + 100 ≤ A) (h : b.length ≤ 6 * B + 90) : Fits B A v b := by
  have h1 := vsize_pos' v
  have : A * 1 ≤ A * vsize v := Nat.mul_le_mul_left _ h1
  unfold Fits; omega

def RecFits (Γ : Prog) (B A : Nat) (rec : Bool → Ty → Val → FOpts → Res Bytes) : Prop :=
  ∀ addr t v fo b, HasTy Γ t v → rec addr t v fo = .ok b → Fits B A v b

/-- The texts with their commas. -/
def total : List Bytes → Nat
  | [] => 0
  | b :: bs => b.length + 1 + total bs

theorem joinComma_le : ∀ bs : List Bytes, (joinComma bs).length ≤ total bs
  | [] => by simp [joinComma]
  | [b] => by simp only [joinComma, total]; omega
  | b :: b' :: bs => by
    have := joinComma_le (b' :: bs)
    simp only [joinComma, List.length_append, List.length_cons]
    rw [total]; omega

variable {rec : Bool → Ty → Val → FOpts → Res Bytes}

theorem elems_len (hr : RecFits Γ B A rec) {addr : Bool} {e : Ty} {fo : FOpts} : ∀ {vs : List Val} {bs : List Bytes},
    (∀ v ∈ vs, HasTy Γ e v) → jencElems rec addr e fo vs = .ok bs → total bs ≤ A * vsizes vs
  | [], bs, _, h => by cases h; simp [total]
  | v :: vs, bs, ht, h => by
    obtain ⟨x, hx, h⟩ := Res.bind_eq_ok h
    obtain ⟨y, hy, h⟩ := Res.bind_eq_ok h
    cases h
    have h1 := hr _ _ _ _ _ (ht v (by simp)) hx
    have h2 := elems_len hr (fun w hw => ht w (by simp [hw])) hy
    unfold Fits at h1
    simp only [total, vsizes, Nat.mul_add]; omega

theorem fields_len (hr : RecFits Γ B A rec) {addr : Bool} : ∀ {fs : List Field} {vs : List Val} {bs : List Bytes},
    (∀ f ∈ fs, f.opts.jsonName.length ≤ B) → (∀ p ∈ fs.zip vs, HasTy Γ p.1.ty p.2) →
    jencFields Γ c rec addr fs vs = .ok bs → total bs ≤ A * vsizes vs
  | [], [], bs, _, _, h => by cases h; simp [total]
  | f :: fs, v :: vs, bs, hn, ht, h => by
    have hn' : ∀ f ∈ fs, f.opts.jsonName.length ≤ B := fun g hg => hn g (by simp [hg])
    have ht' : ∀ p ∈ fs.zip vs, HasTy Γ p.1.ty p.2 := fun p hp => ht p (by simp [hp])
    simp only [jencFields] at h
    split at h
    · obtain ⟨_, _, h⟩ := Res.bind_eq_ok h
      split at h
      · have := fields_len hr hn' ht' h
        simp only [vsizes, Nat.mul_add]; omega
      · obtain ⟨x, hx, h⟩ := Res.bind_eq_ok h
        obtain ⟨y, hy, h⟩ := Res.bind_eq_ok h
        cases h
        have h1 : Fits B A v x := hr _ _ _ _ _ (ht (f, v) (by simp)) hx
        have h2 := fields_len hr hn' ht' hy
        have h3 := quoteStr_le f.opts.jsonName
        have h4 := hn f (by simp)
        unfold Fits at h1
        simp only [total, vsizes, Nat.mul_add, List.length_append, List.length_cons]; omega
    · have := fields_len hr hn' ht' h
      simp only [vsizes, Nat.mul_add]; omega
  | [], _ :: _, _, _, _, h => by cases h
  | _ :: _, [], _, _, _, h => by cases h

theorem entries_len (hA : 12 * B + 100 ≤ A) (hr : RecFits Γ B A rec) {e : Ty} {fo : FOpts} :
    ∀ {kvs : List (Bytes × Val)} {bs : List Bytes},
    (∀ kv ∈ kvs, HasTy Γ e kv.2) → jencEntries Γ c rec e fo kvs = .ok bs → total bs ≤ A * vsizeKvs kvs
  | [], bs, _, h => by cases h; simp [total]
  | (k, v) :: kvs, bs, ht, h => by
    obtain ⟨x, hx, h⟩ := Res.bind_eq_ok h
    obtain ⟨y, hy, h⟩ := Res.bind_eq_ok h
    cases h
    have hx' : rec false e v fo = .ok x := by
      unfold jencEntry at hx
      split at hx
      · exact hx
      · obtain ⟨_, _, hx⟩ := Res.bind_eq_ok hx; exact hx
    have h1 : Fits B A v x := hr _ _ _ _ _ (ht (k, v) (by simp)) hx'
    have h2 := entries_len hA hr (fun w hw => ht w (by simp [hw])) hy
    have h3 := quoteStr_le k
    have h4 : 6 * k.length ≤ A * k.length := Nat.mul_le_mul_right _ (by omega)
    unfold Fits at h1
    simp only [total, vsizeKvs, Nat.mul_add, List.length_append, List.length_cons]; omega

theorem wrap_len {name b : Bytes} : (wrapText name b).length = 20 + name.length + b.length := by
  simp [wrapText, wrapOpen, wrapMid]; omega

theorem shape_json (hs : TextSmall Γ c J B) (hA : 12 * B + 100 ≤ A) (hr : RecFits Γ B A rec) {addr : Bool} {id : TId} {v : Val}
    {fo : FOpts} {b : Bytes} (ht : HasTy Γ (.base id) v) (h : jencShape Γ c J rec addr id v fo = .ok b) : Fits B A v b := by
  have opt : ∀ {o : Option Bytes} {x : Bytes}, ofOpt .json o = .ok x → o = some x := by
    intro o x h; cases o <;> cases h; rfl
  unfold jencShape at h
  split at h
  · cases h; exact fits_small hA (by simp [jNull])
  · rename_i t cv hsh
    cases ht with
    | iface hsh' himp htv =>
      unfold jencIface at h
      split at h
      · cases h
      · split at h
        · cases h
        · rename_i dv hd
          obtain ⟨_, _, h⟩ := Res.bind_eq_ok h
          split at h
          · cases h
          · rename_i ci hci
            obtain ⟨x, hx, h⟩ := Res.bind_eq_ok h
            cases h
            have h1 := (hr _ _ _ _ _ (hasTy_derefVal htv hd) hx).mono (derefVal_size hd)
            have h2 := hs.name hci
            unfold Fits at h1 ⊢
            rw [wrap_len]
            simp only [vsize, Nat.mul_add]; omega
  · cases h; exact fits_small hA (by simp [jNull])
  · rename_i e x hsh
    unfold jencBytes at h
    split at h
    · cases h
    · cases h
      have h1 := b64_le x
      have h2 : 4 * x.length ≤ A * x.length := Nat.mul_le_mul_right _ (by omega)
      unfold Fits
      simp only [vsize, Nat.mul_add, List.length_cons, List.length_append, List.length_nil]; omega
  · rename_i e x hsh
    unfold jencBytes at h
    split at h
    · cases h
    · cases h
      have h1 := b64_le x
      have h2 : 4 * x.length ≤ A * x.length := Nat.mul_le_mul_right _ (by omega)
      unfold Fits
      simp only [vsize, Nat.mul_add, List.length_cons, List.length_append, List.length_nil]; omega
  · rename_i e vs hsh
    have hts : ∀ v ∈ vs, HasTy Γ e v := by cases ht <;> simp_all
    obtain ⟨_, _, h⟩ := Res.bind_eq_ok h
    obtain ⟨bs, hb, h⟩ := Res.bind_eq_ok h
    cases h
    have h1 := elems_len hr hts hb
    have h2 := joinComma_le bs
    unfold Fits
    simp only [vsize, Nat.mul_add, List.length_cons, List.length_append, List.length_nil]; omega
  · rename_i n e vs hsh
    have hts : ∀ v ∈ vs, HasTy Γ e v := by cases ht <;> simp_all
    obtain ⟨_, _, h⟩ := Res.bind_eq_ok h
    obtain ⟨bs, hb, h⟩ := Res.bind_eq_ok h
    cases h
    have h1 := elems_len hr hts hb
    have h2 := joinComma_le bs
    unfold Fits
    simp only [vsize, Nat.mul_add, List.length_cons, List.length_append, List.length_nil]; omega
  · rename_i fs vs hsh
    have hts : ∀ p ∈ fs.zip vs, HasTy Γ p.1.ty p.2 := by
      cases ht with
      | struct hsh' _ hp => rw [hsh] at hsh'; cases hsh'; exact hp
    obtain ⟨bs, hb, h⟩ := Res.bind_eq_ok h
    cases h
    have h1 := fields_len hr (hs.field hsh) hts hb
    have h2 := joinComma_le bs
    unfold Fits
    simp only [vsize, Nat.mul_add, List.length_cons, List.length_append, List.length_nil]; omega
  · cases h; exact fits_small hA (by simp)
  · rename_i e kvs hsh
    have hts : ∀ kv ∈ kvs, HasTy Γ e kv.2 := by
      cases ht with
      | map hsh' hp => rw [hsh] at hsh'; cases hsh'; exact hp
    obtain ⟨bs, hb, h⟩ := Res.bind_eq_ok h
    cases h
    have h1 := entries_len hA hr hts hb
    have h2 := joinComma_le bs
    unfold Fits
    simp only [vsize, Nat.mul_add, List.length_cons, List.length_append, List.length_nil]; omega
  · rename_i k i hsh
    have hi : (intText i).length ≤ 66 := by
      cases ht with
      | int _ hi => exact intText_le hi
    split at h
    · cases h
      exact fits_small hA (by simp only [List.length_cons, List.length_append, List.length_nil]; omega)
    · cases h; exact fits_small hA (by omega)
  · split at h
    · cases h
    · exact fits_small hA (Nat.le_trans (hs.f32 (opt h)) (by omega))
  · split at h
    · cases h
    · exact fits_small hA (Nat.le_trans (hs.f64 (opt h)) (by omega))
  · rename_i x hsh
    cases h
    refine fits_small hA ?_
    cases x <;> simp [jTrue, jFalse]
  · rename_i s hsh
    cases h
    have h1 := quoteStr_le s
    have h2 : 6 * s.length ≤ A * s.length := Nat.mul_le_mul_right _ (by omega)
    unfold Fits
    simp only [vsize, Nat.mul_add]; omega
  · exact fits_small hA (Nat.le_trans (hs.time (opt h)) (by omega))
  · cases h

/-- A string or bytes without methods. -/
theorem flat_json {addr : Bool} {id : TId} {v : Val} {fo : FOpts} {b : Bytes} (hv : (∃ s, v = .str s) ∨ ∃ x, v = .bytes x)
    (h : jencShape Γ c J rec addr id v fo = .ok b) : b.length ≤ 6 * vsize v := by
  rcases hv with ⟨s, rfl⟩ | ⟨x, rfl⟩
  · unfold jencShape at h
    split at h <;> (try (rename_i hx; cases hx)) <;> try (cases h; done)
    have := quoteStr_le s
    cases h
    simp only [vsize]; omega
  · have key : ∀ e, jencBytes Γ addr e x = .ok b → b.length ≤ 6 * vsize (.bytes x) := by
      intro e h
      unfold jencBytes at h
      split at h
      · cases h
      · cases h
        have := b64_le x
        simp only [vsize, List.length_cons, List.length_append, List.length_nil]; omega
    unfold jencShape at h
    split at h <;> (try (rename_i hx; cases hx)) <;> first | (cases h; done) | exact key _ h

theorem jenc_fits (hT : Γ.Typed) (hm : ReprSmall Γ B) (hs : TextSmall Γ c J B) :
    ∀ fuel, RecFits Γ B (B * B + 12 * B + 100) (jenc Γ c J fuel)
  | 0 => by intro addr t v fo b ht h; cases h
  | fuel + 1 => by
    intro addr t v fo b ht h
    have ih := jenc_fits hT hm hs fuel
    simp only [jenc] at h
    split at h
    · cases h; exact fits_small (by omega) (by simp [jNull])
    · rename_i dv hd
      have hdt := hasTy_derefVal ht hd
      refine Fits.mono (v := dv) ?_ (derefVal_size hd)
      have user : ∀ {id a m w b}, J.marsh id a = some m → m w = .ok b → vsize w ≤ B * vsize dv ∨ vsize w ≤ vsize dv →
          Fits B (B * B + 12 * B + 100) dv b := by
        intro id a m w b h1 h2 h3
        have h4 := hs.user h1 h2
        have h5 := vsize_pos' dv
        unfold Fits
        rw [Nat.add_mul, Nat.add_mul, Nat.mul_assoc, Nat.mul_assoc]
        have h7 : B * 1 ≤ B * vsize dv := Nat.mul_le_mul_left _ h5
        rcases h3 with h3 | h3
        · have h6 : B * vsize w ≤ B * (B * vsize dv) := Nat.mul_le_mul_left _ h3
          omega
        · have h6 : B * vsize w ≤ B * vsize dv := Nat.mul_le_mul_left _ h3
          omega
      unfold jencBase at h
      split at h
      · exact shape_json hs (by omega) ih hdt h
      · split at h
        · rename_i m hj
          exact user hj h (.inr (Nat.le_refl _))
        · split at h
          · rename_i rid m hmi
            obtain ⟨r, hr, h⟩ := Res.bind_eq_ok h
            obtain ⟨_, _, h⟩ := Res.bind_eq_ok h
            rcases hm.marsh hmi hr with h1 | ⟨h1, h2, h3⟩
            · exact (ih _ _ _ _ _ (hT.marsh hmi hdt hr) h).mono h1
            · cases fuel with
              | zero => cases h
              | succ f =>
                have flat : ∀ {a : Bool} {b : Bytes}, jencShape Γ c J (jenc Γ c J f) a rid r fo = .ok b →
                    Fits B (B * B + 12 * B + 100) dv b := by
                  intro a b h
                  have h4 := flat_json h2 h
                  have h5 := vsize_pos' dv
                  have h7 : B * 1 ≤ B * vsize dv := Nat.mul_le_mul_left _ h5
                  unfold Fits
                  rw [Nat.add_mul, Nat.add_mul, Nat.mul_assoc, Nat.mul_assoc]
                  omega
                simp only [jenc, derefVal, Ty.deref, jencBase, h1] at h
                split at h
                · exact flat h
                · split at h
                  · rename_i hj
                    exact user hj h (.inl h3)
                  · exact flat h
          · exact shape_json hs (by omega) ih hdt h

theorem marshalJSON_len (hT : Γ.Typed) (hm : ReprSmall Γ B) (hs : TextSmall Γ c J B) {fuel : Nat} {t : Ty} {v : Val} {b : Bytes}
    (ht : HasTy Γ t v) (h : marshalJSON Γ c J fuel (some (t, v)) = .ok b) : b.length ≤ (B * B + 12 * B + 100) * vsize v + 20 := by
  obtain ⟨_, _, h⟩ := Res.bind_eq_ok h
  obtain ⟨x, hx, h⟩ := Res.bind_eq_ok h
  have h1 := jenc_fits hT hm hs fuel _ _ _ _ _ ht hx
  unfold Fits at h1
  split at h
  · rename_i ci hci
    cases h
    have := hs.name hci
    rw [wrap_len]; omega
  · cases h; omega

end

end Amino.OutJ
