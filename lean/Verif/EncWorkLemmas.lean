import Verif.EncWork
import Verif.SpecEncWork
import Verif.OutLemmas

/-!
# Bounds on the work of Marshal
-/

namespace Amino.OutB
open Spec

theorem afterOk_le (r : Res Bytes) (n : Nat) : afterOk r n ≤ n := by
  unfold afterOk; split <;> omega

theorem wrote_le {r : Res Bytes} {n : Nat} (h : ∀ b, r = .ok b → b.length ≤ n) : wrote r ≤ n := by
  unfold wrote
  split
  · exact h _ rfl
  · omega

theorem wrote_key (n t : Nat) : wrote (encodeKey n t) ≤ 10 := wrote_le fun _ => key_len

/-- The sum over some values. -/
def sumOf (G : Val → Nat) : List Val → Nat
  | [] => 0
  | v :: vs => G v + sumOf G vs

/-- Bounds `G` that leave room for the components, a step and a key for each of them (`R + 11`), and a copy of the
encoding (at most `A` bytes per unit of size). -/
structure Room (A K R : Nat) (G : Val → Nat) : Prop where
  big : A + R + 60 ≤ K
  lin : ∀ v, K * vsize v ≤ G v
  deref : ∀ {t v dv}, derefVal t v = some dv → G dv ≤ G v
  leaf : ∀ {v} w, vsize v = 1 → G v ≤ G w
  list : ∀ vs, sumOf G vs + (R + 11) * vsizes vs + A * (1 + vsizes vs) ≤ G (.list vs)
  struct : ∀ vs, sumOf G vs + (R + 11) * vsizes vs + A * (1 + vsizes vs) ≤ G (.struct vs)
  iface : ∀ t v, G v + (R + 11) * vsize v + A * (1 + vsize v) ≤ G (.iface t v)

/-- `K` times the square. -/
def ksq (K n : Nat) : Nat := K * (n * n)

theorem ksq_mono (K : Nat) {a b : Nat} (h : a ≤ b) : ksq K a ≤ ksq K b :=
  Nat.mul_le_mul_left _ (Nat.mul_le_mul h h)

theorem ksq_add (K a b : Nat) : ksq K a + ksq K b ≤ ksq K (a + b) := by
  unfold ksq
  rw [← Nat.mul_add]
  refine Nat.mul_le_mul_left _ ?_
  rw [Nat.add_mul, Nat.mul_add, Nat.mul_add]
  omega

theorem ksq_one (K n : Nat) : ksq K (1 + n) = K + 2 * (K * n) + ksq K n := by
  unfold ksq
  simp only [Nat.add_mul, Nat.mul_add, Nat.one_mul, Nat.mul_one]
  omega

theorem ksq_lin (K : Nat) {n : Nat} (h : 1 ≤ n) : K * n ≤ ksq K n :=
  Nat.mul_le_mul_left _ (Nat.le_mul_of_pos_left n h)

section
variable {Γ : Prog} {c : Codec} {A K R : Nat} {G : Val → Nat} {rec : TId → Val → FOpts → Bool → Res Bytes}
  {wrk : TId → Val → FOpts → Bool → Nat}

/-- A bound on the recursive calls. -/
def RecCost (G : Val → Nat) (R : Nat) (wrk : TId → Val → FOpts → Bool → Nat) : Prop :=
  ∀ id v fo bare, wrk id v fo bare ≤ G v + R

theorem packed_cost (hG : Room A K R G) (hz : ∀ id, HasTy Γ (.base id) (Γ.zero id)) (hw : RecCost G R wrk) {e : Ty} {fo : FOpts}
    (ht : Γ.typ3 e.deref fo ≠ typ3ByteLength) : ∀ vs : List Val,
    encWorkPacked Γ rec wrk e fo vs ≤ sumOf G vs + (R + 11) * vsizes vs
  | [] => by simp [encWorkPacked]
  | v :: vs => by
    have h1 := hw e.deref (Γ.derefZero e v) fo false
    have h2 := packed_cost hG hz hw ht vs
    have h3 : G (Γ.derefZero e v) ≤ G v := by
      unfold Prog.derefZero
      split
      · rename_i hd; exact hG.deref hd
      · exact hG.leaf v (zero_size hz ht)
    have h6 : (R + 11) * 1 ≤ (R + 11) * vsize v := Nat.mul_le_mul_left _ (vsize_pos' v)
    have h7 := afterOk_le (rec e.deref (Γ.derefZero e v) fo false) (encWorkPacked Γ rec wrk e fo vs)
    simp only [encWorkPacked, sumOf, vsizes, Nat.mul_add]
    omega

theorem elem_cost (hG : Room A K R G) (hw : RecCost G R wrk) (e : Ty) (fo : FOpts) (v : Val) :
    encWorkElem Γ rec wrk e fo v ≤ G v + R := by
  have h0 := hG.lin v
  have hb := hG.big
  have h1 : K * 1 ≤ K * vsize v := Nat.mul_le_mul_left _ (vsize_pos' v)
  unfold encWorkElem
  split
  · rename_i hd
    have : wrote (encElem Γ rec e fo v) ≤ 10 := wrote_le fun b h => by
      unfold encElem at h
      rw [hd] at h
      simp only at h
      split at h
      · cases h
      · exact uvarint_len h
    omega
  · rename_i dv hd
    split
    · rename_i hdef
      have : wrote (encElem Γ rec e fo v) ≤ 10 := wrote_le fun b h => by
        unfold encElem at h
        rw [hd] at h
        simp only [hdef, if_true] at h
        split at h
        · cases h
        · exact uvarint_len h
      omega
    · have h2 := hw e.deref dv { fo with fnum := 1 } false
      have h3 := hG.deref hd
      omega

theorem unpacked_cost (hG : Room A K R G) (hw : RecCost G R wrk) (e : Ty) (fo : FOpts) : ∀ vs : List Val,
    encWorkUnpacked Γ rec wrk e fo vs ≤ sumOf G vs + (R + 11) * vsizes vs
  | [] => by simp [encWorkUnpacked]
  | v :: vs => by
    have h1 := elem_cost (Γ := Γ) (rec := rec) hG hw e fo v
    have h2 := unpacked_cost hG hw e fo vs
    have h3 := wrote_key fo.fnum typ3ByteLength
    have h6 : (R + 11) * 1 ≤ (R + 11) * vsize v := Nat.mul_le_mul_left _ (vsize_pos' v)
    have h7 := afterOk_le (encElem Γ rec e fo v) (encWorkUnpacked Γ rec wrk e fo vs)
    have h8 := afterOk_le (encodeKey fo.fnum typ3ByteLength)
      (encWorkElem Γ rec wrk e fo v + afterOk (encElem Γ rec e fo v) (encWorkUnpacked Γ rec wrk e fo vs))
    simp only [encWorkUnpacked, sumOf, vsizes, Nat.mul_add]
    omega

theorem list_cost (hz : ∀ id, HasTy Γ (.base id) (Γ.zero id)) (hA : 60 ≤ A) (hG : Room A K R G) (hr : RecFits A rec)
    (hw : RecCost G R wrk) (e : Ty) (v : Val) (fo : FOpts) (bare : Bool) :
    encWorkList Γ c rec wrk e v fo bare + 10 ≤ G v := by
  have h0 : wrote (encList Γ c rec e v fo bare) ≤ A * vsize v - 10 := wrote_le fun b h => by
    have := list_len hz hA hr h
    unfold Fits at this; omega
  have hv := vsize_pos' v
  have h1 := hG.lin v
  have hb := hG.big
  have h2 : A * vsize v ≤ K * vsize v := Nat.mul_le_mul_right _ (by omega)
  have h3 : A * 1 ≤ A * vsize v := Nat.mul_le_mul_left _ hv
  unfold encWorkList
  split
  · split
    · rename_i vs
      have h4 := hG.list vs
      have h5 : (if Γ.typ3 e.deref fo ≠ typ3ByteLength then encWorkPacked Γ rec wrk e fo vs
          else encWorkUnpacked Γ rec wrk e fo vs) ≤ sumOf G vs + (R + 11) * vsizes vs := by
        split
        · rename_i ht; exact packed_cost hG hz hw ht vs
        · exact unpacked_cost hG hw e fo vs
      simp only [vsize] at h0 h3 ⊢
      omega
    · omega
  · omega

theorem field_cost (hz : ∀ id, HasTy Γ (.base id) (Γ.zero id)) (hA : 60 ≤ A) (hG : Room A K R G) (hr : RecFits A rec)
    (hw : RecCost G R wrk) (f : Field) (n : Nat) (v : Val) :
    encWorkField Γ c rec wrk f n v ≤ G v + R + 10 := by
  unfold encWorkField
  split
  · split
    · omega
    · rename_i dv hd
      have hs := hG.deref hd
      split
      · omega
      · split
        · split
          · rename_i e _
            have := list_cost (c := c) hz hA hG hr hw e dv { f.opts with fnum := n } true
            omega
          · omega
        · have h1 := wrote_key n (Γ.typ3 f.ty.deref { f.opts with fnum := n })
          have h2 := hw f.ty.deref dv { f.opts with fnum := n } false
          have h3 := afterOk_le (encodeKey n (Γ.typ3 f.ty.deref { f.opts with fnum := n }))
            (wrk f.ty.deref dv { f.opts with fnum := n } false)
          unfold encWorkWrite
          omega
  · omega

theorem fields_cost (hz : ∀ id, HasTy Γ (.base id) (Γ.zero id)) (hA : 60 ≤ A) (hG : Room A K R G) (hr : RecFits A rec)
    (hw : RecCost G R wrk) : ∀ (n : Nat) (fs : List Field) (vs : List Val),
    encWorkFields Γ c rec wrk n fs vs ≤ sumOf G vs + (R + 11) * vsizes vs
  | n, f :: fs, v :: vs => by
    have h6 : (R + 11) * 1 ≤ (R + 11) * vsize v := Nat.mul_le_mul_left _ (vsize_pos' v)
    simp only [encWorkFields, sumOf, vsizes, Nat.mul_add]
    split
    · have := fields_cost hz hA hG hr hw n fs vs
      omega
    · have h1 := field_cost (c := c) hz hA hG hr hw f (n + 1) v
      have h2 := fields_cost hz hA hG hr hw (n + 1) fs vs
      have h3 := afterOk_le (encField Γ c rec f (n + 1) v) (encWorkFields Γ c rec wrk (n + 1) fs vs)
      omega
  | _, [], _ => by simp [encWorkFields]
  | _, _ :: _, [] => by simp [encWorkFields]

theorem iface_cost (hc : PrefixBytes c) (hA : 60 ≤ A) (hG : Room A K R G) (hr : RecFits A rec)
    (hw : RecCost G R wrk) (id : TId) (v : Val) (fo : FOpts) (bare : Bool) :
    encWorkIface Γ c rec wrk id v fo bare + 10 ≤ G v := by
  have h0 : wrote (encIface Γ c rec id v fo bare) ≤ A * vsize v - 10 := wrote_le fun b h => by
    have := iface_len hc hA hr h
    unfold Fits at this; omega
  have hv := vsize_pos' v
  have h1 := hG.lin v
  have hb := hG.big
  have h2 : A * vsize v ≤ K * vsize v := Nat.mul_le_mul_right _ (by omega)
  have h3 : A * 1 ≤ A * vsize v := Nat.mul_le_mul_left _ hv
  unfold encWorkIface
  split
  · rename_i t cv
    split
    · omega
    · rename_i crv hd
      split
      · omega
      · split
        · split
          · omega
          · rename_i ci hci
            split
            · omega
            · rename_i ii _
              obtain ⟨p4, p3⟩ := hc _ _ hci
              have h4 := hw t.deref crv fo true
              have h5 := hG.deref hd
              have h6 := hG.iface t cv
              have h7 : (R + 11) * 1 ≤ (R + 11) * vsize cv := Nat.mul_le_mul_left _ (vsize_pos' cv)
              have h8 : (if ii.always || (ii.withPrefix ci.prefx).length > 1 then 1 + ci.disamb.length else 0) ≤ 4 := by
                split <;> omega
              simp only [vsize] at h0 h3 ⊢
              omega
        · omega
  · omega

theorem shape_cost (hz : ∀ id, HasTy Γ (.base id) (Γ.zero id)) (hc : PrefixBytes c) (hA : 60 ≤ A) (hG : Room A K R G)
    (hr : RecFits A rec) (hw : RecCost G R wrk) (fuel : Nat) (id : TId) (v : Val) (fo : FOpts) (bare : Bool) :
    encWorkShape Γ c rec wrk fuel id v fo bare + 10 ≤ G v := by
  have h0 : wrote (encShape Γ c rec fuel id v fo bare) ≤ A * vsize v - 10 := wrote_le fun b h => by
    have := shape_out hz hc hA hr h
    unfold Fits at this; omega
  have hv := vsize_pos' v
  have h1 := hG.lin v
  have hb := hG.big
  have h2 : (A + 60) * vsize v ≤ K * vsize v := Nat.mul_le_mul_right _ (by omega)
  rw [Nat.add_mul] at h2
  have h3 : A * 1 ≤ A * vsize v := Nat.mul_le_mul_left _ hv
  unfold encWorkShape
  split
  · exact iface_cost hc hA hG hr hw id v fo bare
  · split
    · omega
    · exact list_cost hz hA hG hr hw _ v fo bare
  · split
    · omega
    · exact list_cost hz hA hG hr hw _ v fo bare
  · split
    · rename_i fs _ _ vs
      have h4 := fields_cost (c := c) hz hA hG hr hw 0 fs vs
      have h5 := hG.struct vs
      simp only [vsize] at h0 h3 ⊢
      omega
    · omega
  · split
    · rename_i s ns
      have : wrote (encodeTime s ns) ≤ 40 := wrote_le fun _ => time_len
      omega
    · omega
  · omega

/-- A string or bytes without MarshalAmino. -/
theorem flat_cost {fuel : Nat} {id : TId} {v : Val} {fo : FOpts} {bare : Bool} (hv : (∃ s, v = .str s) ∨ ∃ x, v = .bytes x) :
    encWorkShape Γ c rec wrk fuel id v fo bare ≤ 10 + vsize v := by
  have h0 : wrote (encShape Γ c rec fuel id v fo bare) ≤ 10 + vsize v := wrote_le fun b h => flat_len hv h
  unfold encWorkShape
  split
  · rcases hv with ⟨s, rfl⟩ | ⟨x, rfl⟩ <;> simp [encWorkIface, encIface, wrote]
  · split
    · exact h0
    · unfold encWorkList
      split
      · rename_i hg
        rcases hv with ⟨s, rfl⟩ | ⟨x, rfl⟩ <;> simp [encList, wrote, hg, Res.bind]
      · omega
  · split
    · exact h0
    · unfold encWorkList
      split
      · rename_i hg
        rcases hv with ⟨s, rfl⟩ | ⟨x, rfl⟩ <;> simp [encList, wrote, hg, Res.bind]
      · omega
  · rcases hv with ⟨s, rfl⟩ | ⟨x, rfl⟩ <;> simpa using h0
  · rcases hv with ⟨s, rfl⟩ | ⟨x, rfl⟩ <;> simpa using h0
  · exact h0

theorem encWork_le {rank : TId → Nat} {B : Nat} (hz : ∀ id, HasTy Γ (.base id) (Γ.zero id)) (hm : ReprSmall Γ B)
    (hR : ReprRank Γ rank R) (hc : PrefixBytes c) (hG : Room (B + 60) K R G)
    (hr : ∀ {id rid m v r}, Γ.marsh id = some (rid, m) → m v = .ok r → G r ≤ G v ∨
      (Γ.marsh rid = none ∧ ((∃ s, r = .str s) ∨ ∃ b, r = .bytes b) ∧ vsize r ≤ B * vsize v)) : ∀ fuel id v fo bare,
    encWork Γ c fuel id v fo bare ≤ G v + rank id
  | 0, _, _, _, _ => by simp [encWork]
  | fuel + 1, id, v, fo, bare => by
    have ih := encWork_le hz hm hR hc hG hr fuel
    have hw : RecCost G R (encWork Γ c fuel) := fun id v fo bare =>
      Nat.le_trans (ih id v fo bare) (Nat.add_le_add_left (hR.bound id) _)
    have hv := vsize_pos' v
    have h1 : (B + 60) * vsize v ≤ G v := Nat.le_trans (Nat.mul_le_mul_right _ (by have := hG.big; omega)) (hG.lin v)
    rw [Nat.add_mul] at h1
    simp only [encWork, encWorkBody]
    split
    · rename_i rid m hmi
      have hrk := hR.marsh hmi
      split
      · rename_i r hmr
        split
        · rcases hr hmi hmr with h2 | ⟨h2, h3, h4⟩
          · have h5 := ih rid r fo bare
            omega
          · cases fuel with
            | zero => simp only [encWork]; omega
            | succ f =>
              have h5 := flat_cost (Γ := Γ) (c := c) (rec := enc Γ c f) (wrk := encWork Γ c f) (fuel := f) (id := rid)
                (fo := fo) (bare := bare) h3
              have h6 : encWork Γ c (f + 1) rid r fo bare =
                  1 + encWorkShape Γ c (enc Γ c f) (encWork Γ c f) f rid r fo bare := by
                simp only [encWork, encWorkBody, h2]
              omega
        · omega
      · omega
    · have := shape_cost hz hc (by omega) hG (enc_fits hz hm hc fuel) hw fuel id v fo bare
      omega

end

/-! ## Two such bounds -/

theorem sumOf_ksq (K : Nat) : ∀ vs, sumOf (fun v => ksq K (vsize v)) vs ≤ ksq K (vsizes vs)
  | [] => by simp [sumOf, ksq]
  | v :: vs => by
    have h1 := sumOf_ksq K vs
    have h2 := ksq_add K (vsize v) (vsizes vs)
    simp only [sumOf, vsizes]; omega

theorem room_sq {A R K : Nat} (hK : A + R + 60 ≤ K) : Room A K R (fun v => ksq K (vsize v)) := by
  have loop : ∀ n : Nat, ksq K n + (R + 11) * n + A * (1 + n) ≤ ksq K (1 + n) := by
    intro n
    rw [ksq_one]
    have h1 : (A + R + 60) * n ≤ K * n := Nat.mul_le_mul_right _ hK
    simp only [Nat.add_mul, Nat.mul_add] at h1 ⊢
    omega
  exact {
    big := hK
    lin := fun v => ksq_lin K (vsize_pos' v)
    deref := fun h => ksq_mono K (derefVal_size h)
    leaf := fun {v} w h => ksq_mono K (by rw [h]; exact vsize_pos' w)
    list := fun vs => by
      have h1 := sumOf_ksq K vs
      have h2 := loop (vsizes vs)
      simp only [vsize]; omega
    struct := fun vs => by
      have h1 := sumOf_ksq K vs
      have h2 := loop (vsizes vs)
      simp only [vsize]; omega
    iface := fun t v => by
      have h2 := loop (vsize v)
      simp only [vsize]; omega }

theorem vlevel_pos (v : Val) : 1 ≤ vlevel v := by
  cases v <;> simp only [vlevel] <;> omega

theorem derefVal_level : ∀ {t : Ty} {v dv : Val}, derefVal t v = some dv → vlevel dv ≤ vlevel v
  | .base _, v, dv, h => by cases h; exact Nat.le_refl _
  | .ptr t, .ptr v, dv, h => by
    have := derefVal_level (t := t) h
    simp only [vlevel]; omega

theorem sumOf_level (K : Nat) : ∀ vs, sumOf (fun v => K * (vsize v * vlevel v)) vs ≤ K * (vsizes vs * vlevels vs)
  | [] => by simp [sumOf]
  | v :: vs => by
    have h1 := sumOf_level K vs
    have h2 : vsize v * vlevel v ≤ vsize v * vlevels (v :: vs) := Nat.mul_le_mul_left _ (by simp only [vlevels]; omega)
    have h3 : vsizes vs * vlevels vs ≤ vsizes vs * vlevels (v :: vs) := Nat.mul_le_mul_left _ (by simp only [vlevels]; omega)
    have h4 := Nat.mul_le_mul_left K (Nat.add_le_add h2 h3)
    rw [← Nat.add_mul, Nat.mul_add] at h4
    have h5 := Nat.mul_le_mul_left K h3
    simp only [sumOf, vsizes]
    omega

theorem room_level {A R K : Nat} (hK : A + R + 60 ≤ K) : Room A K R (fun v => K * (vsize v * vlevel v)) := by
  have loop : ∀ n l : Nat, K * (n * l) + (R + 11) * n + A * (1 + n) ≤ K * ((1 + n) * (1 + l)) := by
    intro n l
    have h1 : (A + R + 60) * n ≤ K * n := Nat.mul_le_mul_right _ hK
    simp only [Nat.add_mul, Nat.mul_add, Nat.one_mul, Nat.mul_one] at h1 ⊢
    omega
  exact {
    big := hK
    lin := fun v => Nat.mul_le_mul_left _ (Nat.le_mul_of_pos_right _ (vlevel_pos v))
    deref := fun h => Nat.mul_le_mul_left _ (Nat.mul_le_mul (derefVal_size h) (derefVal_level h))
    leaf := fun {v} w h => by
      have h1 : vlevel v = 1 := by
        cases v with
        | ptr u => have := vsize_pos' u; simp only [vsize] at h; omega
        | iface t u => have := vsize_pos' u; simp only [vsize] at h; omega
        | list vs =>
          cases vs with
          | nil => rfl
          | cons u us => have := vsize_pos' u; simp only [vsize, vsizes] at h; omega
        | struct vs =>
          cases vs with
          | nil => rfl
          | cons u us => have := vsize_pos' u; simp only [vsize, vsizes] at h; omega
        | map kvs =>
          cases kvs with
          | nil => rfl
          | cons u us => have := vsize_pos' u.2; simp only [vsize, vsizeKvs] at h; omega
        | _ => rfl
      have h2 := Nat.mul_le_mul (vsize_pos' w) (vlevel_pos w)
      show K * (vsize v * vlevel v) ≤ K * (vsize w * vlevel w)
      rw [h, h1]
      exact Nat.mul_le_mul_left _ h2
    list := fun vs => by
      have h1 := sumOf_level K vs
      have h2 := loop (vsizes vs) (vlevels vs)
      simp only [vsize, vlevel]; omega
    struct := fun vs => by
      have h1 := sumOf_level K vs
      have h2 := loop (vsizes vs) (vlevels vs)
      simp only [vsize, vlevel]; omega
    iface := fun t v => by
      have h2 := loop (vsize v) (vlevel v)
      simp only [vsize, vlevel]; omega }

end Amino.OutB
