import Verif.MemSim2

/-!
# The decoder on memory follows the decoder on trees, if nothing is shared: methods, pointers, Unmarshal
-/

namespace Amino
open Spec

/-- UnmarshalAmino methods do on memory what they do on trees: given a receiver that is not shared, and a representation that
shares nothing with it, the receiver is not shared afterwards and made of its old memory, of that of the representation, and of
new memory. -/
def Spec.MethodsFollow (Γ : MProg) : Prop :=
  ∀ id rid um, Γ.unmarsh id = some (rid, um) → ∀ (h : Mem) (l : Loc) (v r : Val) (w : MVal) (own ro o2 r2 : List Nat),
    Unshared Γ.toProg h l (.base id) v own ro → RepV Γ.toProg h (.base rid) w r o2 r2 → o2.Nodup → (∀ a ∈ o2, a ∉ r2) →
    (∀ a ∈ o2 ++ r2, a ∉ own ∧ a ∉ ro ∧ a ≠ l.addr) →
    match (Γ.unmarshM id w l h).1, um v r with
    | .ok _, .ok v' => After Γ.toProg l (.base id) (own ++ o2) (ro ++ o2 ++ r2) h.length v' (Γ.unmarshM id w l h).2
    | .err e, .err e' => e = e'
    | .panic p, .panic p' => p = p'
    | .oof, .oof => True
    | _, _ => False

section
variable {Γ : MProg} {c : Codec} {rec : Ty → Loc → FOpts → Bool → Bytes → Mem → MRes Unit}
  {recT : Ty → Val → FOpts → Bool → Bytes → DRes Val}

/-- The tree decoder below the pointers. -/
def decBase (Γ : Prog) (c : Codec) (recT : Ty → Val → FOpts → Bool → Bytes → DRes Val) (id : TId) (fo : FOpts) (bare : Bool) (bz : Bytes)
    (rv : Val) : DRes Val :=
  match Γ.unmarsh id with
  | some (rid, um) =>
    infoThen Γ c rid 0 <|
    (recT (.base rid) (Γ.zero rid) fo bare bz).andSlide bz 0 fun r _ n =>
    match um rv r with
    | .ok v => .ok n v
    | .err e => .err n e
    | .panic p => .panic p
    | .oof => .oof
  | none => decShape Γ c recT id rv fo bare bz

variable (hsim : RecSim Γ.toProg rec recT) (hinv : ∀ R, RecInv R rec) (hz : ZeroPlain Γ.toProg) (hf : MethodsFollow Γ)

include hsim hinv hz hf in
theorem mBase_sim {id : TId} {l : Loc} {fo : FOpts} {bare : Bool} {bz : Bytes} {h : Mem} {v : Val} {own ro : List Nat}
    (hu : Unshared Γ.toProg h l (.base id) v own ro) :
    MSim (fun _ v' h' => After Γ.toProg l (.base id) own ro h.length v' h') (mBase Γ c rec id fo bare bz l h)
      (decBase Γ.toProg c recT id fo bare bz v) := by
  unfold mBase decBase
  cases hun : Γ.unmarsh id with
  | none => exact mShape_sim hsim hinv hz hu
  | some x =>
    obtain ⟨rid, um⟩ := x
    simp only
    refine MSim.infoThen ?_
    have hri := hinv (newRegion h) (.base rid) ⟨h.length, []⟩ fo bare bz _ ((newRegion_inv h).allocZero (Γ := Γ) (.base rid))
      (Nat.le_refl h.length)
    have hr := hsim (.base rid) ⟨h.length, []⟩ fo bare bz _ _ _ _ (unshared_new hz (.base rid) h)
    rw [show Γ.zeroTy (.base rid) = Γ.zero rid from rfl] at hr
    generalize rec (.base rid) ⟨h.length, []⟩ fo bare bz (h ++ [zeroM Γ (.base rid)]) = m at hr hri
    refine hr.andSlide fun j _ r _ hp bz n => ?_
    obtain ⟨w, o2, r2, hva, hrv, ho, hro, _, hno, hdo⟩ := after_new hp
    have hlen : h.length ≤ m.2.length := hri.len
    obtain ⟨⟨x, hg, hrx⟩, h1, h2, h3, h4⟩ := hu
    have hlt := get_lt hg
    have hltx := repV_lt hrx
    have hcell : ∀ a, a < h.length → m.2[a]? = h[a]? := fun a ha => hri.cell fun q hw => absurd ha (Nat.not_lt.mpr hw)
    have hu' : Unshared Γ.toProg m.2 l (.base id) v own ro :=
      ⟨⟨x, (new_get hri hlt).trans hg, repV_frame hrx (fun a ha => hcell a (hltx.1 a ha)) fun a ha => hcell a (hltx.2 a ha)⟩, h1, h2, h3, h4⟩
    have hfar : ∀ a ∈ o2 ++ r2, h.length ≤ a := by
      intro a ha
      rw [List.mem_append] at ha
      rcases ha with ha | ha
      · have := ho a ha; omega
      · have := hro a ha; omega
    have hcall := hf id rid um hun m.2 l v r w own ro o2 r2 hu' hrv hno hdo fun a ha =>
      ⟨fun hx => absurd (hltx.1 a hx) (Nat.not_lt.mpr (hfar a ha)), fun hx => absurd (hltx.2 a hx) (Nat.not_lt.mpr (hfar a ha)),
        fun he => absurd (hfar a ha) (by rw [he]; exact Nat.not_le.mpr hlt)⟩
    simp only [hva]
    generalize Γ.unmarshM id w l m.2 = q at hcall
    obtain ⟨q1, q2⟩ := q
    generalize um v r = z at hcall
    cases q1 <;> cases z <;> simp only at hcall
    · refine ⟨rfl, ?_⟩
      obtain ⟨w', o', r', g1, g2, g3, g4, g5, g6⟩ := hcall
      refine ⟨w', o', r', g1, g2, g3, g4, fun a ha => ?_, fun a ha => ?_⟩
      · rcases g5 a ha with hx | hx
        · rw [List.mem_append] at hx
          rcases hx with hx | hx
          · exact .inl hx
          · exact .inr (hfar a (List.mem_append_left _ hx))
        · exact .inr (by omega)
      · rcases g6 a ha with hx | hx
        · rw [List.mem_append, List.mem_append] at hx
          rcases hx with (hx | hx) | hx
          · exact .inl hx
          · exact .inr (hfar a (List.mem_append_left _ hx))
          · exact .inr (hfar a (List.mem_append_right _ hx))
        · exact .inr (by omega)
    · exact ⟨rfl, hcall⟩
    · exact hcall
    · exact trivial

include hz in
theorem chase_sim {id : TId} {k : Loc → Mem → MRes Unit} {kd : Val → DRes Val}
    (hk : ∀ l h v own ro, Unshared Γ.toProg h l (.base id) v own ro →
      MSim (fun _ v' h' => After Γ.toProg l (.base id) own ro h.length v' h') (k l h) (kd v))
    (hki : ∀ (R : Region) l h, R.Inv h → R.W l → R.Inv (k l h).2) (t : Ty) (ht : t.deref = id) :
    ∀ l h v own ro, Unshared Γ.toProg h l t v own ro →
      MSim (fun _ v' h' => After Γ.toProg l t own ro h.length v' h') (chase Γ t l h k) ((kd (Γ.derefPrior t v)).map (wrapTy t)) := by
  induction t with
  | base id' =>
    intro l h v own ro hu
    cases ht
    have := hk l h v own ro hu
    exact this.map fun _ _ _ _ hp => hp
  | ptr t ih =>
    intro l h v own ro hu
    obtain ⟨⟨w, hg, hr⟩, hn, hd, hlo, hlr⟩ := hu
    have hlt := get_lt hg
    rw [chase, hg]
    cases hr with
    | ptr hc hr =>
      rename_i a w v own
      rw [List.nodup_cons] at hn
      rw [List.mem_cons, not_or] at hlo
      have hu1 : Unshared Γ.toProg h ⟨a, []⟩ t v own ro :=
        ⟨⟨w, by rw [get_cell]; exact hc, hr⟩, hn.2, fun b hb => hd b (List.mem_cons_of_mem _ hb), hn.1, hd a (List.mem_cons_self ..)⟩
      have hin := inv_chase (Γ := Γ) (hki (partRegion h (· = ⟨a, []⟩) own)) t (unshared_inv hu1) (.inl ⟨_, rfl, rfl, List.prefix_refl _⟩)
      have hs := ih ht _ h v own ro hu1
      have hal : a < h.length := (List.getElem?_eq_some_iff.mp hc).1
      simp only
      rw [show Γ.derefPrior (.ptr t) (.ptr v) = Γ.derefPrior t v from rfl,
        show wrapTy (.ptr t) = fun v => .ptr (wrapTy t v) from rfl]
      have : (kd (Γ.derefPrior t v)).map (fun v => Val.ptr (wrapTy t v)) = ((kd (Γ.derefPrior t v)).map (wrapTy t)).map Val.ptr := by
        cases kd (Γ.derefPrior t v) <;> rfl
      rw [this]
      refine hs.map fun n _ v' _ hp => ?_
      obtain ⟨w', o', r', g1, g2, g3, g4, g5, g6⟩ := hp
      have hsame : (chase Γ t ⟨a, []⟩ h k).2.get l = h.get l := hin.same fun q hw => by
        rcases hw with ⟨x, rfl, hu, _⟩ | hw | hw
        · exact hlo.1 hu
        · exact hlo.2 hw
        · exact absurd hlt (Nat.not_lt.mpr hw)
      refine ⟨.ptr ⟨a, []⟩, a :: o', r', hsame.trans hg, .ptr (by rw [← get_cell]; exact g1) g2, ?_, ?_, ?_, g6⟩
      · rw [List.nodup_cons]
        refine ⟨fun ha => ?_, g3⟩
        rcases g5 a ha with hx | hx
        · exact hn.1 hx
        · omega
      · intro b hb
        rw [List.mem_cons] at hb
        rcases hb with rfl | hb
        · intro hx
          rcases g6 b hx with hy | hy
          · exact hd b (List.mem_cons_self ..) hy
          · omega
        · exact g4 b hb
      · intro b hb
        rw [List.mem_cons] at hb
        rcases hb with rfl | hb
        · exact .inl (List.mem_cons_self ..)
        · exact (g5 b hb).imp (List.mem_cons_of_mem _) fun h => h
    | nilPtr =>
      simp only
      have hgz : Mem.get (h ++ [zeroM Γ t]) l = some .nil := by rw [get_append_old hlt]; exact hg
      have hne : h.length ≠ l.addr := fun he => by omega
      have hu1 : Unshared Γ.toProg (Mem.put (h ++ [zeroM Γ t]) l (.ptr ⟨h.length, []⟩)) ⟨h.length, []⟩ t (Γ.zeroTy t) [] [] := by
        refine ⟨⟨zeroM Γ t, ?_, rep_zero hz t⟩, List.nodup_nil, by simp, by simp, by simp⟩
        rw [get_cell, cell_put_ne hne]
        simp
      have hin := inv_chase (Γ := Γ) (hki (partRegion _ (· = ⟨h.length, []⟩) [])) t (unshared_inv hu1) (.inl ⟨_, rfl, rfl, List.prefix_refl _⟩)
      have hs := ih ht _ _ _ [] [] hu1
      generalize hq : chase Γ t ⟨h.length, []⟩ (Mem.put (h ++ [zeroM Γ t]) l (.ptr ⟨h.length, []⟩)) k = q at hin hs
      rw [show Γ.derefPrior (.ptr t) .nil = Γ.derefPrior t (Γ.zeroTy t) from rfl,
        show wrapTy (.ptr t) = fun v => .ptr (wrapTy t v) from rfl]
      have : (kd (Γ.derefPrior t (Γ.zeroTy t))).map (fun v => Val.ptr (wrapTy t v)) =
          ((kd (Γ.derefPrior t (Γ.zeroTy t))).map (wrapTy t)).map Val.ptr := by
        cases kd (Γ.derefPrior t (Γ.zeroTy t)) <;> rfl
      rw [this]
      refine hs.map fun n _ v' _ hp => ?_
      obtain ⟨w', o', r', g1, g2, g3, g4, g5, g6⟩ := hp
      have hlen : (Mem.put (h ++ [zeroM Γ t]) l (.ptr ⟨h.length, []⟩)).length = h.length + 1 := by rw [length_put]; simp
      rw [hlen] at g5 g6
      have hsame := hin.same (m := l) fun q hw => by
        rcases hw with ⟨x, rfl, hu, _⟩ | hw | hw
        · exact hne hu.symm
        · cases hw
        · rw [hlen] at hw
          have : h.length + 1 ≤ l.addr := hw
          omega
      refine ⟨.ptr ⟨h.length, []⟩, h.length :: o', r', hsame.trans (get_put_self hgz), .ptr (by rw [← get_cell]; exact g1) g2, ?_, ?_, ?_, ?_⟩
      · rw [List.nodup_cons]
        refine ⟨fun ha => ?_, g3⟩
        rcases g5 _ ha with hx | hx
        · cases hx
        · omega
      · intro b hb
        rw [List.mem_cons] at hb
        rcases hb with rfl | hb
        · intro hx
          rcases g6 _ hx with hy | hy
          · cases hy
          · omega
        · exact g4 b hb
      · intro b hb
        rw [List.mem_cons] at hb
        rcases hb with rfl | hb
        · exact .inr (Nat.le_refl _)
        · rcases g5 b hb with hx | hx
          · cases hx
          · exact .inr (by omega)
      · intro b hb
        rcases g6 b hb with hx | hx
        · cases hx
        · exact .inr (by omega)

end

section
variable {Γ : MProg} {c : Codec} (hm : MethodsLocal Γ) (hz : ZeroPlain Γ.toProg) (hf : MethodsFollow Γ)
include hm hz hf

theorem mdec_sim (fuel : Nat) : RecSim Γ.toProg (mdec Γ c fuel) (dec Γ.toProg c fuel) := by
  induction fuel with
  | zero => intro t l fo bare bz h v own ro hu; exact trivial
  | succ fuel ih =>
    intro t l fo bare bz h v own ro hu
    rw [mdec, dec, mBody, decBody]
    split
    · exact rfl
    · exact chase_sim hz (fun l h v own ro hu => mBase_sim ih (fun R => mdec_inv hm fuel) hz hf hu)
        (fun R l h hi hw => mBase_inv (mdec_inv hm fuel) hm hi hw) t rfl l h v own ro hu

/-- The outcome, and on success the contents. -/
theorem mUnmarshalBare_sim {fuel : Nat} {t : Ty} {l : Loc} {bz : Bytes} {h : Mem} {v : Val} {own ro : List Nat}
    (hu : Unshared Γ.toProg h l t v own ro) :
    match (mUnmarshalBare Γ c fuel t l bz h).1, unmarshalBare Γ.toProg c fuel t v bz with
    | .ok _, .ok v' => After Γ.toProg l t own ro h.length v' (mUnmarshalBare Γ c fuel t l bz h).2
    | .err e, .err e' => e = e'
    | .panic p, .panic p' => p = p'
    | .oof, .oof => True
    | _, _ => False := by
  have hall : ∀ bare bz, match (mDecodeAll Γ c fuel t l bare bz h).1, decodeAll Γ.toProg c fuel t v bare bz with
      | .ok _, .ok v' => After Γ.toProg l t own ro h.length v' (mDecodeAll Γ c fuel t l bare bz h).2
      | .err e, .err e' => e = e'
      | .panic p, .panic p' => p = p'
      | .oof, .oof => True
      | _, _ => False := by
    intro bare bz
    have hs := mdec_sim (c := c) hm hz hf fuel t l { fnum := 1 } bare bz h v own ro hu
    unfold mDecodeAll decodeAll
    generalize mdec Γ c fuel t l { fnum := 1 } bare bz h = m at hs
    generalize dec Γ.toProg c fuel t v { fnum := 1 } bare bz = d at hs
    obtain ⟨m1, m2⟩ := m
    refine hs.cases (fun n _ b h1 h2 hp => ?_) (fun n e h1 h2 => ?_) (fun p h1 h2 => ?_) (fun h1 h2 => ?_)
    · simp only at h1
      subst h1 h2
      simp only
      by_cases hn : n ≠ bz.length
      · rw [if_pos hn, if_pos hn]
      · rw [if_neg hn, if_neg hn]; exact hp
    · simp only at h1
      subst h1 h2
      rfl
    · simp only at h1
      subst h1 h2
      rfl
    · simp only at h1
      subst h1 h2
      trivial
  have hc : ∀ bz, match (mContents Γ c fuel t l bz h).1, unmarshalContents Γ.toProg c fuel t v bz with
      | .ok _, .ok v' => After Γ.toProg l t own ro h.length v' (mContents Γ c fuel t l bz h).2
      | .err e, .err e' => e = e'
      | .panic p, .panic p' => p = p'
      | .oof, .oof => True
      | _, _ => False := by
    intro bz
    have hpl : ptrToListPanics Γ.toProg t v = (t.isPtr && (derefM h t (valueAt h l)).isSome && Γ.isListKind (.base t.deref)) := by
      obtain ⟨⟨w, hg, hr⟩, _⟩ := hu
      unfold ptrToListPanics
      rw [valueAt, hg]
      rcases rep_deref hr with ⟨h1, h2⟩ | ⟨w', v', _, _, h1, h2, _⟩
      · simp [h1, h2]
      · simp [h1, h2]
    unfold mContents unmarshalContents
    rw [hpl]
    by_cases h1 : Γ.structOrRep t.deref = true
    · rw [if_pos h1, if_pos h1]; exact hall _ _
    · rw [if_neg h1, if_neg h1]
      by_cases h2 : (t.isPtr && (derefM h t (valueAt h l)).isSome && Γ.isListKind (.base t.deref)) = true
      · rw [if_pos h2, if_pos h2]
      · rw [if_neg h2, if_neg h2]
        by_cases h3 : (decide (bz.length > 0) && !(!t.isPtr && Γ.isIface t.deref) && Γ.isKnown t.deref) = true
        · rw [if_pos h3, if_pos h3]
          cases decodeKey bz with
          | err n e => rfl
          | panic p => rfl
          | oof => trivial
          | ok m ft =>
            obtain ⟨fnum, typ⟩ := ft
            simp only
            by_cases h4 : fnum ≠ 1
            · rw [if_pos h4, if_pos h4]
            · rw [if_neg h4, if_neg h4]
              by_cases h5 : typ ≠ Γ.typ3 t.deref {}
              · rw [if_pos h5, if_pos h5]
              · rw [if_neg h5, if_neg h5]
                by_cases h6 : m ≤ bz.length
                · rw [if_pos h6, if_pos h6]; exact hall _ _
                · rw [if_neg h6, if_neg h6]
        · rw [if_neg h3, if_neg h3]; exact hall _ _
  unfold mUnmarshalBare unmarshalBare
  cases getInfo Γ.toProg c t.deref <;> simp only [Res.bind]
  cases stripPrefix c t.deref bz <;> simp only
  exact hc _

end

end Amino
