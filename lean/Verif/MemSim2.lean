import Verif.MemSim

/-!
# The decoder on memory follows the decoder on trees, if nothing is shared: the functions
-/

namespace Amino
open Spec

/-! ## Default values -/

section
variable {Γ : Prog} {h : Mem}

theorem rep_deref {t : Ty} : ∀ {w : MVal} {v : Val} {own ro : List Nat}, RepV Γ h t w v own ro →
    (derefM h t w = none ∧ derefVal t v = none) ∨
      ∃ w' v' own' ro', derefM h t w = some w' ∧ derefVal t v = some v' ∧ RepV Γ h (.base t.deref) w' v' own' ro' := by
  induction t with
  | base id => intro w v own ro hr; exact .inr ⟨w, v, own, ro, rfl, rfl, hr⟩
  | ptr t ih =>
    intro w v own ro hr
    cases hr with
    | nilPtr => exact .inl ⟨rfl, rfl⟩
    | ptr hc hr =>
      rename_i a w' v' own'
      have he : derefM h (.ptr t) (.ptr ⟨a, []⟩) = derefM h t w' := by
        rw [derefM, get_cell, hc]; rfl
      rw [he, derefVal]
      exact ih hr

theorem rep_isDefault {Γ : MProg} {t : Ty} {w : MVal} {v : Val} {own ro : List Nat} (hr : RepV Γ.toProg h t w v own ro) :
    isDefaultM Γ h t w = Γ.isDefault t v := by
  unfold isDefaultM Prog.isDefault
  rcases rep_deref hr with ⟨h1, h2⟩ | ⟨w', v', own', ro', h1, h2, hr'⟩
  · rw [h1, h2]
  · rw [h1, h2]
    simp only
    cases hr' with
    | prim hs =>
      cases hsh : Γ.shape t.deref <;> rw [hsh] at hs <;> simp only [scalarShape, Bool.false_eq_true] at hs <;>
        cases v' <;> rfl
    | bytes hs hb => rw [hs]; rfl
    | nil hs =>
      cases hsh : Γ.shape t.deref <;> rw [hsh] at hs <;> simp only [nilShape, Bool.false_eq_true] at hs <;> rfl
    | byteSlice hs hb hc hl =>
      rename_i e a off len b
      rw [hs]
      simp only [isDefaultBase]
      have : ((b.drop off).take len).length = len := by
        rw [List.length_take, List.length_drop]; omega
      cases len with
      | zero => simp
      | succ n =>
        cases hx : (b.drop off).take (n + 1) with
        | nil => rw [hx] at this; simp at this
        | cons => simp
    | slice hs hb hc hl hr =>
      rename_i e a off len ws vs o r
      rw [hs]
      simp only [isDefaultBase]
      have := (repL_length hr).2
      rw [List.length_replicate] at this
      subst this
      cases vs <;> simp
    | arr hs hb hr => rw [hs]; rfl
    | struct hs hr => rw [hs]; rfl
    | iface hs hr => rw [hs]; rfl

end

/-! ## Hypotheses about the recursive calls -/

section
variable {Γ : MProg} {c : Codec} {rec : Ty → Loc → FOpts → Bool → Bytes → Mem → MRes Unit}
  {recT : Ty → Val → FOpts → Bool → Bytes → DRes Val}

def RecSim (Γ : Prog) (rec : Ty → Loc → FOpts → Bool → Bytes → Mem → MRes Unit)
    (recT : Ty → Val → FOpts → Bool → Bytes → DRes Val) : Prop :=
  ∀ t l fo bare bz h v own ro, Unshared Γ h l t v own ro →
    MSim (fun _ v' h' => After Γ l t own ro h.length v' h') (rec t l fo bare bz h) (recT t v fo bare bz)

variable (hsim : RecSim Γ.toProg rec recT) (hinv : ∀ R, RecInv R rec) (hz : ZeroPlain Γ.toProg)

include hsim hinv hz

/-! ## Fields -/

theorem mFields_sim {l : Loc} (fs : List Field) : ∀ (i num last : Nat) (bz : Bytes) (n : Nat) (h : Mem) (u : MVal) (pre ws : List MVal)
    (ps : List Val) (own ro : List Nat), i = pre.length → LoopPre Γ.toProg h l u pre (fs.map Field.ty) ws ps own ro →
    MSim (fun _ vs h' => LoopPost Γ.toProg l u (fs.map Field.ty) own ro h.length pre vs h')
      (mFields Γ c rec l fs i num last bz n h) (decFields Γ.toProg c recT fs ps num last bz n) := by
  induction fs with
  | nil =>
    intro i num last bz n h u pre ws ps own ro hip hl
    have hrep := hl.rep
    cases hrep
    rw [mFields, decFields]
    exact MSim.pure.map fun _ _ _ _ _ => LoopPost.nil hl
  | cons f fs ih =>
    intro i num last bz n h u pre ws ps own ro hip hl
    have hrep := hl.rep
    cases hrep with
    | cons hrv hrl =>
    rename_i w p o r ws ps o' r'
    subst hip
    have hfirst := LoopPre.first hrv hl
    have hcont : ∀ {h1 : Mem} {v : Val} (num last : Nat) (bz : Bytes) (n : Nat), After Γ.toProg (l.sub pre.length) f.ty o r h.length v h1 →
        (∀ R : Region, R.Inv h → R.W (l.sub pre.length) → R.Inv h1) →
        MSim (fun _ vs h2 => LoopPost Γ.toProg l u ((f :: fs).map Field.ty) (o ++ o') (r ++ r') h.length pre vs h2)
          (mFields Γ c rec l fs (pre.length + 1) num last bz n h1)
          ((decFields Γ.toProg c recT fs ps num last bz n).map fun vs => v :: vs) := by
      intro h1 v num last bz n ha hi
      refine loop_cont hrv hrl hl ha hi (fun u1 w' hl1 => ih _ num last bz n h1 u1 (pre ++ [w']) ws ps o' r' (by simp) hl1)
        fun R hR hj => mFields_inv (hinv R) fs _ _ _ _ _ _ (fun j hj' => hj j hj') hR
    have hrecAt := fun fo bare bz => hsim f.ty (l.sub pre.length) fo bare bz h p o r hfirst
    have hdef := hcont (v := Γ.defaultValue f.ty) (num + 1) last bz n (after_default hz hfirst) fun R hR hW => inv_putDefault hR hW
    rw [mFields, decFields]
    split
    · exact hcont num last bz n ⟨w, o, r, hfirst.1.elim fun w' hw => by
        have := hw.1
        rw [get_sub_i, hl.get] at this ⊢
        simp [hl.parts], hrv, hfirst.2.1, hfirst.2.2.1, fun a ha => .inl ha, fun a ha => .inl ha⟩ fun R hR _ => hR
    · refine MSim.infoThen ?_
      split
      · exact hdef
      · split
        · exact (hrecAt _ _ _).andSlide fun j a v _ hp bz n => hcont _ _ bz n hp fun R hR hW => hinv R _ _ _ _ _ _ hR hW
        · cases decodeKey bz with
          | panic p => exact rfl
          | oof => exact trivial
          | err m e => exact ⟨rfl, rfl⟩
          | ok m ft =>
            obtain ⟨fnum, typ⟩ := ft
            simp only
            split
            · exact hdef
            · split
              · exact ⟨rfl, rfl⟩
              · refine MSim.slideThen fun bz n => ?_
                split
                · exact ⟨rfl, rfl⟩
                · split
                  · exact ⟨rfl, rfl⟩
                  · exact (hrecAt _ _ _).andSlide fun j a v _ hp bz n => hcont _ _ bz n hp fun R hR hW => hinv R _ _ _ _ _ _ hR hW

/-! ## Arrays -/

omit hz in
theorem mPackedArr_sim {e : Ty} {l : Loc} {fo : FOpts} (k : Nat) : ∀ (i : Nat) (bz : Bytes) (n : Nat) (h : Mem) (u : MVal) (pre ws : List MVal)
    (ps : List Val) (own ro : List Nat), i = pre.length → LoopPre Γ.toProg h l u pre (List.replicate k e) ws ps own ro →
    MSim (fun _ vs h' => LoopPost Γ.toProg l u (List.replicate k e) own ro h.length pre vs h')
      (mPackedArr Γ rec e l fo k i bz n h) (decPackedArr Γ.toProg recT e fo ps bz n) := by
  induction k with
  | zero =>
    intro i bz n h u pre ws ps own ro hip hl
    have hrep := hl.rep
    cases hrep
    rw [mPackedArr, decPackedArr]
    split
    · exact ⟨rfl, rfl⟩
    · exact ⟨rfl, LoopPost.nil hl⟩
  | succ k ih =>
    intro i bz n h u pre ws ps own ro hip hl
    rw [List.replicate_succ] at hl ⊢
    have hrep := hl.rep
    cases hrep with
    | cons hrv hrl =>
    rename_i w p o r ws ps o' r'
    subst hip
    have hfirst := LoopPre.first hrv hl
    rw [mPackedArr, decPackedArr]
    have hr := hsim e (l.sub pre.length) fo false bz h p o r hfirst
    have hri := fun (R : Region) (hR : R.Inv h) (hW : R.W (l.sub pre.length)) => hinv R e (l.sub pre.length) fo false bz h hR hW
    generalize rec e (l.sub pre.length) fo false bz h = m at hr hri
    refine hr.andSlide fun j a v _ hp bz n => ?_
    obtain ⟨w1, o1, r1, hg1, hr1, hrest⟩ := hp
    have hva : valueAt m.2 (l.sub pre.length) = w1 := by rw [valueAt, hg1]; rfl
    have hd : isDefaultM Γ m.2 e w1 = Γ.isDefault e v := rep_isDefault hr1
    simp only [hva, hd]
    have key : ∀ (h1 : Mem) (v' : Val), After Γ.toProg (l.sub pre.length) e o r h.length v' h1 →
        (∀ R : Region, R.Inv h → R.W (l.sub pre.length) → R.Inv h1) →
        MSim (fun _ vs h2 => LoopPost Γ.toProg l u (e :: List.replicate k e) (o ++ o') (r ++ r') h.length pre vs h2)
          (mPackedArr Γ rec e l fo k (pre.length + 1) bz n h1)
          ((decPackedArr Γ.toProg recT e fo ps bz n).map fun vs => v' :: vs) := by
      intro h1 v' ha hi
      refine loop_cont hrv hrl hl ha hi (fun u1 w' hl1 => ih _ bz n h1 u1 (pre ++ [w']) ws ps o' r' (by simp) hl1)
        fun R hR hj => mPackedArr_inv (hinv R) e fo k _ _ _ _ (fun j hj' => hj j hj') hR
    unfold preferNil
    split
    · rename_i hpd
      have hptr : e.isPtr = true := by simp only [Bool.and_eq_true] at hpd; exact hpd.1
      refine key _ _ ?_ fun R hR hW => (hri R hR hW).put hW R.fine_nil
      have hnil : RepV Γ.toProg m.2 e .nil .nil [] [] := by
        cases e with
        | base id => cases hptr
        | ptr t => exact .nilPtr
      have hlt : (l.sub pre.length).addr < h.length := (get_lt hl.get : l.addr < h.length)
      exact after_put hg1 hnil List.nodup_nil (by simp) (by simp) (by simp) hlt hfirst.2.2.2.1 hfirst.2.2.2.2
    · exact key _ _ ⟨w1, o1, r1, hg1, hr1, hrest⟩ hri

theorem mUnpackedArr_sim {e : Ty} {l : Loc} {fo : FOpts} (k : Nat) : ∀ (i : Nat) (bz : Bytes) (n : Nat) (h : Mem) (u : MVal) (pre ws : List MVal)
    (ps : List Val) (own ro : List Nat), i = pre.length → LoopPre Γ.toProg h l u pre (List.replicate k e) ws ps own ro →
    MSim (fun _ vs h' => LoopPost Γ.toProg l u (List.replicate k e) own ro h.length pre vs h')
      (mUnpackedArr Γ rec e l fo k i bz n h) (decUnpackedArr Γ.toProg recT e fo ps bz n) := by
  induction k with
  | zero =>
    intro i bz n h u pre ws ps own ro hip hl
    have hrep := hl.rep
    cases hrep
    rw [mUnpackedArr, decUnpackedArr]
    split
    · cases decodeKey bz with
      | panic p => exact rfl
      | oof => exact trivial
      | err m e => exact ⟨rfl, rfl⟩
      | ok m ft =>
        simp only
        split
        · exact ⟨rfl, rfl⟩
        · exact ⟨rfl, LoopPost.nil hl⟩
    · exact ⟨rfl, LoopPost.nil hl⟩
  | succ k ih =>
    intro i bz n h u pre ws ps own ro hip hl
    rw [List.replicate_succ] at hl ⊢
    have hrep := hl.rep
    cases hrep with
    | cons hrv hrl =>
    rename_i w p o r ws ps o' r'
    subst hip
    have hfirst := LoopPre.first hrv hl
    have key : ∀ (h1 : Mem) (v' : Val) (bz : Bytes) (n : Nat), After Γ.toProg (l.sub pre.length) e o r h.length v' h1 →
        (∀ R : Region, R.Inv h → R.W (l.sub pre.length) → R.Inv h1) →
        MSim (fun _ vs h2 => LoopPost Γ.toProg l u (e :: List.replicate k e) (o ++ o') (r ++ r') h.length pre vs h2)
          (mUnpackedArr Γ rec e l fo k (pre.length + 1) bz n h1)
          ((decUnpackedArr Γ.toProg recT e fo ps bz n).map fun vs => v' :: vs) := by
      intro h1 v' bz n ha hi
      refine loop_cont hrv hrl hl ha hi (fun u1 w' hl1 => ih _ bz n h1 u1 (pre ++ [w']) ws ps o' r' (by simp) hl1)
        fun R hR hj => mUnpackedArr_inv (hinv R) e fo k _ _ _ _ (fun j hj' => hj j hj') hR
    rw [mUnpackedArr, decUnpackedArr]
    cases decodeKey bz with
    | panic p => exact rfl
    | oof => exact trivial
    | err m e => exact ⟨rfl, rfl⟩
    | ok m ft =>
      obtain ⟨fnum, typ⟩ := ft
      simp only
      split
      · exact ⟨rfl, rfl⟩
      · split
        · exact ⟨rfl, rfl⟩
        · refine MSim.slideThen fun bz n => ?_
          split
          · exact MSim.slideThen fun bz n => key _ _ bz n (after_default hz hfirst) fun R hR hW => inv_putDefault hR hW
          · exact (hsim e (l.sub pre.length) _ _ _ h p o r hfirst).andSlide fun j a v _ hp bz n =>
              key _ _ bz n hp fun R hR hW => hinv R _ _ _ _ _ _ hR hW

theorem mArray_sim {id : TId} {len : Nat} {e : Ty} (hs : Γ.shape id = .array len e) (hb : Γ.isByteKind e = false) {l : Loc} {fo : FOpts}
    {bare : Bool} {bz : Bytes} {h : Mem} {v : Val} {own ro : List Nat} (hu : Unshared Γ.toProg h l (.base id) v own ro) :
    MSim (fun _ v' h' => After Γ.toProg l (.base id) own ro h.length v' h') (mArray Γ c rec len e l fo bare bz h)
      (decArray Γ.toProg c recT e v fo bare bz) := by
  obtain ⟨⟨w, hg, hr⟩, hn, hd, hlo, hlr⟩ := hu
  cases hr with
  | prim hx => rw [hs] at hx; cases hx
  | bytes hx hb' => rw [hs] at hx; cases hx; rw [hb] at hb'; cases hb'
  | nil hx => rw [hs] at hx; cases hx
  | byteSlice hx => rw [hs] at hx; cases hx
  | slice hx => rw [hs] at hx; cases hx
  | struct hx => rw [hs] at hx; cases hx
  | iface hx => rw [hs] at hx; cases hx
  | arr hx hb' hr =>
    rename_i ws vs
    rw [hs] at hx
    cases hx
    have hl : LoopPre Γ.toProg h l (.arr ws) [] (List.replicate len e) ws vs own ro := ⟨hg, rfl, hr, hn, hd, hlo, hlr⟩
    have hpost : ∀ {vs' : List Val} {h' : Mem}, LoopPost Γ.toProg l (.arr ws) (List.replicate len e) own ro h.length [] vs' h' →
        After Γ.toProg l (.base id) own ro h.length (.list vs') h' := by
      rintro vs' h' ⟨u', ws', o', r', h1, h2, h3, h4, h5⟩
      obtain ⟨us, rfl, _⟩ := shallow_arr h2.symm
      simp only [MVal.parts, List.nil_append] at h3
      subst h3
      exact ⟨_, o', r', h1, .arr hs hb h4, h5⟩
    unfold mArray decArray
    refine MSim.infoThen (MSim.unframe fun bz n => ?_)
    simp only
    split
    · exact (mPackedArr_sim hsim hinv len 0 bz n h _ [] ws vs own ro rfl hl).map fun _ _ _ _ hp => hpost hp
    · exact (mUnpackedArr_sim hsim hinv hz len 0 bz n h _ [] ws vs own ro rfl hl).map fun _ _ _ _ hp => hpost hp

/-! ## Slices -/

/-- The elements are in new memory. -/
def NewL (Γ : Prog) (e : Ty) (N : Nat) (ws : List MVal) (vs : List Val) (h : Mem) : Prop :=
  ∃ o r, RepL Γ h (List.replicate ws.length e) ws vs o r ∧ (∀ a ∈ o, N ≤ a) ∧ (∀ a ∈ r, N ≤ a)

omit hsim hinv hz in
/-- One element is done, then the rest. -/
theorem newL_cons {e : Ty} {h h1 h2 : Mem} {w : MVal} {v : Val} {o r : List Nat} (hr : RepV Γ.toProg h1 e w v o r)
    (ho : ∀ a ∈ o, h.length ≤ a) (hro : ∀ a ∈ r, h.length ≤ a) (hlen : h.length ≤ h1.length) (hi : (newRegion h1).Inv h2)
    {ws : List MVal} {vs : List Val} (hl : NewL Γ.toProg e h1.length ws vs h2) : NewL Γ.toProg e h.length (w :: ws) (v :: vs) h2 := by
  obtain ⟨o', r', hl, ho', hr'⟩ := hl
  have hlt := repV_lt hr
  have hcell : ∀ a, a < h1.length → h2[a]? = h1[a]? := fun a ha => hi.cell fun q hw => absurd ha (Nat.not_lt.mpr hw)
  refine ⟨o ++ o', r ++ r', .cons (repV_frame hr (fun a ha => hcell a (hlt.1 a ha)) fun a ha => hcell a (hlt.2 a ha)) hl, ?_, ?_⟩
  · intro a ha
    rw [List.mem_append] at ha
    rcases ha with ha | ha
    · exact ho a ha
    · have := ho' a ha; omega
  · intro a ha
    rw [List.mem_append] at ha
    rcases ha with ha | ha
    · exact hro a ha
    · have := hr' a ha; omega

omit hsim hinv in
/-- A new variable. -/
theorem unshared_new (e : Ty) (h : Mem) : Unshared Γ.toProg (h ++ [zeroM Γ e]) ⟨h.length, []⟩ e (Γ.zeroTy e) [] [] :=
  ⟨⟨zeroM Γ e, by rw [get_append_new rfl]; rfl, rep_zero hz e⟩, List.nodup_nil, by simp, by simp, by simp⟩

omit hsim hinv hz in
theorem after_new {e : Ty} {h h1 : Mem} {x : MVal} {v : Val} (ha : After Γ.toProg ⟨h.length, []⟩ e [] [] (h ++ [x]).length v h1) :
    ∃ w o r, valueAt h1 ⟨h.length, []⟩ = w ∧ RepV Γ.toProg h1 e w v o r ∧ (∀ a ∈ o, h.length + 1 ≤ a) ∧ (∀ a ∈ r, h.length + 1 ≤ a) ∧
      h1[h.length]? = some w ∧ o.Nodup ∧ (∀ a ∈ o, a ∉ r) := by
  obtain ⟨w, o, r, hg, hr, h1, h2, h3, h4⟩ := ha
  refine ⟨w, o, r, by rw [valueAt, hg]; rfl, hr, ?_, ?_, by rw [← get_cell]; exact hg, h1, h2⟩
  · intro a ha; simpa using h3 a ha
  · intro a ha; simpa using h4 a ha

theorem mPackedSlice_sim {e : Ty} {fo : FOpts} (k : Nat) : ∀ (bz : Bytes) (n : Nat) (h : Mem),
    MSim (fun ws vs h' => NewL Γ.toProg e h.length ws vs h') (mPackedSlice Γ rec e fo k bz n h)
      (decPackedSlice Γ.toProg recT e fo k bz n) := by
  have hnil : ∀ (n : Nat) (h : Mem), MSim (fun ws vs h' => NewL Γ.toProg e h.length ws vs h') ((.ok n [], h) : MRes (List MVal)) (.ok n []) :=
    fun n h => ⟨rfl, [], [], .nil, by simp, by simp⟩
  induction k with
  | zero =>
    intro bz n h
    cases bz with
    | nil => exact hnil n h
    | cons b bz => exact trivial
  | succ k ih =>
    intro bz n h
    cases bz with
    | nil => exact hnil n h
    | cons b bz =>
      rw [mPackedSlice, decPackedSlice]
      · have hri := fun (R : Region) (hR : R.Inv (h ++ [zeroM Γ e])) (hW : R.W ⟨h.length, []⟩) =>
          hinv R e ⟨h.length, []⟩ fo false (b :: bz) _ hR hW
        have hr := hsim e ⟨h.length, []⟩ fo false (b :: bz) _ _ _ _ (unshared_new hz e h)
        generalize rec e ⟨h.length, []⟩ fo false (b :: bz) (h ++ [zeroM Γ e]) = m at hr hri
        have hlen : h.length ≤ m.2.length := (hri (newRegion h) ((newRegion_inv h).allocZero e) (Nat.le_refl h.length)).len
        refine hr.andSlide fun j a v _ hp bz n => ?_
        obtain ⟨w, o, r, hva, hrv, ho, hro, _⟩ := after_new hp
        simp only [hva, rep_isDefault hrv]
        refine (ih bz n m.2).map2 fun j ws vs _ hl => ?_
        have hi2 := (mPackedSlice_inv (hinv (newRegion m.2)) (Γ := Γ) e fo k bz n m.2 (newRegion_inv _)).1
        unfold preferNil
        split
        · rename_i hpd
          have hptr : e.isPtr = true := by simp only [Bool.and_eq_true] at hpd; exact hpd.1
          have hnil : RepV Γ.toProg m.2 e .nil .nil [] [] := by
            cases e with
            | base id => cases hptr
            | ptr t => exact .nilPtr
          exact newL_cons hnil (by simp) (by simp) hlen hi2 hl
        · exact newL_cons hrv (fun a ha => by have := ho a ha; omega) (fun a ha => by have := hro a ha; omega) hlen hi2 hl
      all_goals simp

theorem mUnpackedSlice_sim {e : Ty} {fo : FOpts} (k : Nat) : ∀ (bz : Bytes) (n : Nat) (h : Mem),
    MSim (fun ws vs h' => NewL Γ.toProg e h.length ws vs h') (mUnpackedSlice Γ rec e fo k bz n h)
      (decUnpackedSlice Γ.toProg recT e fo k bz n) := by
  have hnil : ∀ (n : Nat) (h : Mem), MSim (fun ws vs h' => NewL Γ.toProg e h.length ws vs h') ((.ok n [], h) : MRes (List MVal)) (.ok n []) :=
    fun n h => ⟨rfl, [], [], .nil, by simp, by simp⟩
  induction k with
  | zero =>
    intro bz n h
    cases bz with
    | nil => exact hnil n h
    | cons b bz => exact trivial
  | succ k ih =>
    intro bz n h
    cases bz with
    | nil => exact hnil n h
    | cons b bz =>
      have key : ∀ (h1 : Mem) (v : Val) (bz : Bytes) (n : Nat), After Γ.toProg ⟨h.length, []⟩ e [] [] (h ++ [zeroM Γ e]).length v h1 →
          (newRegion h).Inv h1 → MSim (fun ws vs h' => NewL Γ.toProg e h.length ws vs h')
            ((mUnpackedSlice Γ rec e fo k bz n h1).map fun vs => valueAt h1 ⟨h.length, []⟩ :: vs)
            ((decUnpackedSlice Γ.toProg recT e fo k bz n).map fun vs => v :: vs) := by
        intro h1 v bz n ha hi
        obtain ⟨w, o, r, hva, hrv, ho, hro, _⟩ := after_new ha
        rw [hva]
        refine (ih bz n h1).map2 fun j ws vs _ hl => ?_
        have hi2 := (mUnpackedSlice_inv (hinv (newRegion h1)) (Γ := Γ) e fo k bz n h1 (newRegion_inv _)).1
        exact newL_cons hrv (fun a ha => Nat.le_of_succ_le (ho a ha)) (fun a ha => Nat.le_of_succ_le (hro a ha)) hi.len hi2 hl
      have hiz : (newRegion h).Inv (h ++ [zeroM Γ e]) := (newRegion_inv h).allocZero e
      rw [mUnpackedSlice, decUnpackedSlice]
      · cases decodeKey (b :: bz) with
        | panic p => exact rfl
        | oof => exact trivial
        | err m e => exact ⟨rfl, rfl⟩
        | ok m ft =>
          obtain ⟨fnum, typ⟩ := ft
          simp only
          split
          · exact ⟨rfl, rfl⟩
          · split
            · exact hnil n h
            · split
              · exact ⟨rfl, rfl⟩
              · refine MSim.slideThen fun bz n => ?_
                split
                · exact MSim.slideThen fun bz n => key _ _ bz n (after_default hz (unshared_new hz e h))
                    (inv_putDefault hiz (Nat.le_refl h.length))
                · exact (hsim e ⟨h.length, []⟩ _ _ _ _ _ _ _ (unshared_new hz e h)).andSlide fun j a v _ hp bz n =>
                    key _ _ bz n hp (hinv (newRegion h) _ _ _ _ _ _ hiz (Nat.le_refl h.length))
      all_goals simp

omit hsim hinv hz in
theorem new_get {h h' : Mem} {l : Loc} (hi : (newRegion h).Inv h') (hl : l.addr < h.length) : h'.get l = h.get l :=
  hi.same fun _ hw => absurd hl (Nat.not_lt.mpr hw)

theorem mSlice_sim {id : TId} {e : Ty} (hs : Γ.shape id = .slice e) (hb : Γ.isByteKind e = false) {l : Loc} {fo : FOpts}
    {bare : Bool} {bz : Bytes} {h : Mem} {v : Val} {own ro : List Nat} (hu : Unshared Γ.toProg h l (.base id) v own ro) :
    MSim (fun _ v' h' => After Γ.toProg l (.base id) own ro h.length v' h') (mSlice Γ c rec e l fo bare bz h)
      (decSlice Γ.toProg c recT e fo bare bz) := by
  unfold mSlice decSlice
  refine MSim.infoThen (MSim.unframe fun bz n => ?_)
  have hr : MSim (fun ws vs h' => NewL Γ.toProg e h.length ws vs h')
      (if Γ.typ3 e.deref fo ≠ typ3ByteLength then mPackedSlice Γ rec e fo bz.length bz n h
        else mUnpackedSlice Γ rec e fo bz.length bz n h)
      (if Γ.typ3 e.deref fo ≠ typ3ByteLength then decPackedSlice Γ.toProg recT e fo bz.length bz n
        else decUnpackedSlice Γ.toProg recT e fo bz.length bz n) := by
    split
    · exact mPackedSlice_sim hsim hinv hz _ _ _ _
    · exact mUnpackedSlice_sim hsim hinv hz _ _ _ _
  have hi : (newRegion h).Inv (if Γ.typ3 e.deref fo ≠ typ3ByteLength then mPackedSlice Γ rec e fo bz.length bz n h
        else mUnpackedSlice Γ rec e fo bz.length bz n h).2 := by
    split
    · exact (mPackedSlice_inv (hinv _) _ _ _ _ _ _ (newRegion_inv h)).1
    · exact (mUnpackedSlice_inv (hinv _) _ _ _ _ _ _ (newRegion_inv h)).1
  generalize (if Γ.typ3 e.deref fo ≠ typ3ByteLength then mPackedSlice Γ rec e fo bz.length bz n h
        else mUnpackedSlice Γ rec e fo bz.length bz n h) = m at hr hi
  generalize (if Γ.typ3 e.deref fo ≠ typ3ByteLength then decPackedSlice Γ.toProg recT e fo bz.length bz n
        else decUnpackedSlice Γ.toProg recT e fo bz.length bz n) = d at hr
  obtain ⟨m1, m2⟩ := m
  obtain ⟨⟨x, hg, _⟩, _, _, hlo, hlr⟩ := hu
  have hlt := get_lt hg
  have hg2 : m2.get l = some x := (new_get hi hlt).trans hg
  refine hr.cases (fun j ws vs h1 h2 hp => ?_) (fun j e h1 h2 => ?_) (fun p h1 h2 => ?_) (fun h1 h2 => ?_)
  · simp only at h1
    subst h1 h2
    obtain ⟨o, r, hl, ho, hro⟩ := hp
    have hlen := repL_length hl
    simp only [List.length_replicate] at hlen
    simp only [DRes.map]
    cases ws with
    | nil =>
      have : vs = [] := List.length_eq_zero_iff.mp (by simpa using hlen.2)
      subst this
      exact ⟨rfl, after_put hg2 (.nil (by rw [hs]; rfl)) List.nodup_nil (by simp) (by simp) (by simp) hlt hlo hlr⟩
    | cons w ws =>
      cases vs with
      | nil => simp at hlen
      | cons v vs =>
        refine ⟨rfl, ?_⟩
        simp only [List.isEmpty_cons, Bool.false_eq_true, if_false]
        have hlt2 := repL_lt hl
        have hm2 : h.length ≤ m2.length := hi.len
        refine after_put (x := x) (own' := []) (ro' := m2.length :: (o ++ r)) ?_ ?_ List.nodup_nil (by simp) (by simp) ?_ hlt hlo hlr
        · rw [get_append_old (get_lt hg2)]; exact hg2
        · refine .slice hs hb (ws := w :: ws) (by simp) (by simp) ?_
          rw [List.drop_zero, List.take_length]
          exact repL_frame hl (fun a ha => getElem?_append_old (hlt2.1 a ha)) (fun a ha => getElem?_append_old (hlt2.2 a ha))
        · intro a ha
          rw [List.mem_cons, List.mem_append] at ha
          right
          rcases ha with rfl | ha | ha
          · exact hm2
          · exact ho a ha
          · exact hro a ha
  · simp only at h1
    subst h1 h2
    exact ⟨rfl, rfl⟩
  · simp only at h1
    subst h1 h2
    exact rfl
  · simp only at h1
    subst h1 h2
    exact trivial

omit hsim hinv hz in
theorem mByteSlice_sim {id : TId} {e : Ty} (hs : Γ.shape id = .slice e) (hb : Γ.isByteKind e = true) {l : Loc} {bz : Bytes} {h : Mem}
    {v : Val} {own ro : List Nat} (hu : Unshared Γ.toProg h l (.base id) v own ro) :
    MSim (fun _ v' h' => After Γ.toProg l (.base id) own ro h.length v' h') (mByteSlice Γ e l bz h)
      (decByteSlice Γ.toProg e bz) := by
  have hn : RepV Γ.toProg h (.base id) .nil .nil [] [] := .nil (by rw [hs]; rfl)
  unfold mByteSlice decByteSlice
  split
  · exact ⟨rfl, after_plain hu hn⟩
  · refine MSim.pure.andSlide fun j b b' _ he bz n => ?_
    subst he
    simp only
    split
    · exact ⟨rfl, after_plain hu hn⟩
    · split
      · refine ⟨rfl, ?_⟩
        obtain ⟨⟨x, hg, _⟩, _, _, hlo, hlr⟩ := hu
        have hlt := get_lt hg
        refine after_put (x := x) (own' := []) (ro' := [h.length]) ?_ ?_ List.nodup_nil (by simp) (by simp) (by simp) hlt hlo hlr
        · rw [get_append_old hlt]; exact hg
        · have := RepV.byteSlice (Γ := Γ.toProg) (h := h ++ [.prim (.bytes b)]) (id := id) (off := 0) (len := b.length) hs hb
            (a := h.length) (b := b) (by simp) (by simp)
          simpa using this
      · exact rfl

/-! ## Interfaces -/

theorem mIface_sim {id : TId} (hs : Γ.shape id = .iface) {l : Loc} {fo : FOpts}
    {bare : Bool} {bz : Bytes} {h : Mem} {v : Val} {own ro : List Nat} (hu : Unshared Γ.toProg h l (.base id) v own ro) :
    MSim (fun _ v' h' => After Γ.toProg l (.base id) own ro h.length v' h') (mIface Γ c rec id l fo bare bz h)
      (decIface Γ.toProg c recT id v fo bare bz) := by
  obtain ⟨⟨w, hg, hr⟩, hn, hd, hlo, hlr⟩ := hu
  cases hr with
  | prim hx => rw [hs] at hx; cases hx
  | bytes hx => rw [hs] at hx; cases hx
  | byteSlice hx => rw [hs] at hx; cases hx
  | slice hx => rw [hs] at hx; cases hx
  | arr hx => rw [hs] at hx; cases hx
  | struct hx => rw [hs] at hx; cases hx
  | iface hx hr => rw [mIface, hg, decIface]; exact ⟨rfl, rfl⟩; simp
  | nil hx =>
    rw [mIface, hg, decIface]
    simp only
    cases c.iface? id with
    | none => exact ⟨rfl, rfl⟩
    | some ii =>
      simp only
      refine MSim.unframe fun bz n => MSim.pure.andSlide fun j dp dp' _ he bz n => ?_
      subst he
      simp only
      cases lookupConc c ii dp with
      | error e => exact ⟨rfl, rfl⟩
      | ok ci =>
        simp only
        refine MSim.concKey fun bz n => ?_
        have hri := hinv (newRegion h) (.base ci.tid) ⟨h.length, []⟩ fo true bz _ ((newRegion_inv h).allocZero (Γ := Γ) (.base ci.tid))
          (Nat.le_refl h.length)
        have hr := hsim (.base ci.tid) ⟨h.length, []⟩ fo true bz _ _ _ _ (unshared_new hz (.base ci.tid) h)
        generalize rec (.base ci.tid) ⟨h.length, []⟩ fo true bz (h ++ [zeroM Γ (.base ci.tid)]) = m at hr hri
        rw [show Γ.zeroTy (.base ci.tid) = Γ.zero ci.tid from rfl] at hr
        generalize recT (.base ci.tid) (Γ.zero ci.tid) fo true bz = d at hr
        obtain ⟨m1, m2⟩ := m
        refine hr.cases (fun j _ v h1 h2 hp => ?_) (fun j e h1 h2 => ?_) (fun p h1 h2 => ?_) (fun h1 h2 => ?_)
        · simp only at h1
          subst h1 h2
          simp only
          split
          · split
            · exact ⟨rfl, rfl⟩
            · split
              · refine ⟨rfl, ?_⟩
                obtain ⟨w, o, r, hva, hrv, ho, hro, hcell, hno, hdo⟩ := after_new hp
                have hlt := get_lt hg
                have hg2 : m2.get l = some .nil := (new_get hri hlt).trans hg
                unfold ifaceOf
                cases hpp : ci.ptrPref with
                | true =>
                  have hdyn : ci.dynTy = .ptr (.base ci.tid) := by simp [ConcInfo.dynTy, hpp]
                  rw [hdyn, if_pos rfl, wrapTy, wrapTy]
                  refine after_put hg2 (.iface hs (.ptr hcell hrv)) List.nodup_nil (by simp) (by simp) ?_ hlt hlo hlr
                  intro a ha
                  rw [List.mem_append, List.mem_cons] at ha
                  right
                  rcases ha with (rfl | ha) | ha
                  · exact Nat.le_refl _
                  · have := ho a ha; omega
                  · have := hro a ha; omega
                | false =>
                  have hdyn : ci.dynTy = .base ci.tid := by simp [ConcInfo.dynTy, hpp]
                  rw [hdyn, if_neg (by simp), wrapTy, hva]
                  refine after_put hg2 (.iface hs hrv) List.nodup_nil (by simp) (by simp) ?_ hlt hlo hlr
                  intro a ha
                  rw [List.mem_append] at ha
                  right
                  rcases ha with ha | ha
                  · have := ho a ha; omega
                  · have := hro a ha; omega
              · exact rfl
          · exact rfl
        · simp only at h1
          subst h1 h2
          simp only
          split
          · split
            · exact ⟨rfl, rfl⟩
            · exact rfl
          · exact rfl
        · simp only at h1
          subst h1 h2
          exact rfl
        · simp only at h1
          subst h1 h2
          exact trivial

/-! ## All kinds -/

theorem mShape_sim {id : TId} {l : Loc} {fo : FOpts}
    {bare : Bool} {bz : Bytes} {h : Mem} {v : Val} {own ro : List Nat} (hu : Unshared Γ.toProg h l (.base id) v own ro) :
    MSim (fun _ v' h' => After Γ.toProg l (.base id) own ro h.length v' h') (mShape Γ c rec id l fo bare bz h)
      (decShape Γ.toProg c recT id v fo bare bz) := by
  have hprim : ∀ v, scalarShape (Γ.shape id) = true → After Γ.toProg l (.base id) own ro h.length v (h.put l (.prim v)) :=
    fun v hx => after_plain hu (.prim hx)
  unfold mShape decShape
  cases hs : Γ.shape id with
  | iface =>
    exact mIface_sim hsim hinv hz hs hu
  | array len e =>
    simp only
    split
    · rename_i hb
      unfold decByteArray
      split
      · exact ⟨rfl, rfl⟩
      · cases decodeByteSlice bz with
        | panic p => exact rfl
        | oof => exact trivial
        | err m e =>
          simp only [DRes.andSlide]
          split
          · exact ⟨rfl, rfl⟩
          · exact rfl
        | ok m b =>
          simp only [DRes.andSlide]
          split
          · split
            · exact ⟨rfl, rfl⟩
            · split
              · exact ⟨rfl, after_plain hu (.bytes hs hb)⟩
              · exact rfl
          · exact rfl
    · rename_i hb
      exact mArray_sim hsim hinv hz hs (by simpa using hb) hu
  | slice e =>
    simp only
    split
    · rename_i hb
      exact mByteSlice_sim hs hb hu
    · rename_i hb
      exact mSlice_sim hsim hinv hz hs (by simpa using hb) hu
  | struct fs =>
    simp only
    refine MSim.unframe fun bz n => ?_
    obtain ⟨⟨w, hg, hr⟩, hn, hd, hlo, hlr⟩ := hu
    cases hr with
    | prim hx => rw [hs] at hx; cases hx
    | bytes hx => rw [hs] at hx; cases hx
    | nil hx => rw [hs] at hx; cases hx
    | byteSlice hx => rw [hs] at hx; cases hx
    | slice hx => rw [hs] at hx; cases hx
    | arr hx => rw [hs] at hx; cases hx
    | iface hx => rw [hs] at hx; cases hx
    | struct hx hr =>
      rename_i ws vs
      rw [hs] at hx
      cases hx
      refine (mFields_sim hsim hinv hz fs 0 0 0 bz n h (.struct ws) [] ws vs own ro rfl ⟨hg, rfl, hr, hn, hd, hlo, hlr⟩).map ?_
      rintro _ _ vs' _ ⟨u', ws', o', r', h1, h2, h3, h4, h5⟩
      obtain ⟨us, rfl, _⟩ := shallow_struct h2.symm
      simp only [MVal.parts, List.nil_append] at h3
      subst h3
      exact ⟨_, o', r', h1, .struct hs h4, h5⟩
  | time =>
    refine MSim.unframe fun bz n => MSim.pure.andSlide fun j t t' _ he bz n => ?_
    subst he
    exact ⟨rfl, hprim _ (by rw [hs]; rfl)⟩
  | int k =>
    simp only
    cases decInt k fo bz with
    | panic p => exact rfl
    | oof => exact trivial
    | err m e => exact ⟨rfl, rfl⟩
    | ok m i => exact ⟨rfl, hprim _ (by rw [hs]; rfl)⟩
  | bool =>
    refine MSim.pure.andSlide fun j t t' _ he bz n => ?_
    subst he
    exact ⟨rfl, hprim _ (by rw [hs]; rfl)⟩
  | float64 =>
    simp only
    split
    · exact ⟨rfl, rfl⟩
    · refine MSim.pure.andSlide fun j t t' _ he bz n => ?_
      subst he
      exact ⟨rfl, hprim _ (by rw [hs]; rfl)⟩
  | float32 =>
    simp only
    split
    · exact ⟨rfl, rfl⟩
    · refine MSim.pure.andSlide fun j t t' _ he bz n => ?_
      subst he
      exact ⟨rfl, hprim _ (by rw [hs]; rfl)⟩
  | string =>
    refine MSim.pure.andSlide fun j t t' _ he bz n => ?_
    subst he
    exact ⟨rfl, hprim _ (by rw [hs]; rfl)⟩
  | map e => exact rfl

end

end Amino
