import Verif.MemRep

/-!
# The decoder on memory follows the decoder on trees, if nothing is shared: the steps
-/

namespace Amino
open Spec

/-- The outcomes agree, and on success the results and the memory are related. -/
def MSim {α β : Type} (P : α → β → Mem → Prop) (m : MRes α) (d : DRes β) : Prop :=
  match m.1, d with
  | .ok n a, .ok n' b => n = n' ∧ P a b m.2
  | .err n e, .err n' e' => n = n' ∧ e = e'
  | .panic p, .panic p' => p = p'
  | .oof, .oof => True
  | _, _ => False

section
variable {α β γ δ : Type} {P : α → β → Mem → Prop} {Q : γ → δ → Mem → Prop}

theorem MSim.cases {m : MRes α} {d : DRes β} (h : MSim P m d) {C : Prop}
    (hok : ∀ n a b, m.1 = .ok n a → d = .ok n b → P a b m.2 → C)
    (herr : ∀ n e, m.1 = .err n e → d = .err n e → C)
    (hpanic : ∀ p, m.1 = .panic p → d = .panic p → C)
    (hoof : m.1 = .oof → d = .oof → C) : C := by
  unfold MSim at h
  split at h
  · rename_i n a n' b h1
    obtain ⟨rfl, hp⟩ := h
    exact hok _ _ _ h1 rfl hp
  · rename_i n e n' e' h1
    obtain ⟨rfl, rfl⟩ := h
    exact herr _ _ h1 rfl
  · rename_i p p' h1
    subst h
    exact hpanic _ h1 rfl
  · rename_i h1
    exact hoof h1 rfl
  · exact h.elim

theorem MSim.andSlide {m : MRes α} {d : DRes β} (h : MSim P m d) {bz : Bytes} {n : Nat}
    {k : α → Bytes → Nat → Mem → MRes γ} {k' : β → Bytes → Nat → DRes δ}
    (hk : ∀ j a b, m.1 = .ok j a → P a b m.2 → ∀ bz n, MSim Q (k a bz n m.2) (k' b bz n)) :
    MSim Q (m.andSlide bz n k) (d.andSlide bz n k') := by
  obtain ⟨m1, m2⟩ := m
  refine h.cases (fun j a b h1 h2 hp => ?_) (fun j e h1 h2 => ?_) (fun p h1 h2 => ?_) (fun h1 h2 => ?_)
  · simp only at h1
    subst h1 h2
    simp only [MRes.andSlide, DRes.andSlide]
    split
    · exact hk j a b rfl hp _ _
    · exact rfl
  · simp only at h1
    subst h1 h2
    simp only [MRes.andSlide, DRes.andSlide]
    split
    · exact ⟨rfl, rfl⟩
    · exact rfl
  · simp only at h1
    subst h1 h2
    exact rfl
  · simp only at h1
    subst h1 h2
    exact trivial

theorem MSim.pure {d : DRes α} {h : Mem} : MSim (fun a b _ => a = b) (d, h) d := by
  cases d <;> simp [MSim]

theorem MSim.map {m : MRes α} {d : DRes β} (h : MSim P m d) {f : β → δ} {R : α → δ → Mem → Prop}
    (hf : ∀ n a b, m.1 = .ok n a → P a b m.2 → R a (f b) m.2) : MSim R m (d.map f) := by
  obtain ⟨m1, m2⟩ := m
  refine h.cases (fun j a b h1 h2 hp => ?_) (fun j e h1 h2 => ?_) (fun p h1 h2 => ?_) (fun h1 h2 => ?_)
  · simp only at h1
    subst h1 h2
    exact ⟨rfl, hf _ _ _ rfl hp⟩
  · simp only at h1
    subst h1 h2
    exact ⟨rfl, rfl⟩
  · simp only at h1
    subst h1 h2
    exact rfl
  · simp only at h1
    subst h1 h2
    exact trivial

theorem MSim.map2 {m : MRes α} {d : DRes β} (h : MSim P m d) {g : α → γ} {f : β → δ}
    (hf : ∀ n a b, m.1 = .ok n a → P a b m.2 → Q (g a) (f b) m.2) : MSim Q (m.map g) (d.map f) := by
  obtain ⟨m1, m2⟩ := m
  refine h.cases (fun j a b h1 h2 hp => ?_) (fun j e h1 h2 => ?_) (fun p h1 h2 => ?_) (fun h1 h2 => ?_)
  · simp only at h1
    subst h1 h2
    exact ⟨rfl, hf _ _ _ rfl hp⟩
  · simp only at h1
    subst h1 h2
    exact ⟨rfl, rfl⟩
  · simp only at h1
    subst h1 h2
    exact rfl
  · simp only at h1
    subst h1 h2
    exact trivial

theorem MSim.unframe {bare : Bool} {bz : Bytes} {h : Mem} {k : Bytes → Nat → MRes α} {k' : Bytes → Nat → DRes β}
    (hk : ∀ bz n, MSim P (k bz n) (k' bz n)) : MSim P (unframeM bare bz h k) (Amino.unframe bare bz k') := by
  unfold unframeM Amino.unframe
  split
  · exact hk _ _
  · cases decodeByteSlice bz <;> simp only
    · split
      · exact hk _ _
      · exact rfl
    · split
      · exact ⟨rfl, rfl⟩
      · exact rfl
    · exact rfl
    · exact trivial

theorem MSim.infoThen {Γ : MProg} {c : Codec} {id : TId} {n : Nat} {h : Mem} {k : MRes α} {k' : DRes β}
    (hk : MSim P k k') : MSim P (infoThenM Γ c id n h k) (Amino.infoThen Γ.toProg c id n k') := by
  unfold infoThenM Amino.infoThen
  cases getInfo Γ.toProg c id <;> simp only
  · exact hk
  · exact ⟨rfl, rfl⟩
  · exact rfl
  · exact trivial

theorem MSim.slideThen {m : Nat} {bz : Bytes} {n : Nat} {h : Mem} {k : Bytes → Nat → MRes α} {k' : Bytes → Nat → DRes β}
    (hk : ∀ bz n, MSim P (k bz n) (k' bz n)) : MSim P (slideThenM m bz n h k) (Amino.slideThen m bz n k') := by
  unfold slideThenM Amino.slideThen
  split
  · exact hk _ _
  · exact rfl

theorem MSim.concKey {P : Unit → β → Mem → Prop} {Γ : MProg} {id : TId} {fo : FOpts} {bz : Bytes} {n : Nat} {h : Mem}
    {k : Bytes → Nat → MRes Unit} {k' : Bytes → Nat → DRes β} (hk : ∀ bz n, MSim P (k bz n) (k' bz n)) :
    MSim P (concKeyM Γ id fo bz n h k) (Amino.concKey Γ.toProg id fo bz n k') := by
  unfold concKeyM Amino.concKey
  split
  · cases decodeKey bz with
    | ok m ft =>
      obtain ⟨fnum, typ⟩ := ft
      simp only
      split
      · exact ⟨rfl, rfl⟩
      · split
        · exact ⟨rfl, rfl⟩
        · exact MSim.slideThen hk
    | err m e => exact ⟨rfl, rfl⟩
    | panic p => exact rfl
    | oof => exact trivial
  · exact hk _ _

end

/-! ## Before and after -/

/-- The variable at `l` holds `v` and is not shared; its memory was its own before (`own`, `ro`) or is new (from `N` on). -/
def After (Γ : Prog) (l : Loc) (t : Ty) (own ro : List Nat) (N : Nat) (v : Val) (h : Mem) : Prop :=
  ∃ w own' ro', h.get l = some w ∧ RepV Γ h t w v own' ro' ∧ own'.Nodup ∧ (∀ a ∈ own', a ∉ ro') ∧
    (∀ a ∈ own', a ∈ own ∨ N ≤ a) ∧ (∀ a ∈ ro', a ∈ ro ∨ N ≤ a)

/-- Zero values have no references. -/
def Spec.ZeroPlain (Γ : Prog) : Prop := ∀ id, RepV Γ [] (.base id) (ofZero (Γ.zero id)) (Γ.zero id) [] []

section
variable {Γ : Prog} {h h' : Mem} {l : Loc} {t : Ty} {v : Val} {own ro : List Nat}

theorem rep_zero (hz : ZeroPlain Γ) (t : Ty) : RepV Γ h t (ofZero (Γ.zeroTy t)) (Γ.zeroTy t) [] [] := by
  cases t with
  | base id => exact repV_frame (hz id) (by simp) (by simp)
  | ptr t => simpa [Prog.zeroTy, ofZero] using RepV.nilPtr

/-- The value is stored. -/
theorem after_put {g : Mem} {w x : MVal} {own' ro' : List Nat} {N : Nat} (hg : g.get l = some x) (hr : RepV Γ g t w v own' ro')
    (hn : own'.Nodup) (hd : ∀ a ∈ own', a ∉ ro') (ho : ∀ a ∈ own', a ∈ own ∨ N ≤ a) (hro : ∀ a ∈ ro', a ∈ ro ∨ N ≤ a)
    (hl : l.addr < N) (hlo : l.addr ∉ own) (hlr : l.addr ∉ ro) : After Γ l t own ro N v (g.put l w) := by
  have h1 : ∀ a ∈ own', a ≠ l.addr := fun a ha he => by
    rcases ho a ha with h | h
    · exact hlo (he ▸ h)
    · omega
  have h2 : ∀ a ∈ ro', a ≠ l.addr := fun a ha he => by
    rcases hro a ha with h | h
    · exact hlr (he ▸ h)
    · omega
  exact ⟨w, own', ro', get_put_self hg, repV_frame hr (fun a ha => cell_put_ne (h1 a ha)) (fun a ha => cell_put_ne (h2 a ha)),
    hn, hd, ho, hro⟩

/-- A value without references is stored. -/
theorem after_plain {w : MVal} {v' : Val} (hu : Unshared Γ h l t v own ro) (hr : RepV Γ h t w v' [] []) :
    After Γ l t own ro h.length v' (h.put l w) := by
  obtain ⟨⟨x, hg, _⟩, _, _, h1, h2⟩ := hu
  exact after_put hg hr List.nodup_nil (by simp) (by simp) (by simp) (get_lt hg) h1 h2

theorem getElem?_append_old {h : Mem} {x : MVal} {a : Nat} (ha : a < h.length) : (h ++ [x])[a]? = h[a]? :=
  List.getElem?_append_left ha

theorem repV_append {w x : MVal} (hr : RepV Γ h t w v own ro) : RepV Γ (h ++ [x]) t w v own ro := by
  obtain ⟨h1, h2⟩ := repV_lt hr
  exact repV_frame hr (fun a ha => getElem?_append_old (h1 a ha)) (fun a ha => getElem?_append_old (h2 a ha))

theorem rep_newTime (t : Ty) (ht : Γ.shape t.deref = .time) (h : Mem) :
    ∃ o, RepV Γ (newTime t h).2 t (newTime t h).1 (wrapTy t (.time 0 0)) o [] ∧ o.Nodup ∧ (∀ a ∈ o, h.length ≤ a) ∧
      h.length ≤ (newTime t h).2.length ∧ ∀ a, a < h.length → (newTime t h).2[a]? = h[a]? := by
  induction t with
  | base id => exact ⟨[], .prim (by rw [show Γ.shape id = .time from ht]; rfl), List.nodup_nil, by simp, Nat.le_refl _, fun _ _ => rfl⟩
  | ptr t ih =>
    obtain ⟨o, hr, hn, hf, hl, hc⟩ := ih ht
    refine ⟨(newTime t h).2.length :: o, ?_, ?_, ?_, ?_, ?_⟩
    · rw [newTime, wrapTy]
      exact .ptr (by simp) (repV_append hr)
    · rw [List.nodup_cons]
      exact ⟨fun hm => Nat.lt_irrefl _ ((repV_lt hr).1 _ hm), hn⟩
    · intro a ha
      rw [List.mem_cons] at ha
      rcases ha with rfl | ha
      · exact hl
      · exact hf a ha
    · rw [newTime]; simp only [List.length_append]; omega
    · intro a ha
      rw [newTime]
      simp only
      rw [getElem?_append_old (by omega), hc a ha]

theorem after_default {Γ : MProg} (hz : ZeroPlain Γ.toProg) (hu : Unshared Γ.toProg h l t v own ro) :
    After Γ.toProg l t own ro h.length (Γ.defaultValue t) (putDefault Γ t l h) := by
  unfold putDefault defaultM Prog.defaultValue
  split
  · rename_i ht
    rw [ht]
    obtain ⟨⟨x, hg, _⟩, _, _, h1, h2⟩ := hu
    obtain ⟨o, hr, hn, hf, hl, hc⟩ := rep_newTime t ht h
    have hlt := get_lt hg
    refine after_put (x := x) ?_ hr hn (by simp) (fun a ha => .inr (hf a ha)) (by simp) hlt h1 h2
    rw [Mem.get, hc _ hlt]
    exact hg
  · split
    · rename_i h1 _ h2
      exact absurd h2 h1
    · exact after_plain hu (rep_zero hz t)

end

/-! ## Parts of a struct or array -/

section
variable {Γ : Prog} {h h1 : Mem} {l : Loc}

theorem unshared_inv {t : Ty} {v : Val} {own ro : List Nat} (hu : Unshared Γ h l t v own ro) :
    (partRegion h (· = l) own).Inv h := by
  obtain ⟨⟨w, hg, hr⟩, _⟩ := hu
  refine partRegion_inv ?_ (fun ha hx hp => repV_own hr ha hx hp)
  intro l' w' p m he hg' hp
  subst he
  rw [hg] at hg'
  cases hg'
  exact repV_ptr hr hp

theorem not_under_sub (l : Loc) (i : Nat) : ¬ Under (l.sub i) l := by
  rintro ⟨_, h⟩
  have := h.length_le
  simp only [Loc.sub, List.length_append, List.length_singleton] at this
  omega

theorem not_under_sub_ne {l : Loc} {i j : Nat} (hij : i ≠ j) (q : List Nat) : ¬ Under (l.sub i) ⟨l.addr, (l.sub j).path ++ q⟩ := by
  rintro ⟨_, h⟩
  simp only [Loc.sub, List.append_assoc, List.prefix_append_right_inj, List.singleton_append] at h
  obtain ⟨r, hr⟩ := h
  simp at hr
  exact hij hr.1

theorem get_sub_i (h : Mem) (l : Loc) (i : Nat) : h.get (l.sub i) = (h.get l).bind fun u => u.parts[i]? := by
  rw [Loc.sub, get_sub]
  cases h.get l with
  | none => rfl
  | some u =>
    simp only [Option.bind_some, MVal.part]
    cases u.parts[i]? <;> rfl

theorem shallow_parts {u u' : MVal} (hs : u'.shallow = u.shallow) : u'.parts.length = u.parts.length := by
  cases u with
  | arr ws => obtain ⟨vs, rfl, hl⟩ := shallow_arr hs.symm; exact hl
  | struct ws => obtain ⟨vs, rfl, hl⟩ := shallow_struct hs.symm; exact hl
  | _ => cases u' <;> simp_all [MVal.shallow, MVal.parts]

/-- A call that writes only to part `i` changes the struct or array in part `i` only. -/
theorem parent_step {own : List Nat} {u w w' : MVal} {pre ws : List MVal} (hi : (partRegion h (· = l.sub pre.length) own).Inv h1)
    (hg : h.get l = some u) (hp : u.parts = pre ++ w :: ws) (hl : l.addr ∉ own) (hw : h1.get (l.sub pre.length) = some w') :
    ∃ u', h1.get l = some u' ∧ u'.shallow = u.shallow ∧ u'.parts = pre ++ w' :: ws := by
  have hlt := get_lt hg
  have hnW : ∀ {m : Loc}, m.addr = l.addr → ¬ Under (l.sub pre.length) m → ¬ (partRegion h (· = l.sub pre.length) own).W m := by
    rintro m hm hn (⟨x, rfl, hu⟩ | ho | hf)
    · exact hn hu
    · exact hl (hm ▸ ho)
    · rw [hm] at hf; omega
  have hf := hi.frame (hnW rfl (not_under_sub l pre.length))
  rw [show (partRegion h (· = l.sub pre.length) own).h0 = h from rfl, hg] at hf
  cases hg1 : h1.get l with
  | none => rw [hg1] at hf; cases hf
  | some u' =>
    rw [hg1] at hf
    simp only [Option.map_some, Option.some.injEq] at hf
    refine ⟨u', rfl, hf, ?_⟩
    apply List.ext_getElem?
    intro j
    have hj1 : u'.parts[j]? = h1.get (l.sub j) := by rw [get_sub_i, hg1]; rfl
    have hj0 : u.parts[j]? = h.get (l.sub j) := by rw [get_sub_i, hg]; rfl
    by_cases hj : pre.length = j
    · subst hj
      rw [hj1, hw]
      simp
    · have hsame : h1.get (l.sub j) = h.get (l.sub j) :=
        hi.same (m := l.sub j) fun q => hnW rfl (not_under_sub_ne hj q)
      rw [hj1, hsame, ← hj0, hp]
      rcases Nat.lt_or_gt_of_ne hj with h' | h'
      · rw [List.getElem?_append_right (by omega), List.getElem?_append_right (by omega)]
        obtain ⟨k, hk⟩ : ∃ k, j - pre.length = k + 1 := ⟨j - pre.length - 1, by omega⟩
        rw [hk]; rfl
      · rw [List.getElem?_append_left h', List.getElem?_append_left h']

/-- The parts of `l` from some index on (the first ones are `pre`) hold the values `ps` and are not shared. -/
structure LoopPre (Γ : Prog) (h : Mem) (l : Loc) (u : MVal) (pre : List MVal) (ts : List Ty) (ws : List MVal) (ps : List Val)
    (own ro : List Nat) : Prop where
  get : h.get l = some u
  parts : u.parts = pre ++ ws
  rep : RepL Γ h ts ws ps own ro
  nodup : own.Nodup
  disj : ∀ a ∈ own, a ∉ ro
  own : l.addr ∉ own
  ro : l.addr ∉ ro

/-- The same afterwards. -/
def LoopPost (Γ : Prog) (l : Loc) (u : MVal) (ts : List Ty) (own ro : List Nat) (N : Nat) (pre : List MVal) (vs : List Val)
    (h : Mem) : Prop :=
  ∃ u' ws' own' ro', h.get l = some u' ∧ u'.shallow = u.shallow ∧ u'.parts = pre ++ ws' ∧ RepL Γ h ts ws' vs own' ro' ∧
    own'.Nodup ∧ (∀ a ∈ own', a ∉ ro') ∧ (∀ a ∈ own', a ∈ own ∨ N ≤ a) ∧ (∀ a ∈ ro', a ∈ ro ∨ N ≤ a)

variable {u w : MVal} {pre ws : List MVal} {t : Ty} {ts : List Ty} {p : Val} {ps : List Val} {o o' r r' : List Nat}

/-- The next part is not shared. -/
theorem LoopPre.first (hrv : RepV Γ h t w p o r) (hl : LoopPre Γ h l u pre (t :: ts) (w :: ws) (p :: ps) (o ++ o') (r ++ r')) :
    Unshared Γ h (l.sub pre.length) t p o r := by
  refine ⟨⟨w, ?_, hrv⟩, (List.nodup_append.mp hl.nodup).1, fun a ha hr => hl.disj a (List.mem_append_left _ ha) (List.mem_append_left _ hr),
    fun ha => hl.own (List.mem_append_left _ ha), fun ha => hl.ro (List.mem_append_left _ ha)⟩
  rw [get_sub_i, hl.get]
  simp [hl.parts]

theorem LoopPost.nil (hl : LoopPre Γ h l u pre [] [] [] o r) : LoopPost Γ l u [] o r h.length pre [] h := by
  obtain ⟨h1, h2, h3, h4, h5, h6, h7⟩ := hl
  exact ⟨u, [], o, r, h1, rfl, h2, h3, h4, h5, fun a ha => .inl ha, fun a ha => .inl ha⟩

theorem LoopPre.next (hrv : RepV Γ h t w p o r) (hrl : RepL Γ h ts ws ps o' r')
    (hl : LoopPre Γ h l u pre (t :: ts) (w :: ws) (p :: ps) (o ++ o') (r ++ r')) {v : Val}
    (ha : After Γ (l.sub pre.length) t o r h.length v h1) (hi : ∀ R : Region, R.Inv h → R.W (l.sub pre.length) → R.Inv h1) :
    ∃ u1 w', LoopPre Γ h1 l u1 (pre ++ [w']) ts ws ps o' r' ∧
      ∀ vs h2, LoopPost Γ l u1 ts o' r' h1.length (pre ++ [w']) vs h2 →
        (∀ R : Region, R.Inv h1 → (∀ j, pre.length + 1 ≤ j → R.W (l.sub j)) → R.Inv h2) →
        LoopPost Γ l u (t :: ts) (o ++ o') (r ++ r') h.length pre (v :: vs) h2 := by
  have hfirst := LoopPre.first hrv hl
  obtain ⟨w', o1, r1, hg1, hr1, hn1, hd1, ho1, hro1⟩ := ha
  have hlt := get_lt hl.get
  have hin := hi _ (unshared_inv hfirst) (.inl ⟨_, rfl, rfl, List.prefix_refl _⟩)
  have hlen : h.length ≤ h1.length := hin.len
  obtain ⟨hno, hno', hdis⟩ := List.nodup_append.mp hl.nodup
  have hlo : l.addr ∉ o := fun ha => hl.own (List.mem_append_left _ ha)
  have hlo' : l.addr ∉ o' := fun ha => hl.own (List.mem_append_right _ ha)
  have hlr : l.addr ∉ r := fun ha => hl.ro (List.mem_append_left _ ha)
  have hlr' : l.addr ∉ r' := fun ha => hl.ro (List.mem_append_right _ ha)
  obtain ⟨u1, hu1, hs1, hp1⟩ := parent_step hin hl.get hl.parts hlo hg1
  have hcell : ∀ a, a ≠ l.addr → a ∉ o → a < h.length → h1[a]? = h[a]? := by
    intro a h1 h2 h3
    refine hin.cell fun q hw => ?_
    rcases hw with ⟨x, rfl, hu, _⟩ | hw | hw
    · exact h1 hu
    · exact h2 hw
    · exact absurd h3 (Nat.not_lt.mpr hw)
  obtain ⟨hlt1, hlt2⟩ := repL_lt hrl
  have hrl1 : RepL Γ h1 ts ws ps o' r' := repL_frame hrl
    (fun a ha => hcell a (fun he => hlo' (he ▸ ha)) (fun hao => hdis a hao a ha rfl) (hlt1 a ha))
    (fun a ha => hcell a (fun he => hlr' (he ▸ ha))
      (fun hao => hl.disj a (List.mem_append_left _ hao) (List.mem_append_right _ ha)) (hlt2 a ha))
  refine ⟨u1, w', ⟨hu1, by rw [hp1]; simp, hrl1, hno',
    fun a ha hr => hl.disj a (List.mem_append_right _ ha) (List.mem_append_right _ hr), hlo', hlr'⟩, ?_⟩
  rintro vs h2 ⟨u2, ws2, o2, r2, hg2, hs2, hp2, hr2, hn2, hd2, ho2, hro2⟩ hi2
  have hin2 : (partRegion h1 (fun m => ∃ j, pre.length + 1 ≤ j ∧ m = l.sub j) o').Inv h2 := by
    refine hi2 _ (partRegion_inv ?_ fun ha hx hp => repL_own hrl1 ha hx hp) fun j hj => .inl ⟨_, ⟨j, hj, rfl⟩, rfl, List.prefix_refl _⟩
    rintro l' x q m ⟨j, hj, rfl⟩ hx hq
    rw [get_sub_i, hu1, Option.bind_some, hp1, List.getElem?_append_right (by omega)] at hx
    obtain ⟨k, hk⟩ : ∃ k, j - pre.length = k + 1 := ⟨j - pre.length - 1, by omega⟩
    rw [hk, List.getElem?_cons_succ] at hx
    exact repL_ptr hrl1 (i := k) (p := q) (by rw [hx]; exact hq)
  have hlt' := repV_lt hr1
  have hcell2 : ∀ a, a ≠ l.addr → a ∉ o' → a < h1.length → h2[a]? = h1[a]? := by
    intro a g1 g2 g3
    refine hin2.cell fun q hw => ?_
    rcases hw with ⟨x, ⟨j, _, rfl⟩, hu, _⟩ | hw | hw
    · exact g1 hu
    · exact g2 hw
    · exact absurd g3 (Nat.not_lt.mpr hw)
  have hne1 : ∀ a ∈ o1, a ≠ l.addr := by
    rintro a ha rfl
    rcases ho1 _ ha with hx | hx
    · exact hlo hx
    · omega
  have hne2 : ∀ a ∈ r1, a ≠ l.addr := by
    rintro a ha rfl
    rcases hro1 _ ha with hx | hx
    · exact hlr hx
    · omega
  have hno1 : ∀ a ∈ o1, a ∉ o' := by
    intro a ha hb
    rcases ho1 a ha with hx | hx
    · exact hdis a hx a hb rfl
    · exact absurd (hlt1 a hb) (Nat.not_lt.mpr hx)
  have hnr1 : ∀ a ∈ r1, a ∉ o' := by
    intro a ha hb
    rcases hro1 a ha with hx | hx
    · exact hl.disj a (List.mem_append_right _ hb) (List.mem_append_left _ hx)
    · exact absurd (hlt1 a hb) (Nat.not_lt.mpr hx)
  have hno1r : ∀ a ∈ o1, a ∉ r' := by
    intro a ha hb
    rcases ho1 a ha with hx | hx
    · exact hl.disj a (List.mem_append_left _ hx) (List.mem_append_right _ hb)
    · exact absurd (hlt2 a hb) (Nat.not_lt.mpr hx)
  have hr1' : RepV Γ h2 t w' v o1 r1 := repV_frame hr1
    (fun a ha => hcell2 a (hne1 a ha) (hno1 a ha) (hlt'.1 a ha)) (fun a ha => hcell2 a (hne2 a ha) (hnr1 a ha) (hlt'.2 a ha))
  refine ⟨u2, w' :: ws2, o1 ++ o2, r1 ++ r2, hg2, hs2.trans hs1, by rw [hp2]; simp, .cons hr1' hr2, ?_, ?_, ?_, ?_⟩
  · rw [List.nodup_append]
    refine ⟨hn1, hn2, fun a ha b hb he => ?_⟩
    subst he
    rcases ho2 a hb with hx | hx
    · exact hno1 a ha hx
    · exact absurd (hlt'.1 a ha) (Nat.not_lt.mpr hx)
  · intro a ha hb
    rw [List.mem_append] at ha hb
    rcases ha with ha | ha <;> rcases hb with hb | hb
    · exact hd1 a ha hb
    · rcases hro2 a hb with hx | hx
      · exact hno1r a ha hx
      · exact absurd (hlt'.1 a ha) (Nat.not_lt.mpr hx)
    · rcases ho2 a ha with hx | hx
      · exact hnr1 a hb hx
      · exact absurd (hlt'.2 a hb) (Nat.not_lt.mpr hx)
    · exact hd2 a ha hb
  · intro a ha
    rw [List.mem_append] at ha ⊢
    rcases ha with ha | ha
    · exact (ho1 a ha).imp .inl id
    · exact (ho2 a ha).imp .inr fun h => by omega
  · intro a ha
    rw [List.mem_append] at ha ⊢
    rcases ha with ha | ha
    · exact (hro1 a ha).imp .inl id
    · exact (hro2 a ha).imp .inr fun h => by omega

/-- One part is done, then the rest. -/
theorem loop_cont (hrv : RepV Γ h t w p o r) (hrl : RepL Γ h ts ws ps o' r')
    (hl : LoopPre Γ h l u pre (t :: ts) (w :: ws) (p :: ps) (o ++ o') (r ++ r')) {v : Val}
    (ha : After Γ (l.sub pre.length) t o r h.length v h1) (hi : ∀ R : Region, R.Inv h → R.W (l.sub pre.length) → R.Inv h1)
    {m : MRes Unit} {d : DRes (List Val)}
    (hm : ∀ u1 w', LoopPre Γ h1 l u1 (pre ++ [w']) ts ws ps o' r' →
      MSim (fun _ vs h2 => LoopPost Γ l u1 ts o' r' h1.length (pre ++ [w']) vs h2) m d)
    (hi2 : ∀ R : Region, R.Inv h1 → (∀ j, pre.length + 1 ≤ j → R.W (l.sub j)) → R.Inv m.2) :
    MSim (fun _ vs h2 => LoopPost Γ l u (t :: ts) (o ++ o') (r ++ r') h.length pre vs h2) m (d.map fun vs => v :: vs) := by
  obtain ⟨u1, w', hpre, hpost⟩ := LoopPre.next hrv hrl hl ha hi
  exact (hm u1 w' hpre).map fun n a vs _ hp => hpost vs m.2 hp hi2

end

end Amino
