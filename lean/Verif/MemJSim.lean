import Verif.MemJInv
import Verif.MemEncSim
import Verif.SpecMemJNew

/-!
# The JSON decoder on memory follows the decoder on trees, for variables without references
-/

namespace Amino
open Spec

/-! ## Frames -/

section
variable {Γ : Prog} {h h' : Mem} {N : Nat} (hF : ∀ a x b, N ≤ a → h[a]? = some x → MRefs x b → N ≤ b)
  (hc : ∀ a, N ≤ a → a < h.length → h'[a]? = h[a]?)
include hF hc

mutual
theorem unfolds_frame : ∀ {t : Ty} {w : MVal} {v : Val}, Unfolds Γ h t w v → (∀ a, MRefs w a → N ≤ a) → Unfolds Γ h' t w v
  | _, _, _, .prim hs, _ => .prim hs
  | _, _, _, .bytes hs he, _ => .bytes hs he
  | _, _, _, .nilPtr, _ => .nilPtr
  | _, _, _, .ptr (l := l) hg hu, hn => by
    have hl := hn _ .ptr
    have hlt := get_lt hg
    have hg' := hg
    rw [Mem.get, Option.bind_eq_some_iff] at hg'
    obtain ⟨x, hx, hp⟩ := hg'
    refine .ptr (w := _) ?_ (unfolds_frame hu fun a ha => hF _ x a hl hx (refs_part _ hp ha))
    rw [Mem.get, hc _ hl hlt]; exact hg
  | _, _, _, .nil hs, _ => .nil hs
  | _, _, _, .byteSlice hs he hx hl, hn =>
    .byteSlice hs he (by rw [hc _ (hn _ .slice) (List.getElem?_eq_some_iff.mp hx).1]; exact hx) hl
  | _, _, _, .slice hs he hx hl hu, hn =>
    .slice hs he (by rw [hc _ (hn _ .slice) (List.getElem?_eq_some_iff.mp hx).1]; exact hx) hl
      (unfoldsL_frame hu fun w hw a ha => hF _ _ a (hn _ .slice) hx (.arr (List.mem_of_mem_drop (List.mem_of_mem_take hw)) ha))
  | _, _, _, .arr hs he hu, hn => .arr hs he (unfoldsL_frame hu fun w hw a ha => hn a (.arr hw ha))
  | _, _, _, .struct hs hu, hn => .struct hs (unfoldsL_frame hu fun w hw a ha => hn a (.struct hw ha))
  | _, _, _, .iface hs hu, hn => .iface hs (unfolds_frame hu fun a ha => hn a (.iface ha))
  | _, _, _, .map hs hx hu, hn =>
    .map hs (by rw [hc _ (hn _ .map) (List.getElem?_eq_some_iff.mp hx).1]; exact hx)
      (unfoldsE_frame hu fun w hw a ha => hF _ _ a (hn _ .map) hx (.arr hw ha))
theorem unfoldsL_frame : ∀ {ts : List Ty} {ws : List MVal} {vs : List Val}, UnfoldsL Γ h ts ws vs →
    (∀ w ∈ ws, ∀ a, MRefs w a → N ≤ a) → UnfoldsL Γ h' ts ws vs
  | _, _, _, .nil, _ => .nil
  | _, _, _, .cons hu hl, hn =>
    .cons (unfolds_frame hu (hn _ (List.mem_cons_self ..))) (unfoldsL_frame hl fun w hw => hn w (List.mem_cons_of_mem _ hw))
theorem unfoldsE_frame : ∀ {e : Ty} {ws : List MVal} {kvs : List (Bytes × Val)}, UnfoldsE Γ h e ws kvs →
    (∀ w ∈ ws, ∀ a, MRefs w a → N ≤ a) → UnfoldsE Γ h' e ws kvs
  | _, _, _, .nil, _ => .nil
  | _, _, _, .cons hu hl, hn =>
    .cons (unfolds_frame hu (hn _ (List.mem_cons_of_mem _ (List.mem_cons_self ..))))
      (unfoldsE_frame hl fun w hw => hn w (List.mem_cons_of_mem _ (List.mem_cons_of_mem _ hw)))
end

end

section
variable {Γ : Prog} {h h' : Mem}

/-- Values without references do not depend on memory. -/
theorem unfolds_noRefs {t : Ty} {w : MVal} {v : Val} (hu : Unfolds Γ h t w v) (hn : NoRefs w) : Unfolds Γ h' t w v :=
  unfolds_frame (N := h.length) (fun _ _ _ ha hx => absurd (List.getElem?_eq_some_iff.mp hx).1 (Nat.not_lt.mpr ha))
    (fun _ ha hlt => absurd hlt (Nat.not_lt.mpr ha)) hu fun a ha => absurd ha (hn a)

theorem unfoldsL_noRefs {ts : List Ty} {ws : List MVal} {vs : List Val} (hu : UnfoldsL Γ h ts ws vs) (hn : ∀ w ∈ ws, NoRefs w) :
    UnfoldsL Γ h' ts ws vs :=
  unfoldsL_frame (N := h.length) (fun _ _ _ ha hx => absurd (List.getElem?_eq_some_iff.mp hx).1 (Nat.not_lt.mpr ha))
    (fun _ ha hlt => absurd hlt (Nat.not_lt.mpr ha)) hu fun w hw a ha => absurd ha (hn w hw a)

/-- Memory may grow. -/
theorem unfolds_ext {t : Ty} {w : MVal} {v : Val} (hu : Unfolds Γ h t w v) (hc : ∀ a, a < h.length → h'[a]? = h[a]?) :
    Unfolds Γ h' t w v :=
  unfolds_frame (N := 0) (fun _ _ _ _ _ _ => Nat.zero_le _) (fun a _ => hc a) hu fun _ _ => Nat.zero_le _

theorem unfoldsE_ext {t : Ty} {w : List MVal} {v : List (Bytes × Val)} (hu : UnfoldsE Γ h t w v) (hc : ∀ a, a < h.length → h'[a]? = h[a]?) :
    UnfoldsE Γ h' t w v :=
  unfoldsE_frame (N := 0) (fun _ _ _ _ _ _ => Nat.zero_le _) (fun a _ => hc a) hu fun _ _ _ _ => Nat.zero_le _

theorem unfolds_zero (hz : ZeroPlain Γ) (t : Ty) : Unfolds Γ h t (ofZero (Γ.zeroTy t)) (Γ.zeroTy t) := by
  cases t with
  | base id => exact holds_zero hz id
  | ptr t => exact .nilPtr

/-- The variable at `l` unfolds to `v`. -/
def Got (Γ : Prog) (l : Loc) (t : Ty) (v : Val) (h : Mem) : Prop := ∃ w, h.get l = some w ∧ Unfolds Γ h t w v

/-! ## Regions -/

/-- The locations `B` with their parts, and new memory; only new memory may be referred to. -/
def freshRegion (h : Mem) (B : Loc → Prop) : Region where
  h0 := h
  W m := (∃ l, B l ∧ Under l m) ∨ h.length ≤ m.addr
  F a := h.length ≤ a
  sub {m} i hw := by
    rcases hw with ⟨l, hb, h1, h2⟩ | hw
    · exact .inl ⟨l, hb, h1, h2.trans (List.prefix_append _ _)⟩
    · exact .inr hw
  freshW hf := .inr hf
  freshF hf := hf

variable {B : Loc → Prop}

theorem freshRegion_jinv (hB : ∀ l w, B l → h.get l = some w → NoRefs w) : (freshRegion h B).JInv h := by
  have key : ∀ {m : Loc} {v : MVal} {a : Nat}, (freshRegion h B).W m → h.get m = some v → ¬ MRefs v a := by
    intro m v a hw hg hr
    rcases hw with ⟨l, hb, hu⟩ | hf
    · obtain ⟨q, rfl⟩ := hu.eq
      rw [get_sub, Option.bind_eq_some_iff] at hg
      obtain ⟨w, hw, hg⟩ := hg
      exact hB l w hb hw a (refs_part _ hg hr)
    · exact absurd (get_lt hg) (Nat.not_lt.mpr hf)
  exact {
    inv := {
      len := Nat.le_refl _
      frame := fun _ => rfl
      ptr := fun hw hg => absurd .ptr (key hw hg)
      refW := fun hw hg hr => absurd hr (key hw hg)
      refF := fun ha hg _ => absurd (List.getElem?_eq_some_iff.mp hg).1 (Nat.not_lt.mpr ha) }
    sl := fun hw hg _ => absurd .slice (key hw hg) }

/-- A call that is given the locations `B`, whatever they hold, stays within any region that has them. -/
def Steps (B : Loc → Prop) (h h' : Mem) : Prop := ∀ R : Region, R.JInv h → (∀ l, B l → R.W l) → R.JInv h'

/-- What such a call has done, if there are no references in `B`. -/
theorem Steps.fresh (hs : Steps B h h') (hB : ∀ l w, B l → h.get l = some w → NoRefs w) : (freshRegion h B).Inv h' :=
  (hs _ (freshRegion_jinv hB) fun l hb => .inl ⟨l, hb, rfl, List.prefix_refl _⟩).inv

theorem Steps.one {l : Loc} {w : MVal} (hs : Steps (· = l) h h') (hg : h.get l = some w) (hn : NoRefs w) :
    (freshRegion h (· = l)).Inv h' :=
  hs.fresh fun m x hm hx => by subst hm; rw [hg] at hx; cases hx; exact hn

theorem fresh_cell (hi : (freshRegion h B).Inv h') {a : Nat} (ha : a < h.length) (hb : ∀ l, B l → l.addr ≠ a) : h'[a]? = h[a]? :=
  hi.cell fun q hw => by
    rcases hw with ⟨l, hl, hu⟩ | hf
    · exact hb l hl hu.1.symm
    · exact absurd ha (Nat.not_lt.mpr hf)

theorem fresh_get (hi : (freshRegion h B).Inv h') {l : Loc} (hb : ∀ m, B m → m.addr ≠ l.addr) (hl : l.addr < h.length) :
    h'.get l = h.get l := by
  rw [Mem.get, Mem.get, fresh_cell hi hl hb]

theorem fresh_refF (hi : (freshRegion h B).Inv h') : ∀ a x b, h.length ≤ a → h'[a]? = some x → MRefs x b → h.length ≤ b :=
  fun _ _ _ ha hx hr => hi.refF ha hx hr

theorem fresh_refs (hi : (freshRegion h B).Inv h') {l : Loc} (hb : B l) {w : MVal} (hg : h'.get l = some w) :
    ∀ a, MRefs w a → h.length ≤ a :=
  fun _ ha => hi.refW (.inl ⟨l, hb, rfl, List.prefix_refl _⟩) hg ha

theorem fresh_part (hi : (freshRegion h B).Inv h') : (partRegion h B []).Inv h' where
  len := hi.len
  frame {m} hn := hi.frame fun hw => hn (hw.elim .inl fun hf => .inr (.inr hf))
  ptr {m m'} hw hg := by
    have := hi.ptr (l := m) (by
      rcases hw with hw | hw | hw
      · exact .inl hw
      · cases hw
      · exact .inr hw) hg
    exact this.elim .inl fun hf => .inr (.inr hf)
  refW _ _ _ := trivial
  refF _ _ _ := trivial

/-- Setting a variable to a value made of other variables. -/
theorem got_put {N : Nat} {l : Loc} {t : Ty} {w x : MVal} {v : Val} (hg : h.get l = some x) (hl : l.addr < N)
    (hF : ∀ a x b, N ≤ a → h[a]? = some x → MRefs x b → N ≤ b) (hr : ∀ a, MRefs w a → N ≤ a) (hu : Unfolds Γ h t w v) :
    Got Γ l t v (h.put l w) :=
  ⟨w, get_put_self hg, unfolds_frame hF (fun a ha _ => by
    have := get_put_addr (h := h) (l := l) (m := ⟨a, []⟩) (w := w) (by simp only; omega)
    rwa [get_cell, get_cell] at this) hu hr⟩

theorem got_putNone {l : Loc} {t : Ty} {w x : MVal} {v : Val} (hg : h.get l = some x) (hn : NoRefs w) (hu : Unfolds Γ h t w v) :
    Got Γ l t v (h.put l w) := ⟨w, get_put_self hg, unfolds_noRefs hu hn⟩

end

theorem noRefs_zero (v : Val) : NoRefs (ofZero v) := fun a => zero_noRefs v a

theorem noRefs_nil : NoRefs .nil := fun a h => by cases h

theorem noRefs_prim (v : Val) : NoRefs (.prim v) := fun a h => by cases h

/-! ## Outcomes -/

/-- The outcomes agree, and on success the results and the memory are related. -/
def JSim {α β : Type} (P : α → β → Mem → Prop) (m : JMRes α) (d : Res β) : Prop :=
  match m.1, d with
  | .ok a, .ok b => P a b m.2
  | .err e, .err e' => e = e'
  | .panic p, .panic p' => p = p'
  | .oof, .oof => True
  | _, _ => False

section
variable {α β γ δ : Type} {P : α → β → Mem → Prop} {Q : γ → δ → Mem → Prop}

theorem JSim.andThen {m : JMRes α} {d : Res β} (h : JSim P m d) {k : α → Mem → JMRes γ} {k' : β → Res δ}
    (hk : ∀ a b, m.1 = .ok a → d = .ok b → P a b m.2 → JSim Q (k a m.2) (k' b)) : JSim Q (m.andThen k) (d.bind k') := by
  obtain ⟨m1, m2⟩ := m
  unfold JSim at h
  cases m1 <;> cases d <;> simp only at h <;> first | exact hk _ _ rfl rfl h | exact h

theorem JSim.mono {m : JMRes α} {d : Res β} (h : JSim P m d) {P' : α → β → Mem → Prop}
    (hp : ∀ a b, m.1 = .ok a → d = .ok b → P a b m.2 → P' a b m.2) : JSim P' m d := by
  obtain ⟨m1, m2⟩ := m
  unfold JSim at h ⊢
  cases m1 <;> cases d <;> simp only at h ⊢ <;> first | exact hp _ _ rfl rfl h | exact h

theorem JSim.bindOk {m : JMRes α} {d : Res β} {f : β → δ} {R : α → δ → Mem → Prop} (h : JSim (fun a b h => R a (f b) h) m d) :
    JSim R m (d.bind fun b => .ok (f b)) := by
  obtain ⟨m1, m2⟩ := m
  unfold JSim at h ⊢
  cases m1 <;> cases d <;> simp only [Res.bind] at h ⊢ <;> exact h

theorem JSim.infoThen {Γ : MProg} {c : Codec} {id : TId} {h : Mem} {k : JMRes α} {k' : Res β} (hk : JSim P k k') :
    JSim P (jInfoThen Γ c id h k) ((getInfo Γ.toProg c id).bind fun _ => k') := by
  unfold jInfoThen
  cases getInfo Γ.toProg c id <;> simp only [Res.bind]
  · exact hk
  · exact rfl
  · exact rfl
  · exact trivial

end

/-! ## The parts of a struct or array, one after the other -/

section
variable {Γ : Prog} {h h1 : Mem} {l : Loc} {u w : MVal} {pre ws : List MVal} {t : Ty} {ts : List Ty} {p v : Val} {ps : List Val}

/-- Before the parts behind `pre` are decoded. -/
structure JPre (Γ : Prog) (h : Mem) (l : Loc) (u : MVal) (pre : List MVal) (ts : List Ty) (ws : List MVal) (ps : List Val) : Prop where
  get : h.get l = some u
  parts : u.parts = pre ++ ws
  rep : UnfoldsL Γ h ts ws ps
  no : ∀ w ∈ ws, NoRefs w

/-- After they have been decoded. -/
def JPost (Γ : Prog) (l : Loc) (u : MVal) (pre : List MVal) (ts : List Ty) (vs : List Val) (h' : Mem) : Prop :=
  ∃ u' ws', h'.get l = some u' ∧ u'.shallow = u.shallow ∧ u'.parts = pre ++ ws' ∧ UnfoldsL Γ h' ts ws' vs

theorem JPre.first (hl : JPre Γ h l u pre (t :: ts) (w :: ws) (p :: ps)) :
    h.get (l.sub pre.length) = some w ∧ Unfolds Γ h t w p ∧ NoRefs w := by
  refine ⟨?_, by cases hl.rep; assumption, hl.no w (List.mem_cons_self ..)⟩
  rw [get_sub_i, hl.get]
  simp [hl.parts]

theorem JPre.next (hl : JPre Γ h l u pre (t :: ts) (w :: ws) (p :: ps)) (hs : Steps (· = l.sub pre.length) h h1)
    (hgot : Got Γ (l.sub pre.length) t v h1) :
    ∃ u1 w1, JPre Γ h1 l u1 (pre ++ [w1]) ts ws ps ∧ ∀ vs h2, JPost Γ l u1 (pre ++ [w1]) ts vs h2 →
      Steps (fun m => ∃ j, pre.length + 1 ≤ j ∧ m = l.sub j) h1 h2 → JPost Γ l u pre (t :: ts) (v :: vs) h2 := by
  obtain ⟨hg0, _, hn0⟩ := hl.first
  obtain ⟨w1, hg1, hu1⟩ := hgot
  have hi := hs.one hg0 hn0
  have hlt := get_lt hl.get
  obtain ⟨u1, hgu, hsh, hp1⟩ := parent_step (fresh_part hi) hl.get hl.parts (by simp) hg1
  have hrest : UnfoldsL Γ h1 ts ws ps := by
    cases hl.rep with
    | cons _ hr => exact unfoldsL_noRefs hr fun w hw => hl.no w (List.mem_cons_of_mem _ hw)
  have hno : ∀ w ∈ ws, NoRefs w := fun w hw => hl.no w (List.mem_cons_of_mem _ hw)
  refine ⟨u1, w1, ⟨hgu, by rw [hp1]; simp, hrest, hno⟩, ?_⟩
  rintro vs h2 ⟨u2, ws2, hg2, hs2, hp2, hr2⟩ hst
  have hi2 := hst.fresh (by
    rintro m x ⟨j, hj, rfl⟩ hx
    rw [get_sub_i, hgu, Option.bind_some, hp1, List.getElem?_append_right (by omega)] at hx
    obtain ⟨k, hk⟩ : ∃ k, j - pre.length = k + 1 := ⟨j - pre.length - 1, by omega⟩
    rw [hk, List.getElem?_cons_succ] at hx
    exact hno x (List.mem_of_getElem? hx))
  refine ⟨u2, w1 :: ws2, hg2, hs2.trans hsh, by rw [hp2]; simp, .cons ?_ hr2⟩
  refine unfolds_frame (fresh_refF hi) (fun a ha hlt1 => ?_) hu1 (fresh_refs hi rfl hg1)
  refine fresh_cell hi2 hlt1 ?_
  rintro m ⟨j, _, rfl⟩
  show l.addr ≠ a
  omega

/-- A part is left as it is. -/
theorem JPre.skip (hl : JPre Γ h l u pre (t :: ts) (w :: ws) (p :: ps)) :
    JPre Γ h l u (pre ++ [w]) ts ws ps ∧ ∀ vs h2, JPost Γ l u (pre ++ [w]) ts vs h2 → JPost Γ l u pre (t :: ts) (p :: vs) h2 := by
  cases hl.rep with
  | cons hw hr =>
    refine ⟨⟨hl.get, by rw [hl.parts]; simp, hr, fun w hw => hl.no w (List.mem_cons_of_mem _ hw)⟩, ?_⟩
    rintro vs h2 ⟨u2, ws2, hg2, hs2, hp2, hr2⟩
    exact ⟨u2, w :: ws2, hg2, hs2, by rw [hp2]; simp, .cons (unfolds_noRefs hw (hl.no w (List.mem_cons_self ..))) hr2⟩

end

/-! ## Byte slices -/

theorem bytesAt_put {h : Mem} {a : Nat} {x : MVal} {b : Bytes} (hx : h[a]? = some x) :
    bytesAt (h.put ⟨a, []⟩ (.prim (.bytes b))) a = b := by
  unfold bytesAt
  rw [← get_cell, get_put_self (v := x) (by rw [get_cell]; exact hx)]

theorem bytesAt_cell {h : Mem} {a : Nat} (hne : bytesAt h a ≠ []) : h[a]? = some (.prim (.bytes (bytesAt h a))) := by
  unfold bytesAt at hne ⊢
  split
  · assumption
  · rename_i hx
    split at hne
    · rename_i b hb; exact absurd hb (hx b)
    · exact absurd rfl hne

theorem set_zeros (d : Bytes) (k : Nat) (x : UInt8) :
    (d ++ List.replicate (k + 1) 0).set d.length x = (d ++ [x]) ++ List.replicate k 0 := by
  rw [List.set_append_right _ _ (Nat.le_refl _)]
  simp [List.replicate_succ]

theorem byteElem_some {e : Bytes} {y : Option UInt8} (h : byteElem e = some y) :
    (if e = jNull then some (((([] : Bytes).headD 0).toNat : Nat) : Int) else parseIntKind .uint8 e).map (fun i => UInt8.ofNat i.toNat) =
      some (y.getD 0) := by
  unfold byteElem at h
  split at h
  · cases h; rw [if_pos (by assumption)]; rfl
  · rw [if_neg (by assumption)]
    cases hp : parseIntKind .uint8 e with
    | none => rw [hp] at h; cases h
    | some i => rw [hp] at h; cases h; rfl

/-- A JSON array read into a nil byte slice, or further elements into the one begun. -/
theorem jByteElems_new (es : List Bytes) : ∀ (i a N : Nat) (h : Mem) (d : Bytes) (k : Nat), d.length = i →
    bytesAt h a = d ++ List.replicate k 0 → N ≤ a → N ≤ h.length →
    (∀ b, b < N → (jByteElems es i a 0 h).2.2[b]? = h[b]?) ∧ (jByteElems es i a 0 h).1.2 = 0 ∧ N ≤ (jByteElems es i a 0 h).1.1 ∧
    match unmByteElems [] es with
    | some bs => (jByteElems es i a 0 h).2.1 = true ∧ ∃ k', bytesAt (jByteElems es i a 0 h).2.2 (jByteElems es i a 0 h).1.1 = (d ++ bs) ++ List.replicate k' 0
    | none => (jByteElems es i a 0 h).2.1 = false := by
  induction es with
  | nil =>
    intro i a N h d k hi hb ha hN
    exact ⟨fun _ _ => rfl, rfl, ha, rfl, k, by simpa [jByteElems] using hb⟩
  | cons e es ih =>
    intro i a N h d k hi hb ha hN
    obtain ⟨ga, gh, hgrow, hga, hgN, hgb, k1, hgc⟩ : ∃ ga gh, (if i < (bytesAt h a).length - 0 then (a, 0, h)
        else (h.length, 0, h ++ [.prim (.bytes ((bytesAt h a).drop 0 ++
          List.replicate (max 4 ((bytesAt h a).length - 0 + ((bytesAt h a).length - 0) / 2) - ((bytesAt h a).length - 0)) 0))])) = (ga, 0, gh) ∧
        N ≤ ga ∧ N ≤ gh.length ∧ (∀ b, b < N → gh[b]? = h[b]?) ∧
        ∃ k1, gh[ga]? = some (.prim (.bytes (d ++ List.replicate (k1 + 1) 0))) := by
      split
      · rename_i hlt
        rw [hb] at hlt
        simp only [List.length_append, List.length_replicate] at hlt
        refine ⟨a, h, rfl, ha, hN, fun _ _ => rfl, k - 1, ?_⟩
        have hne : bytesAt h a ≠ [] := by
          rw [hb]; intro h0
          have := congrArg List.length h0
          simp only [List.length_append, List.length_replicate, List.length_nil] at this
          omega
        rw [bytesAt_cell hne, hb, show k - 1 + 1 = k by omega]
      · rename_i hlt
        rw [hb] at hlt
        simp only [List.length_append, List.length_replicate] at hlt
        have hk : k = 0 := by omega
        subst hk
        refine ⟨h.length, _, rfl, hN, by simp only [List.length_append, List.length_singleton]; omega, fun b hb => ?_,
          max 4 (i + i / 2) - i - 1, ?_⟩
        · rw [List.getElem?_append_left (by omega)]
        · rw [List.getElem?_concat_length, hb]
          simp only [List.replicate_zero, List.append_nil, List.drop_zero, Nat.sub_zero, hi]
          rw [show max 4 (i + i / 2) - i - 1 + 1 = max 4 (i + i / 2) - i by omega]
    unfold jByteElems
    simp only
    rw [hgrow]
    simp only
    have hgba : bytesAt gh ga = d ++ List.replicate (k1 + 1) 0 := by unfold bytesAt; rw [hgc]
    rw [hgba]
    have hput : ∀ x : MVal, ∀ b, b < N → (gh.put ⟨ga, []⟩ x)[b]? = h[b]? := by
      intro x b hb
      rw [← get_cell, get_put_addr (by simp only; omega), get_cell]
      exact hgb b hb
    rw [unmByteElems]
    cases hbe : byteElem e with
    | none =>
      simp only
      have hnone : (if e = jNull then some (((([] : Bytes).headD 0).toNat : Nat) : Int) else parseIntKind .uint8 e) = none := by
        unfold byteElem at hbe
        split at hbe
        · cases hbe
        · rw [if_neg (by assumption)]
          simpa using hbe
      rw [hnone]
      have hcase : ∃ d' k', d'.length = i + 1 ∧ bytesAt gh ga = d' ++ List.replicate k' 0 := ⟨d ++ [0], k1, by simp [hi], by
        rw [hgba]; simp [List.replicate_succ]⟩
      obtain ⟨d', k', hd', hb'⟩ := hcase
      obtain ⟨q1, q2, q3, _⟩ := ih (i + 1) ga N gh d' k' hd' hb' hga hgN
      exact ⟨fun b hb => by rw [q1 b hb, hgb b hb], q2, q3, rfl⟩
    | some y =>
      have hval := byteElem_some hbe
      have finish : ∀ hm : Mem, bytesAt hm ga = (d ++ [y.getD 0]) ++ List.replicate k1 0 → N ≤ hm.length → (∀ b, b < N → hm[b]? = h[b]?) →
          (∀ b, b < N → (jByteElems es (i + 1) ga 0 hm).2.2[b]? = h[b]?) ∧ (jByteElems es (i + 1) ga 0 hm).1.2 = 0 ∧
          N ≤ (jByteElems es (i + 1) ga 0 hm).1.1 ∧
          match (if e = jNull then some (((([] : Bytes).headD 0).toNat : Nat) : Int) else parseIntKind .uint8 e).bind fun i =>
              (unmByteElems ([] : Bytes).tail es).map fun bs => UInt8.ofNat i.toNat :: bs with
          | some bs => ((some y).isSome && (jByteElems es (i + 1) ga 0 hm).2.1) = true ∧
              ∃ k', bytesAt (jByteElems es (i + 1) ga 0 hm).2.2 (jByteElems es (i + 1) ga 0 hm).1.1 = (d ++ bs) ++ List.replicate k' 0
          | none => ((some y).isSome && (jByteElems es (i + 1) ga 0 hm).2.1) = false := by
        intro hm hm1 hm2 hm3
        obtain ⟨q1, q2, q3, q4⟩ := ih (i + 1) ga N hm (d ++ [y.getD 0]) k1 (by simp [hi]) hm1 hga hm2
        refine ⟨fun b hb => by rw [q1 b hb, hm3 b hb], q2, q3, ?_⟩
        obtain ⟨i0, hi0, hi1⟩ := Option.map_eq_some_iff.mp hval
        rw [hi0]
        simp only [Option.bind_some, List.tail_nil]
        cases hun : unmByteElems [] es with
        | none =>
          rw [hun] at q4
          simp only [Option.map_none] at q4 ⊢
          simp [q4]
        | some bs =>
          rw [hun] at q4
          simp only [Option.map_some] at q4 ⊢
          obtain ⟨q4, k', q5⟩ := q4
          refine ⟨by simp [q4], k', ?_⟩
          rw [q5, hi1]
          simp
      cases y with
      | none => exact finish gh (by rw [hgba]; simp [List.replicate_succ]) hgN hgb
      | some x =>
        refine finish _ ?_ (by rw [length_put]; exact hgN) (hput _)
        rw [bytesAt_put hgc, Nat.zero_add, ← hi, set_zeros]
        rfl

end Amino
