import Verif.TogLemmas

/-! # Calls in pieces and calls in one go -/

namespace Amino
open Spec

variable {Γ : Prog} {H : Bytes → Bytes} {P : Codec → Prop} {ρ ρ' α β : Type}

/-- Outcomes that are no failures. -/
class Outcome (ρ : Type) where
  good : ρ → Prop

instance : Outcome (Res α) := ⟨fun r => ∃ a, r = .ok a⟩
instance : Outcome (DRes α) := ⟨fun r => ∃ n a, r = .ok n a⟩

open Outcome

/-- The same registrations. -/
structure Codec.Same (c c' : Codec) : Prop where
  ifaces : c'.ifaces = c.ifaces
  concs : c'.concs = c.concs
  byDisfix : c'.byDisfix = c.byDisfix
  byName : c'.byName = c.byName

theorem Codec.Same.refl (c : Codec) : c.Same c := ⟨rfl, rfl, rfl, rfl⟩
theorem Codec.Same.trans {a b c : Codec} (h : a.Same b) (h' : b.Same c) : a.Same c :=
  ⟨h'.1.trans h.1, h'.2.trans h.2, h'.3.trans h.3, h'.4.trans h.4⟩
theorem Codec.Same.symm {a b : Codec} (h : a.Same b) : b.Same a := ⟨h.1.symm, h.2.symm, h.3.symm, h.4.symm⟩
theorem Codec.Same.iface {a b : Codec} (h : a.Same b) (id : TId) : b.iface? id = a.iface? id := by
  unfold Codec.iface?; rw [h.1]
theorem Codec.Same.conc {a b : Codec} (h : a.Same b) (id : TId) : b.conc? id = a.conc? id := by
  unfold Codec.conc?; rw [h.2]
theorem Codec.Same.disfix {a b : Codec} (h : a.Same b) (d : Bytes) : b.disfix? d = a.disfix? d := by
  unfold Codec.disfix?; rw [h.3]
theorem Codec.Same.name {a b : Codec} (h : a.Same b) (d : Bytes) : b.name? d = a.name? d := by
  unfold Codec.name?; rw [h.4]
theorem Codec.Same.info {a b : Codec} (h : a.Same b) (id : TId) : getInfo Γ b id = getInfo Γ a id := by
  unfold getInfo; rw [h.iface]
theorem Codec.Same.lookup {a b : Codec} (h : a.Same b) (ii : IfaceInfo) (dp : Option Bytes × Bytes) :
    lookupConc b ii dp = lookupConc a ii dp := by
  unfold lookupConc; simp only [h.disfix]

/-- `m` in pieces, while others register, does what `f` does in one go, on codecs with `P`: its outcome is that of `f` on
the codec at the end; an outcome without failure is that of `f` on every later codec; and if nobody else does anything, the
outcome is that of `f` on the codec at the beginning. -/
structure Run.Lin (Γ : Prog) (H : Bytes → Bytes) (P : Codec → Prop) [Outcome ρ] (m : Run ρ) (f : Codec → ρ) : Prop where
  later : ∀ s : Sim, ({} : Codec).Later Γ H s.c → s.c.Later Γ H (m s).2.c
  exact : ∀ s : Sim, ({} : Codec).Later Γ H s.c → P (m s).2.c → f (m s).2.c = (m s).1
  final : ∀ s : Sim, ({} : Codec).Later Γ H s.c → good (m s).1 → ∀ c, (m s).2.c.Later Γ H c → P c → f c = (m s).1
  alone : ∀ s : Sim, s.todo = [] →
    (m s).2.todo = [] ∧ s.c.Same (m s).2.c ∧ ∀ c, s.c.Same c → f c = (m s).1

namespace Run.Lin

theorem pure [Outcome ρ] {r : ρ} : (Run.pure r).Lin Γ H P fun _ => r :=
  ⟨fun _ _ => .refl _, fun _ _ _ => rfl, fun _ _ _ _ _ _ => rfl, fun _ h => ⟨h, .refl _, fun _ _ => rfl⟩⟩

theorem bind [Outcome ρ] [Outcome ρ'] {m : Run ρ} {k : ρ → Run ρ'} {f : Codec → ρ} {g : ρ → Codec → ρ'}
    (hm : m.Lin Γ H P f) (hk : ∀ r, (k r).Lin Γ H P (g r))
    (hbad : ∀ r s, ¬ good r → (k r s).2 = s ∧ ¬ good (k r s).1) :
    (m.bind k).Lin Γ H P fun c => g (f c) c := by
  refine ⟨fun s h => ?_, fun s h hc => ?_, fun s h hg c hl hc => ?_, fun s h => ?_⟩
  · have h1 := hm.later s h
    exact h1.trans ((hk _).later _ (h.trans h1))
  · have h1 := hm.later s h
    have h2 := (hk (m s).1).later (m s).2 (h.trans h1)
    have e2 := (hk (m s).1).exact (m s).2 (h.trans h1) hc
    show g (f (k (m s).1 (m s).2).2.c) _ = _
    by_cases hg : good (m s).1
    · rw [hm.final s h hg _ h2 hc]; exact e2
    · have e0 := (hbad _ (m s).2 hg).1
      have hc' : P (m s).2.c := by rw [← e0]; exact hc
      have e1 := hm.exact s h hc'
      have : f (k (m s).1 (m s).2).2.c = (m s).1 := by rw [e0]; exact e1
      rw [this]; exact e2
  · have h1 := hm.later s h
    have h2 := (hk (m s).1).later (m s).2 (h.trans h1)
    have hg1 : good (m s).1 := by
      by_cases hh : good (m s).1
      · exact hh
      · exact absurd hg (hbad _ _ hh).2
    have e1 := hm.final s h hg1 c (h2.trans hl) hc
    have e2 := (hk (m s).1).final (m s).2 (h.trans h1) hg c hl hc
    show g (f c) c = _
    rw [e1]; exact e2
  · obtain ⟨a, b, d⟩ := hm.alone s h
    obtain ⟨a', b', d'⟩ := (hk (m s).1).alone (m s).2 a
    refine ⟨a', b.trans b', fun c hc => ?_⟩
    show g (f c) c = _
    rw [d c hc]
    exact d' c (b.symm.trans hc)

theorem congr [Outcome ρ] {m : Run ρ} {f f' : Codec → ρ} (h : m.Lin Γ H P f) (he : ∀ c, f' c = f c) : m.Lin Γ H P f' := by
  have : f' = f := funext he
  rw [this]; exact h

theorem ite [Outcome ρ] {m m' : Run ρ} {f f' : Codec → ρ} {p : Prop} [Decidable p] (h : m.Lin Γ H P f)
    (h' : m'.Lin Γ H P f') : (if p then m else m').Lin Γ H P fun c => if p then f c else f' c := by
  split <;> assumption

theorem andThen {m : Run (Res α)} {k : α → Run (Res β)} {f : Codec → Res α} {g : α → Codec → Res β}
    (hm : m.Lin Γ H P f) (hk : ∀ a, (k a).Lin Γ H P (g a)) : (m.andThen k).Lin Γ H P fun c => (f c).bind fun a => g a c := by
  have := hm.bind (k := fun
    | .ok a => k a
    | .err e => .pure (.err e)
    | .panic p => .pure (.panic p)
    | .oof => .pure .oof) (g := fun r c => r.bind fun a => g a c) (by
      intro r
      cases r with
      | ok a => exact hk a
      | err e => exact .pure
      | panic p => exact .pure
      | oof => exact .pure) (by
      intro r s hr
      cases r with
      | ok a => exact absurd ⟨a, rfl⟩ hr
      | err e => exact ⟨rfl, fun ⟨_, h⟩ => by cases h⟩
      | panic p => exact ⟨rfl, fun ⟨_, h⟩ => by cases h⟩
      | oof => exact ⟨rfl, fun ⟨_, h⟩ => by cases h⟩)
  exact this

theorem andSlide {m : Run (DRes α)} {bz : Bytes} {n : Nat} {k : α → Bytes → Nat → Run (DRes β)} {f : Codec → DRes α}
    {g : α → Bytes → Nat → Codec → DRes β} (hm : m.Lin Γ H P f) (hk : ∀ a bz n, (k a bz n).Lin Γ H P (g a bz n)) :
    (m.andSlide bz n k).Lin Γ H P fun c => (f c).andSlide bz n fun a bz n => g a bz n c := by
  have := hm.bind (k := fun
    | .ok m a => if m ≤ bz.length then k a (bz.drop m) (n + m) else .pure (.panic .slide)
    | .err m e => if m ≤ bz.length then .pure (.err (n + m) e) else .pure (.panic .slide)
    | .panic p => .pure (.panic p)
    | .oof => .pure .oof) (g := fun r c => r.andSlide bz n fun a bz n => g a bz n c) (by
      intro r
      cases r with
      | ok m a =>
        by_cases h : m ≤ bz.length
        · simp only [DRes.andSlide, h, if_true]; exact hk _ _ _
        · simp only [DRes.andSlide, h, if_false]; exact .pure
      | err m e =>
        by_cases h : m ≤ bz.length
        · simp only [DRes.andSlide, h, if_true]; exact .pure
        · simp only [DRes.andSlide, h, if_false]; exact .pure
      | panic p => exact .pure
      | oof => exact .pure) (by
      intro r s hr
      cases r with
      | ok m a => exact absurd ⟨m, a, rfl⟩ hr
      | err m e =>
        by_cases h : m ≤ bz.length
        · simp only [h, if_true]; exact ⟨rfl, fun ⟨_, _, h⟩ => by cases h⟩
        · simp only [h, if_false]; exact ⟨rfl, fun ⟨_, _, h⟩ => by cases h⟩
      | panic p => exact ⟨rfl, fun ⟨_, _, h⟩ => by cases h⟩
      | oof => exact ⟨rfl, fun ⟨_, _, h⟩ => by cases h⟩)
  exact this

theorem map {m : Run (DRes α)} {f : Codec → DRes α} {g : α → β} (hm : m.Lin Γ H P f) :
    (m.map g).Lin Γ H P fun c => (f c).map g := by
  have := hm.bind (k := fun r => .pure (r.map g)) (g := fun r _ => r.map g) (fun _ => .pure) (by
    intro r s hr
    cases r with
    | ok m a => exact absurd ⟨m, a, rfl⟩ hr
    | err m e => exact ⟨rfl, fun ⟨_, _, h⟩ => by cases h⟩
    | panic p => exact ⟨rfl, fun ⟨_, _, h⟩ => by cases h⟩
    | oof => exact ⟨rfl, fun ⟨_, _, h⟩ => by cases h⟩)
  exact this

/-- A function that only passes a good outcome on. -/
theorem after [Outcome ρ] [Outcome ρ'] {m : Run ρ} {f : Codec → ρ} {g : ρ → ρ'} (hm : m.Lin Γ H P f)
    (hbad : ∀ r, ¬ good r → ¬ good (g r)) : (m.bind fun r => .pure (g r)).Lin Γ H P fun c => g (f c) :=
  hm.bind (k := fun r => .pure (g r)) (g := fun r _ => g r) (fun _ => .pure) fun r _ hr => ⟨rfl, hbad r hr⟩

theorem slideThen {m : Nat} {bz : Bytes} {n : Nat} {k : Bytes → Nat → Run (DRes α)} {g : Bytes → Nat → Codec → DRes α}
    (hk : ∀ bz n, (k bz n).Lin Γ H P (g bz n)) :
    (slideThenS m bz n k).Lin Γ H P fun c => Amino.slideThen m bz n fun bz n => g bz n c := by
  unfold slideThenS Amino.slideThen
  exact .ite (hk _ _) .pure

theorem unframe {bare : Bool} {bz : Bytes} {k : Bytes → Nat → Run (DRes α)} {g : Bytes → Nat → Codec → DRes α}
    (hk : ∀ bz n, (k bz n).Lin Γ H P (g bz n)) :
    (unframeS bare bz k).Lin Γ H P fun c => Amino.unframe bare bz fun bz n => g bz n c := by
  unfold unframeS Amino.unframe
  refine .ite (hk _ _) ?_
  generalize decodeByteSlice bz = r
  cases r with
  | ok m b => exact .ite (hk _ _) .pure
  | err m e => exact .ite .pure .pure
  | panic p => exact .pure
  | oof => exact .pure

/-! ## Look-ups -/

theorem next_nil {s : Sim} (h : s.todo = []) : s.next Γ H = s := by unfold Sim.next; rw [h]

theorem use_known {c : Codec} {id : TId} (h : getInfo Γ c id = .ok ()) :
    useType Γ c id = ((useType Γ c id).1, none) ∧ ((useType Γ c id).1.known id = true) ∧
    c.Same (useType Γ c id).1 := by
  unfold useType
  split
  · rename_i hk
    refine ⟨rfl, ?_, .refl _⟩
    rcases Bool.or_eq_true _ _ ▸ hk with hk | hk
    · exact hk
    · unfold Prog.isIface at hk
      unfold getInfo at h
      split at h
      · split at h
        · rename_i hi
          simp [Codec.known, hi]
        · cases h
      · rename_i he; simp [he] at hk
      · rename_i he _; simp at hk
  · rw [h]
    refine ⟨rfl, ?_, ⟨rfl, rfl, rfl, rfl⟩⟩
    simp [Codec.known]

theorem info_later {c c' : Codec} {id : TId} (h0 : ({} : Codec).Later Γ H c) (h : c.Later Γ H c')
    (hi : getInfo Γ c id = .ok ()) : getInfo Γ c' id = .ok () := by
  unfold getInfo at hi ⊢
  split
  · rename_i hs
    simp only [hs] at hi
    split at hi
    · rename_i hh; rw [if_pos ((later_mono h0 h).2.2 id hh)]
    · cases hi
  · rename_i hs; simp only [hs] at hi; exact hi
  · rfl

theorem look (id : TId) :
    (lookInfo Γ H id).Lin Γ H P fun c => (getInfo Γ c id).bind fun _ => .ok (c.conc? id) := by
  refine ⟨fun s h => ?_, fun s h hc => ?_, fun s h hg c hl hc => ?_, fun s h => ?_⟩
  · have h1 := Codec.Later.next (Γ := Γ) (H := H) s
    unfold lookInfo
    cases hi : getInfo Γ (s.next Γ H).c id with
    | ok u =>
      simp only [hi]
      refine h1.trans ⟨[.use id], ?_⟩
      rw [Codec.run, Codec.step, (use_known hi).1]
      rfl
    | err e => simpa only [hi] using h1
    | panic e => simpa only [hi] using h1
    | oof => simpa only [hi] using h1
  · unfold lookInfo
    cases hi : getInfo Γ (s.next Γ H).c id with
    | ok u =>
      simp only [hi]
      obtain ⟨_, _, hs⟩ := use_known hi
      rw [hs.info, hi, hs.conc]; rfl
    | err e => simp only [hi]; rfl
    | panic e => simp only [hi]; rfl
    | oof => simp only [hi]; rfl
  · have h1 := Codec.Later.next (Γ := Γ) (H := H) s
    unfold lookInfo at hg hl ⊢
    cases hi : getInfo Γ (s.next Γ H).c id with
    | ok u =>
      simp only [hi] at hl ⊢
      obtain ⟨_, hk, hs⟩ := use_known hi
      have hu : (s.next Γ H).c.Later Γ H (useType Γ (s.next Γ H).c id).1 :=
        ⟨[.use id], by rw [Codec.run, Codec.step, (use_known hi).1]; rfl⟩
      rw [info_later (h.trans h1) (hu.trans hl) hi, Res.bind_ok, (later_known hl hk).2, hs.conc]
    | err e => simp only [hi] at hg; obtain ⟨_, h⟩ := hg; cases h
    | panic e => simp only [hi] at hg; obtain ⟨_, h⟩ := hg; cases h
    | oof => simp only [hi] at hg; obtain ⟨_, h⟩ := hg; cases h
  · unfold lookInfo
    rw [next_nil h]
    cases hi : getInfo Γ s.c id with
    | ok u =>
      simp only [hi]
      exact ⟨h, (use_known hi).2.2, fun c hc => by rw [hc.info, hi, hc.conc]; rfl⟩
    | err e => simp only [hi]; exact ⟨h, .refl _, fun c hc => by rw [hc.info, hi]; rfl⟩
    | panic e => simp only [hi]; exact ⟨h, .refl _, fun c hc => by rw [hc.info, hi]; rfl⟩
    | oof => simp only [hi]; exact ⟨h, .refl _, fun c hc => by rw [hc.info, hi]; rfl⟩

/-- A look-up whose answer is used. -/
theorem infoConc {id : TId} {k : Option ConcInfo → Run (Res β)} {g : Option ConcInfo → Codec → Res β}
    (hk : ∀ oc, (k oc).Lin Γ H P (g oc)) :
    ((lookInfo Γ H id).andThen k).Lin Γ H P fun c => (getInfo Γ c id).bind fun _ => g (c.conc? id) c :=
  ((look id).andThen hk).congr fun c => by cases getInfo Γ c id <;> rfl

/-- A look-up of which only the failure matters. -/
theorem info {id : TId} {k : Run (Res β)} {g : Codec → Res β} (hk : k.Lin Γ H P g) :
    ((lookInfo Γ H id).andThen fun _ => k).Lin Γ H P fun c => (getInfo Γ c id).bind fun _ => g c :=
  infoConc (g := fun _ c => g c) fun _ => hk

theorem infoThen {id : TId} {n : Nat} {k : Run (DRes β)} {g : Codec → DRes β} (hk : k.Lin Γ H P g) :
    (infoThenS Γ H id n k).Lin Γ H P fun c => Amino.infoThen Γ c id n (g c) := by
  have := (look (Γ := Γ) (H := H) id).bind (k := fun
    | .ok _ => k
    | .err e => .pure (.err n e)
    | .panic p => .pure (.panic p)
    | .oof => .pure .oof) (g := fun r c => match r with
      | .ok _ => g c
      | .err e => .err n e
      | .panic p => .panic p
      | .oof => .oof) (by
      intro r
      cases r with
      | ok a => exact hk
      | err e => exact .pure
      | panic p => exact .pure
      | oof => exact .pure) (by
      intro r s hr
      cases r with
      | ok a => exact absurd ⟨a, rfl⟩ hr
      | err e => exact ⟨rfl, fun ⟨_, _, h⟩ => by cases h⟩
      | panic p => exact ⟨rfl, fun ⟨_, _, h⟩ => by cases h⟩
      | oof => exact ⟨rfl, fun ⟨_, _, h⟩ => by cases h⟩)
  refine this.congr fun c => ?_
  unfold Amino.infoThen
  cases getInfo Γ c id <;> rfl

/-- A look-up that only reads. -/
theorem read [Outcome ρ] {q : Codec → ρ}
    (hq : ∀ c c', ({} : Codec).Later Γ H c → c.Later Γ H c' → P c' → good (q c) → q c' = q c)
    (hs : ∀ c c', Codec.Same c c' → q c' = q c) :
    Run.Lin Γ H P (fun s => (q (s.next Γ H).c, s.next Γ H)) q := by
  refine ⟨fun s _ => .next s, fun _ _ _ => rfl, fun s h hg c hl hc => ?_, fun s h => ?_⟩
  · exact hq _ _ (h.trans (.next s)) hl hc hg
  · dsimp only
    rw [next_nil h]
    exact ⟨h, .refl _, fun c hc => hs _ _ hc⟩

def ifaceQ (id : TId) (c : Codec) : Res Unit := if (c.iface? id).isSome then .ok () else .err .unregisteredIface
def manyQ (id : TId) (p : Bytes) (c : Codec) : Res Bool :=
  match c.iface? id with
  | none => .err .unregisteredIface
  | some ii => .ok (ii.always || (ii.withPrefix p).length > 1)
def concQ (id : TId) (dp : Option Bytes × Bytes) (c : Codec) : Res ConcInfo :=
  match c.iface? id with
  | none => .err .unregisteredIface
  | some ii => match lookupConc c ii dp with
    | .ok ci => .ok ci
    | .error e => .err e
def nameQ (n : Bytes) (c : Codec) : Res ConcInfo :=
  match c.name? n with
  | none => .err .unknownName
  | some ci => .ok ci

theorem iface (id : TId) : (lookIface Γ H id).Lin Γ H P (ifaceQ id) :=
  read (q := ifaceQ id) (fun c c' h0 h hc hg => by
    unfold ifaceQ at hg ⊢
    split at hg
    · rename_i hi
      rw [if_pos hi, if_pos ((later_mono h0 h).2.2 id hi)]
    · obtain ⟨_, h⟩ := hg; cases h) fun c c' hs => by unfold ifaceQ; rw [hs.iface]

theorem many (id : TId) (p : Bytes) : (lookMany Γ H id p).Lin Γ H Codec.Clear (manyQ id p) :=
  read (q := manyQ id p) (fun c c' h0 h hc hg => by
    unfold manyQ at hg ⊢
    rcases (later_agree h0 h hc).iface id with ⟨hn, _⟩ | ⟨ii, ii', hi, hi', ha, _⟩
    · simp only [hn] at hg; obtain ⟨_, h⟩ := hg; cases h
    · simp only [hi, hi', ha]
      rw [decide_eq_false (clear_withPrefix (h0.trans h) hc hi' p),
        decide_eq_false (clear_withPrefix h0 (hc.before h0 h) hi p)]) fun c c' hs => by unfold manyQ; rw [hs.iface]

theorem conc (id : TId) (dp : Option Bytes × Bytes) : (lookConc Γ H id dp).Lin Γ H Codec.Clear (concQ id dp) :=
  read (q := concQ id dp) (fun c c' h0 h hc hg => by
    unfold concQ at hg ⊢
    rcases (later_agree h0 h hc).iface id with ⟨hn, _⟩ | ⟨ii, ii', hi, hi', _, _, hl⟩
    · simp only [hn] at hg; obtain ⟨_, h⟩ := hg; cases h
    · simp only [hi] at hg
      simp only [hi, hi']
      rcases hl dp with hl | hl
      · cases hx : lookupConc c ii dp with
        | ok ci => exact absurd hx (hl.2 ci)
        | error e => simp only [hx] at hg; obtain ⟨_, h⟩ := hg; cases h
      · rw [hl]) fun c c' hs => by unfold concQ; simp only [hs.iface, hs.lookup]

theorem name (n : Bytes) : (lookName Γ H n).Lin Γ H P (nameQ n) :=
  read (q := nameQ n) (fun c c' h0 h hc hg => by
    unfold nameQ at hg ⊢
    cases hn : c.name? n with
    | none => simp only [hn] at hg; obtain ⟨_, h⟩ := hg; cases h
    | some ci => rw [(later_mono h0 h).2.1 n ci hn]) fun c c' hs => by unfold nameQ; rw [hs.name]

end Run.Lin

end Amino
