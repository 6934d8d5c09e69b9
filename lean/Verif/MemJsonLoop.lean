import Verif.MemJsonSim
import Verif.MemEncLoop

/-!
# Values that go on for ever are never written as JSON
-/

namespace Amino
open Spec

section
variable {Γ : EProg} {c : Codec} {J : EJLib} {rec : Mem → Bool → Ty → MVal → FOpts → Res Bytes} {h : Mem}

theorem eqZeros_get : ∀ {ws : List MVal} {zs : List Val} {i : Nat} {w : MVal}, MVal.eqZeros ws zs = true → ws[i]? = some w →
    ∃ z ∈ zs, w.eqZero z = true
  | [], _, _, _, _, hw => by simp at hw
  | _ :: _, [], _, _, he, _ => by simp [MVal.eqZeros] at he
  | u :: ws, z :: zs, i, w, he, hw => by
    rw [MVal.eqZeros, Bool.and_eq_true] at he
    cases i with
    | zero =>
      simp only [List.getElem?_cons_zero, Option.some.injEq] at hw
      exact ⟨z, List.mem_cons_self .., hw ▸ he.1⟩
    | succ i =>
      obtain ⟨z', hm, h'⟩ := eqZeros_get he.2 hw
      exact ⟨z', List.mem_cons_of_mem _ hm, h'⟩

/-- A part of a zero value is a zero value, and smaller. -/
theorem part_of_zero {x y : TId × MVal} {z : Val} (hz : x.2.eqZero z = true) (hp : JPartOf Γ.toProg J h x y) :
    ∃ z', y.2.eqZero z' = true ∧ sizeOf z' < sizeOf z := by
  have key : ∀ {ws : List MVal} {zs : List Val} {i : Nat} {w x : MVal} {t : Ty}, MVal.eqZeros ws zs = true → ws[i]? = some w →
      Leads h t w x → ∃ z ∈ zs, x.eqZero z = true := by
    intro ws zs i w x t he hw hl
    obtain ⟨z, hm, h1⟩ := eqZeros_get he hw
    cases hl with
    | base => exact ⟨z, hm, h1⟩
    | ptr => simp [MVal.eqZero] at h1
  cases hp with
  | field _ _ _ hw _ hl =>
    cases z <;> simp only [MVal.eqZero] at hz <;> try (cases hz; done)
    obtain ⟨z, hm, h1⟩ := key hz hw hl
    have := List.sizeOf_lt_of_mem hm
    exact ⟨z, h1, by simp only [Val.struct.sizeOf_spec]; omega⟩
  | arr _ _ hw hl =>
    cases z <;> simp only [MVal.eqZero] at hz <;> try (cases hz; done)
    obtain ⟨i, hw⟩ := List.mem_iff_getElem?.mp hw
    obtain ⟨z, hm, h1⟩ := key hz hw hl
    have := List.sizeOf_lt_of_mem hm
    exact ⟨z, h1, by simp only [Val.list.sizeOf_spec]; omega⟩
  | slice => simp [MVal.eqZero] at hz
  | map => simp [MVal.eqZero] at hz
  | iface => simp [MVal.eqZero] at hz

/-- A zero value is not endless. -/
theorem zero_ends : ∀ (n : Nat) (z : Val) (s : Nat → TId × MVal), sizeOf z ≤ n → (∀ k, JPartOf Γ.toProg J h (s k) (s (k + 1))) →
    (s 0).2.eqZero z = false := by
  intro n
  induction n with
  | zero => intro z s hz; cases z <;> simp at hz
  | succ n ih =>
    intro z s hz hs
    cases he : (s 0).2.eqZero z with
    | false => rfl
    | true =>
      obtain ⟨z', h1, h2⟩ := part_of_zero he (hs 0)
      have h3 := ih z' (fun k => s (k + 1)) (by omega) fun k => hs (k + 1)
      rw [h3] at h1
      cases h1

/-- An endless value is not left out. -/
theorem endless_notEmpty {t : Ty} {w : MVal} {s : Nat → TId × MVal} (hl : Leads h t w (s 0).2) (ht : t.deref = (s 0).1)
    (hs : ∀ k, JPartOf Γ.toProg J h (s k) (s (k + 1))) : jsonEmptyM Γ.toProg h t w = false := by
  unfold jsonEmptyM
  rw [derefM_leads hl]
  dsimp only
  rw [zero_ends _ (Γ.zeroTy t) s (Nat.le_refl _) hs, Bool.and_false, Bool.false_or, ht]
  have hp := hs 0
  cases h0 : s 0 with
  | mk id v =>
    rw [h0] at hp
    generalize s (0 + 1) = y at hp
    cases hp with
    | field _ hs => simp only [hs]
    | slice _ hs _ hm =>
      simp only [hs]
      rw [beq_eq_false_iff_ne]
      intro h0
      rw [h0] at hm
      simp at hm
    | arr _ hs hm =>
      simp only [hs]
      rw [List.isEmpty_eq_false_iff]
      exact List.ne_nil_of_mem hm
    | map _ hs => simp only [hs]
    | iface _ hs => simp only [hs]

theorem jelemsM_ok {addr : Bool} {e : Ty} {fo : FOpts} {w : MVal} : ∀ {ws : List MVal} {bs : List Bytes}, w ∈ ws →
    jencElemsM rec h addr e fo ws = .ok bs → ∃ b, rec h addr e w fo = .ok b
  | u :: ws, bz, hm, hk => by
    rw [jencElemsM] at hk
    obtain ⟨b, h1, hk⟩ := Res.bind_eq_ok hk
    obtain ⟨bs, h2, _⟩ := Res.bind_eq_ok hk
    rw [List.mem_cons] at hm
    rcases hm with rfl | hm
    · exact ⟨_, h1⟩
    · exact jelemsM_ok hm h2

theorem jlistM_ok {addr : Bool} {e : Ty} {fo : FOpts} {w : MVal} {ws : List MVal} {bz : Bytes} (hm : w ∈ ws)
    (hk : jencListM Γ c rec h addr e fo ws = .ok bz) : ∃ b, rec h addr e w fo = .ok b := by
  rw [jencListM] at hk
  obtain ⟨_, _, hk⟩ := Res.bind_eq_ok hk
  obtain ⟨_, hk, _⟩ := Res.bind_eq_ok hk
  exact jelemsM_ok hm hk

theorem jentryM_ok {e : Ty} {fo : FOpts} {w : MVal} {b : Bytes} (hk : jencEntryM Γ c rec h e fo w = .ok b) :
    rec h false e w fo = .ok b := by
  rw [jencEntryM] at hk
  split at hk
  · exact hk
  · obtain ⟨_, _, hk⟩ := Res.bind_eq_ok hk
    exact hk

theorem jentriesM_ok {e : Ty} {fo : FOpts} {w : MVal} {i : Nat} {ws : List MVal} {bs : List Bytes} (hw : ws[2 * i + 1]? = some w)
    (hk : jencEntriesM Γ c rec h e fo ws = .ok bs) : ∃ b, rec h false e w fo = .ok b := by
  induction i generalizing ws bs with
  | zero =>
    unfold jencEntriesM at hk
    split at hk
    · simp at hw
    · obtain ⟨b, h1, hk⟩ := Res.bind_eq_ok hk
      simp only [Nat.mul_zero, Nat.zero_add, List.getElem?_cons_succ, List.getElem?_cons_zero, Option.some.injEq] at hw
      exact ⟨b, hw ▸ jentryM_ok h1⟩
    · cases hk
  | succ i ih =>
    unfold jencEntriesM at hk
    split at hk
    · simp at hw
    · obtain ⟨b, h1, hk⟩ := Res.bind_eq_ok hk
      obtain ⟨_, hk, _⟩ := Res.bind_eq_ok hk
      rw [show 2 * (i + 1) + 1 = 2 * i + 1 + 1 + 1 by omega, List.getElem?_cons_succ, List.getElem?_cons_succ] at hw
      exact ih hw hk
    · cases hk

theorem jfieldsM_ok {addr : Bool} {f : Field} {w : MVal} (hv : f.visible = true) (he : jsonEmptyM Γ.toProg h f.ty w = false) :
    ∀ {fs : List Field} {i : Nat} {ws : List MVal} {bs : List Bytes}, fs[i]? = some f → ws[i]? = some w →
    jencFieldsM Γ c rec h addr fs ws = .ok bs → ∃ b, rec h addr f.ty w f.opts = .ok b
  | g :: fs, i, u :: ws, bz, hf, hw, hk => by
    rw [jencFieldsM] at hk
    cases i with
    | zero =>
      simp only [List.getElem?_cons_zero, Option.some.injEq] at hf hw
      subst hf hw
      rw [if_pos hv] at hk
      obtain ⟨_, _, hk⟩ := Res.bind_eq_ok hk
      rw [he, Bool.and_false, if_neg Bool.false_ne_true] at hk
      obtain ⟨b, hk, _⟩ := Res.bind_eq_ok hk
      exact ⟨b, hk⟩
    | succ i =>
      simp only [List.getElem?_cons_succ] at hf hw
      split at hk
      · obtain ⟨_, _, hk⟩ := Res.bind_eq_ok hk
        split at hk
        · exact jfieldsM_ok hv he hf hw hk
        · obtain ⟨_, _, hk⟩ := Res.bind_eq_ok hk
          obtain ⟨_, hk, _⟩ := Res.bind_eq_ok hk
          exact jfieldsM_ok hv he hf hw hk
      · exact jfieldsM_ok hv he hf hw hk

end

/-- An endless value is not written, whatever the depth of the recursion. -/
theorem jencM_endless {Γ : EProg} {c : Codec} {J : EJLib} {h : Mem} : ∀ (fuel : Nat) (s : Nat → TId × MVal),
    (∀ n, JPartOf Γ.toProg J h (s n) (s (n + 1))) → ∀ addr t w fo bz, Leads h t w (s 0).2 → t.deref = (s 0).1 →
    jencM Γ c J fuel h addr t w fo ≠ .ok bz := by
  intro fuel
  induction fuel with
  | zero => intro s _ addr t w fo bz _ _ hk; cases hk
  | succ fuel ih =>
    intro s hs addr t w fo bz hl0 ht hk
    have ih1 := ih (fun n => s (n + 1)) fun n => hs (n + 1)
    have he1 := fun {t w} hl ht => @endless_notEmpty Γ J h t w (fun n => s (n + 1)) hl ht fun n => hs (n + 1)
    have p0 := hs 0
    simp only [Nat.zero_add] at ih1 p0 he1
    rw [jencM, derefM_leads hl0, ht] at hk
    dsimp only at hk
    rw [jencBaseM] at hk
    generalize s 0 = x0 at p0 hk
    generalize s 1 = x1 at p0 ih1 he1
    cases p0 with
    | field hno hsh hf hw hv hl =>
      simp only [hsh, hno.1, hno.2, jencShapeM, reduceCtorEq, if_false] at hk
      obtain ⟨bs, hk, _⟩ := Res.bind_eq_ok hk
      obtain ⟨b, hk⟩ := jfieldsM_ok hv (he1 hl rfl) hf hw hk
      exact ih1 _ _ _ _ _ hl rfl hk
    | slice hno hsh hc hm hl =>
      simp only [hsh, hno.1, hno.2, jencShapeM, reduceCtorEq, if_false, hc] at hk
      obtain ⟨b, hk⟩ := jlistM_ok hm hk
      exact ih1 _ _ _ _ _ hl rfl hk
    | arr hno hsh hm hl =>
      simp only [hsh, hno.1, hno.2, jencShapeM, reduceCtorEq, if_false] at hk
      obtain ⟨b, hk⟩ := jlistM_ok hm hk
      exact ih1 _ _ _ _ _ hl rfl hk
    | map hno hsh hc hm hl =>
      simp only [hsh, hno.1, hno.2, jencShapeM, reduceCtorEq, if_false, hc] at hk
      obtain ⟨_, hk, _⟩ := Res.bind_eq_ok hk
      obtain ⟨b, hk⟩ := jentriesM_ok hm hk
      exact ih1 _ _ _ _ _ hl rfl hk
    | iface hno hsh hl =>
      simp only [hsh, hno.1, hno.2, jencShapeM, reduceCtorEq, if_false, jencIfaceM, derefM_leads hl] at hk
      split at hk
      · cases hk
      · obtain ⟨_, _, hk⟩ := Res.bind_eq_ok hk
        split at hk
        · cases hk
        · obtain ⟨_, hk, _⟩ := Res.bind_eq_ok hk
          exact ih1 _ _ _ _ _ .base rfl hk

/-- What is within itself is endless. -/
theorem jendless_of_within {Γ : Prog} {J : EJLib} {h : Mem} {x : TId × MVal} (hw : JWithin Γ J h x x) : JEndless Γ J h x := by
  have step : ∀ y : {y // JWithin Γ J h y x}, ∃ z : {z // JWithin Γ J h z x}, JPartOf Γ J h y.1 z.1 := by
    rintro ⟨y, hy⟩
    cases hy with
    | part hp => exact ⟨⟨x, hw⟩, hp⟩
    | more hp hz => exact ⟨⟨_, hz⟩, hp⟩
  let next := fun y => (step y).choose
  have hnext : ∀ y, JPartOf Γ J h y.1 (next y).1 := fun y => (step y).choose_spec
  refine ⟨fun n => (Nat.rec ⟨x, hw⟩ (fun _ y => next y) n : {y // JWithin Γ J h y x}).1, rfl, fun n => hnext _⟩

theorem jendless_of_part {Γ : Prog} {J : EJLib} {h : Mem} {x y : TId × MVal} (hp : JPartOf Γ J h x y) (he : JEndless Γ J h y) :
    JEndless Γ J h x := by
  obtain ⟨s, h0, hs⟩ := he
  exact ⟨fun n => n.casesOn x s, rfl, fun n => by cases n with
    | zero => show JPartOf Γ J h x (s 0); rw [h0]; exact hp
    | succ n => exact hs n⟩

theorem jendless_of_has {Γ : Prog} {J : EJLib} {h : Mem} {x y : TId × MVal} (hw : JWithin Γ J h x y) (he : JEndless Γ J h y) :
    JEndless Γ J h x := by
  induction hw with
  | part hp => exact jendless_of_part hp he
  | more hp _ ih => exact jendless_of_part hp (ih he)

end Amino
