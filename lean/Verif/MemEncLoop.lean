import Verif.MemEncSim

/-!
# Values that go on for ever are never encoded
-/

namespace Amino
open Spec

theorem derefM_leads {h : Mem} : ∀ {t : Ty} {w x : MVal}, Leads h t w x → derefM h t w = some x
  | _, _, _, .base => rfl
  | _, _, _, .ptr hg hl => by simp [derefM, hg, derefM_leads hl]

/-- What has parts is not a default value. -/
theorem notDefault_of_part {Γ : Prog} {h : Mem} {id : TId} {w : MVal} {z : TId × MVal} (hp : PartOf Γ h (id, w) z) :
    isDefaultBaseM h (Γ.shape id) w = false := by
  cases hp with
  | field _ hs => rw [hs]; rfl
  | slice _ hs _ _ _ hm =>
    rw [hs]
    simp only [isDefaultBaseM]
    rw [beq_eq_false_iff_ne]
    intro h0
    rw [h0] at hm
    simp at hm
  | arr _ hs => rw [hs]; rfl
  | iface _ hs => rw [hs]; rfl

section
variable {Γ : EProg} {c : Codec} {h : Mem} {rec : TId → MVal → FOpts → Bool → Res Bytes}

theorem packedM_ok {e : Ty} {fo : FOpts} {w x : MVal} (hl : Leads h e w x) : ∀ {ws : List MVal} {bz : Bytes}, w ∈ ws →
    encPackedM Γ h rec e fo ws = .ok bz → ∃ fo' bare' b, rec e.deref x fo' bare' = .ok b
  | u :: ws, bz, hm, hk => by
    rw [encPackedM] at hk
    obtain ⟨b, h1, hk⟩ := Res.bind_eq_ok hk
    obtain ⟨bs, h2, _⟩ := Res.bind_eq_ok hk
    rw [List.mem_cons] at hm
    rcases hm with rfl | hm
    · rw [derefZeroM, derefM_leads hl] at h1
      exact ⟨_, _, _, h1⟩
    · exact packedM_ok hl hm h2

theorem unpackedM_ok {e : Ty} {fo : FOpts} {w x : MVal} (hl : Leads h e w x) (hd : isDefaultBaseM h (Γ.shape e.deref) x = false) :
    ∀ {ws : List MVal} {bz : Bytes}, w ∈ ws →
    encUnpackedM Γ h rec e fo ws = .ok bz → ∃ fo' bare' b, rec e.deref x fo' bare' = .ok b
  | u :: ws, bz, hm, hk => by
    rw [encUnpackedM] at hk
    obtain ⟨k, _, hk⟩ := Res.bind_eq_ok hk
    obtain ⟨b, h1, hk⟩ := Res.bind_eq_ok hk
    obtain ⟨bs, h2, _⟩ := Res.bind_eq_ok hk
    rw [List.mem_cons] at hm
    rcases hm with rfl | hm
    · rw [encElemM, derefM_leads hl] at h1
      dsimp only at h1
      rw [hd] at h1
      exact ⟨_, _, _, h1⟩
    · exact unpackedM_ok hl hd hm h2

theorem listM_ok {e : Ty} {fo : FOpts} {bare : Bool} {v w x : MVal} {ws : List MVal} {bz : Bytes} (he : elemsM h v = some ws) (hm : w ∈ ws)
    (hl : Leads h e w x) (hd : isDefaultBaseM h (Γ.shape e.deref) x = false) (hk : encListM Γ c h rec e v fo bare = .ok bz) :
    ∃ fo' bare' b, rec e.deref x fo' bare' = .ok b := by
  rw [encListM] at hk
  obtain ⟨_, _, hk⟩ := Res.bind_eq_ok hk
  rw [he] at hk
  dsimp only at hk
  obtain ⟨buf, hk, _⟩ := Res.bind_eq_ok hk
  split at hk
  · exact packedM_ok hl hm hk
  · exact unpackedM_ok hl hd hm hk

/-- A list was written, and a part of it is not a default value: then this was written. -/
theorem listM_part_ok {id : TId} {e : Ty} {fo : FOpts} {bare : Bool} {v : MVal} {z : TId × MVal} {bz : Bytes}
    (he : (Γ.shape id).elem? = some e) (hp : PartOf Γ.toProg h (id, v) z) (hd : isDefaultBaseM h (Γ.shape z.1) z.2 = false)
    (hk : encListM Γ c h rec e v fo bare = .ok bz) : ∃ fo' bare' b, rec z.1 z.2 fo' bare' = .ok b := by
  cases hp with
  | field _ hs => rw [hs] at he; cases he
  | iface _ hs => rw [hs] at he; cases he
  | slice _ hs _ _ hc hm hl =>
    rw [hs] at he
    obtain rfl := Option.some.inj he
    exact listM_ok (by simp only [elemsM, hc]) hm hl hd hk
  | arr _ hs _ _ hm hl =>
    rw [hs] at he
    obtain rfl := Option.some.inj he
    exact listM_ok rfl hm hl hd hk

/-- A struct was written: so was each visible field that has parts, or, if it is a list, each of its parts that has parts. -/
theorem fieldM_ok {f : Field} {num : Nat} {w x : MVal} {y z : TId × MVal} {bz : Bytes} (hl : Leads h f.ty w x)
    (hp : PartOf Γ.toProg h (f.ty.deref, x) y) (hq : PartOf Γ.toProg h y z) (hk : encFieldM Γ c h rec f num w = .ok bz) :
    (∃ fo' bare' b, rec f.ty.deref x fo' bare' = .ok b) ∨ ∃ fo' bare' b, rec y.1 y.2 fo' bare' = .ok b := by
  rw [encFieldM] at hk
  obtain ⟨_, _, hk⟩ := Res.bind_eq_ok hk
  rw [derefM_leads hl] at hk
  dsimp only at hk
  rw [notDefault_of_part hp, Bool.false_and, if_neg Bool.false_ne_true] at hk
  split at hk
  · split at hk
    · rename_i e he
      exact .inr (listM_part_ok he hp (notDefault_of_part (id := y.1) (w := y.2) hq) hk)
    · cases hk
  · rw [writeFieldM] at hk
    obtain ⟨_, _, hk⟩ := Res.bind_eq_ok hk
    obtain ⟨b, hk, _⟩ := Res.bind_eq_ok hk
    exact .inl ⟨_, _, _, hk⟩

theorem fieldsM_ok {f : Field} {w x : MVal} {y z : TId × MVal} (hl : Leads h f.ty w x)
    (hp : PartOf Γ.toProg h (f.ty.deref, x) y) (hq : PartOf Γ.toProg h y z) (hv : f.visible = true) :
    ∀ {fs : List Field} {num i : Nat} {ws : List MVal} {bz : Bytes}, fs[i]? = some f → ws[i]? = some w →
    encFieldsM Γ c h rec num fs ws = .ok bz →
    (∃ fo' bare' b, rec f.ty.deref x fo' bare' = .ok b) ∨ ∃ fo' bare' b, rec y.1 y.2 fo' bare' = .ok b
  | g :: fs, num, i, u :: ws, bz, hf, hw, hk => by
    rw [encFieldsM] at hk
    cases i with
    | zero =>
      simp only [List.getElem?_cons_zero, Option.some.injEq] at hf hw
      subst hf hw
      rw [hv] at hk
      simp only [Bool.not_true, Bool.false_eq_true, if_false] at hk
      obtain ⟨b, hk, _⟩ := Res.bind_eq_ok hk
      exact fieldM_ok hl hp hq hk
    | succ i =>
      simp only [List.getElem?_cons_succ] at hf hw
      split at hk
      · exact fieldsM_ok hl hp hq hv hf hw hk
      · obtain ⟨_, _, hk⟩ := Res.bind_eq_ok hk
        obtain ⟨_, hk, _⟩ := Res.bind_eq_ok hk
        exact fieldsM_ok hl hp hq hv hf hw hk

end

/-- An endless value is not encoded, whatever the depth of the recursion. -/
theorem encM_endless {Γ : EProg} {c : Codec} {h : Mem} : ∀ (fuel : Nat) (s : Nat → TId × MVal),
    (∀ n, PartOf Γ.toProg h (s n) (s (n + 1))) → ∀ fo bare bz, encM Γ c fuel h (s 0).1 (s 0).2 fo bare ≠ .ok bz := by
  intro fuel
  induction fuel with
  | zero => intro s _ fo bare bz hk; cases hk
  | succ fuel ih =>
    intro s hs fo bare bz hk
    have ih1 := ih (fun n => s (n + 1)) fun n => hs (n + 1)
    have ih2 := ih (fun n => s (n + 2)) fun n => hs (n + 2)
    have p0 := hs 0
    have p1 := hs 1
    have p2 := hs 2
    simp only [Nat.zero_add] at ih1 ih2 p0 p1 p2
    have d1 : isDefaultBaseM h (Γ.shape (s 1).1) (s 1).2 = false := notDefault_of_part (id := (s 1).1) (w := (s 1).2) p1
    rw [encM] at hk
    generalize h0 : s 0 = x0 at p0 hk
    generalize h1 : s 1 = x1 at p0 p1 ih1 d1
    cases p0 with
    | field hmm hsh hf hw hv hl =>
      rw [hmm] at hk
      simp only [encShapeM, hsh] at hk
      obtain ⟨buf, hk, _⟩ := Res.bind_eq_ok hk
      rcases fieldsM_ok hl p1 p2 hv hf hw hk with ⟨_, _, _, hk⟩ | ⟨_, _, _, hk⟩
      · exact ih1 _ _ _ hk
      · exact ih2 _ _ _ hk
    | slice hmm hsh hb hlk hc hm hl =>
      rw [hmm] at hk
      simp only [encShapeM, hsh, hb, hlk, Bool.false_eq_true, if_false] at hk
      obtain ⟨_, _, _, hk⟩ := listM_ok (by simp only [elemsM, hc]) hm hl d1 hk
      exact ih1 _ _ _ hk
    | arr hmm hsh hb hlk hm hl =>
      rw [hmm] at hk
      simp only [encShapeM, hsh, hb, hlk, Bool.false_eq_true, if_false] at hk
      obtain ⟨_, _, _, hk⟩ := listM_ok rfl hm hl d1 hk
      exact ih1 _ _ _ hk
    | iface hmm hsh hl =>
      rw [hmm] at hk
      simp only [encShapeM, hsh, encIfaceM, derefM_leads hl] at hk
      split at hk
      · cases hk
      · obtain ⟨_, _, hk⟩ := Res.bind_eq_ok hk
        split at hk
        · cases hk
        · split at hk
          · cases hk
          · obtain ⟨_, hk, _⟩ := Res.bind_eq_ok hk
            exact ih1 _ _ _ hk

/-- What is within itself is endless. -/
theorem endless_of_within {Γ : Prog} {h : Mem} {x : TId × MVal} (hw : Within Γ h x x) : Endless Γ h x := by
  have step : ∀ y : {y // Within Γ h y x}, ∃ z : {z // Within Γ h z x}, PartOf Γ h y.1 z.1 := by
    rintro ⟨y, hy⟩
    cases hy with
    | part hp => exact ⟨⟨x, hw⟩, hp⟩
    | more hp hz => exact ⟨⟨_, hz⟩, hp⟩
  let next := fun y => (step y).choose
  have hnext : ∀ y, PartOf Γ h y.1 (next y).1 := fun y => (step y).choose_spec
  refine ⟨fun n => (Nat.rec ⟨x, hw⟩ (fun _ y => next y) n : {y // Within Γ h y x}).1, rfl, fun n => hnext _⟩

theorem endless_of_part {Γ : Prog} {h : Mem} {x y : TId × MVal} (hp : PartOf Γ h x y) (he : Endless Γ h y) : Endless Γ h x := by
  obtain ⟨s, h0, hs⟩ := he
  exact ⟨fun n => n.casesOn x s, rfl, fun n => by cases n with
    | zero => show PartOf Γ h x (s 0); rw [h0]; exact hp
    | succ n => exact hs n⟩

theorem endless_of_has {Γ : Prog} {h : Mem} {x y : TId × MVal} (hw : Within Γ h x y) (he : Endless Γ h y) : Endless Γ h x := by
  induction hw with
  | part hp => exact endless_of_part hp he
  | more hp _ ih => exact endless_of_part hp (ih he)

end Amino
