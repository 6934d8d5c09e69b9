import Verif.SpecMemHolds
import Verif.MemSim

/-!
# The encoder on memory follows the encoder on trees
-/

namespace Amino
open Spec

section
variable {Γ : Prog} {h : Mem}

theorem holdsL_len : ∀ {ts : List Ty} {ws : List MVal} {vs : List Val}, UnfoldsL Γ h ts ws vs → ws.length = vs.length
  | _, _, _, .nil => rfl
  | _, _, _, .cons _ hl => by simp [holdsL_len hl]

theorem derefM_holds : ∀ {t : Ty} {w : MVal} {v : Val}, Unfolds Γ h t w v →
    (derefM h t w = none ∧ derefVal t v = none) ∨
    ∃ dw dv, derefM h t w = some dw ∧ derefVal t v = some dv ∧ Unfolds Γ h (.base t.deref) dw dv
  | .base _, _, _, hh => .inr ⟨_, _, rfl, rfl, hh⟩
  | .ptr _, _, _, .nilPtr => .inl ⟨rfl, rfl⟩
  | .ptr _, _, _, .ptr hg hh => by
    rcases derefM_holds hh with ⟨h1, h2⟩ | ⟨dw, dv, h1, h2, h3⟩
    · exact .inl ⟨by simp [derefM, hg, h1], by simp [derefVal, h2]⟩
    · exact .inr ⟨dw, dv, by simp [derefM, hg, h1], by simp [derefVal, h2], h3⟩

theorem isDefaultBaseM_holds {id : TId} {w : MVal} {v : Val} (hh : Unfolds Γ h (.base id) w v) :
    isDefaultBaseM h (Γ.shape id) w = isDefaultBase (Γ.shape id) v := by
  cases hh with
  | prim hs =>
    cases hsh : Γ.shape id <;> simp only [hsh, scalarShape] at hs <;> first | (cases hs; done) | skip
    all_goals cases v <;> rfl
  | bytes hs _ => rw [hs]; rfl
  | nil hs => cases hsh : Γ.shape id <;> simp only [hsh, nilShape] at hs <;> first | (cases hs; done) | rfl
  | byteSlice hs _ _ hl =>
    rw [hs]
    simp only [isDefaultBaseM, isDefaultBase]
    rename_i len b _
    rw [Bool.eq_iff_iff, beq_iff_eq, List.isEmpty_iff_length_eq_zero, List.length_take, List.length_drop]
    omega
  | slice hs _ _ hl hr =>
    rw [hs]
    simp only [isDefaultBaseM, isDefaultBase]
    have := holdsL_len hr
    rw [List.length_take, List.length_drop] at this
    rw [Bool.eq_iff_iff, beq_iff_eq, List.isEmpty_iff_length_eq_zero]
    omega
  | arr hs _ _ => rw [hs]; rfl
  | struct hs _ => rw [hs]; rfl
  | iface hs _ => rw [hs]; rfl
  | map hs hc hr =>
    rw [hs]
    simp only [isDefaultBaseM, isDefaultBase, hc, MVal.parts]
    cases hr <;> rfl

mutual
theorem holds_of_rep : ∀ {t : Ty} {w : MVal} {v : Val} {own ro : List Nat}, RepV Γ h t w v own ro → Unfolds Γ h t w v
  | _, _, _, _, _, .prim hs => .prim hs
  | _, _, _, _, _, .bytes hs hb => .bytes hs hb
  | _, _, _, _, _, .nilPtr => .nilPtr
  | _, _, _, _, _, .ptr hc hr => .ptr (by simp [Mem.get, hc, MVal.part]) (holds_of_rep hr)
  | _, _, _, _, _, .nil hs => .nil hs
  | _, _, _, _, _, .byteSlice hs hb hc hl => .byteSlice hs hb hc hl
  | _, _, _, _, _, .slice hs hb hc hl hr => .slice hs hb hc hl (holdsL_of_rep hr)
  | _, _, _, _, _, .arr hs hb hr => .arr hs hb (holdsL_of_rep hr)
  | _, _, _, _, _, .struct hs hr => .struct hs (holdsL_of_rep hr)
  | _, _, _, _, _, .iface hs hr => .iface hs (holds_of_rep hr)

theorem holdsL_of_rep : ∀ {ts : List Ty} {ws : List MVal} {vs : List Val} {own ro : List Nat}, RepL Γ h ts ws vs own ro →
    UnfoldsL Γ h ts ws vs
  | _, _, _, _, _, .nil => .nil
  | _, _, _, _, _, .cons hv hl => .cons (holds_of_rep hv) (holdsL_of_rep hl)
end

theorem holds_zero (hz : ZeroPlain Γ) (id : TId) : Unfolds Γ h (.base id) (ofZero (Γ.zero id)) (Γ.zero id) :=
  holds_of_rep (repV_frame (hz id) (by simp) (by simp))

end

section
variable {Γ : EProg} {c : Codec} {h : Mem} {rec : TId → MVal → FOpts → Bool → Res Bytes}
  {recT : TId → Val → FOpts → Bool → Res Bytes}

/-- The recursive calls agree. -/
def EncSim (Γ : Prog) (h : Mem) (rec : TId → MVal → FOpts → Bool → Res Bytes) (recT : TId → Val → FOpts → Bool → Res Bytes) : Prop :=
  ∀ id w v fo bare, Unfolds Γ h (.base id) w v → rec id w fo bare = recT id v fo bare

variable (hsim : EncSim Γ.toProg h rec recT) (hz : ZeroPlain Γ.toProg)

theorem derefZeroM_holds (hz : ZeroPlain Γ.toProg) {t : Ty} {w : MVal} {v : Val} (hh : Unfolds Γ.toProg h t w v) :
    Unfolds Γ.toProg h (.base t.deref) (derefZeroM Γ h t w) (Γ.derefZero t v) := by
  unfold derefZeroM Prog.derefZero
  rcases derefM_holds hh with ⟨h1, h2⟩ | ⟨dw, dv, h1, h2, h3⟩
  · rw [h1, h2]
    exact holds_zero hz _
  · rw [h1, h2]
    exact h3

include hsim

theorem encElemM_holds {e : Ty} {fo : FOpts} {w : MVal} {v : Val} (hh : Unfolds Γ.toProg h e w v) :
    encElemM Γ h rec e fo w = encElem Γ.toProg recT e fo v := by
  unfold encElemM encElem
  rcases derefM_holds hh with ⟨h1, h2⟩ | ⟨dw, dv, h1, h2, h3⟩
  · rw [h1, h2]
  · rw [h1, h2]
    dsimp only
    rw [isDefaultBaseM_holds h3, hsim _ _ _ _ _ h3]

theorem encUnpackedM_holds {e : Ty} {fo : FOpts} {n : Nat} : ∀ {ws : List MVal} {vs : List Val},
    UnfoldsL Γ.toProg h (List.replicate n e) ws vs → encUnpackedM Γ h rec e fo ws = encUnpacked Γ.toProg recT e fo vs := by
  induction n with
  | zero => intro ws vs hh; cases hh; rfl
  | succ n ih =>
    intro ws vs hh
    rw [List.replicate_succ] at hh
    cases hh with
    | cons hv hl => rw [encUnpackedM, encUnpacked, encElemM_holds hsim hv, ih hl]

include hz

theorem encPackedM_holds {e : Ty} {fo : FOpts} {n : Nat} : ∀ {ws : List MVal} {vs : List Val},
    UnfoldsL Γ.toProg h (List.replicate n e) ws vs → encPackedM Γ h rec e fo ws = encPacked Γ.toProg recT e fo vs := by
  induction n with
  | zero => intro ws vs hh; cases hh; rfl
  | succ n ih =>
    intro ws vs hh
    rw [List.replicate_succ] at hh
    cases hh with
    | cons hv hl => rw [encPackedM, encPacked, hsim _ _ _ _ _ (derefZeroM_holds hz hv), ih hl]

theorem encListM_holds {id : TId} {e : Ty} {w : MVal} {v : Val} {fo : FOpts} {bare : Bool} (hh : Unfolds Γ.toProg h (.base id) w v)
    (he : (Γ.shape id).elem? = some e) : encListM Γ c h rec e w fo bare = encList Γ.toProg c recT e v fo bare := by
  unfold encListM encList
  congr 1
  funext _
  have key : ∀ {n : Nat} {ws : List MVal} {vs : List Val}, UnfoldsL Γ.toProg h (List.replicate n e) ws vs →
      ((if Γ.typ3 e.deref fo ≠ typ3ByteLength then encPackedM Γ h rec e fo ws else encUnpackedM Γ h rec e fo ws).bind fun buf =>
        framed bare buf) =
      ((if Γ.typ3 e.deref fo ≠ typ3ByteLength then encPacked Γ.toProg recT e fo vs else encUnpacked Γ.toProg recT e fo vs).bind
        fun buf => framed bare buf) := by
    intro n ws vs hr
    rw [encPackedM_holds hsim hz hr, encUnpackedM_holds hsim hr]
  cases hh with
  | prim hs => cases hsh : Γ.shape id <;> simp [hsh, scalarShape, Shape.elem?] at hs he
  | bytes hs _ => rfl
  | nil hs =>
    simp only [elemsM, encPackedM, encUnpackedM]
    split <;> rfl
  | byteSlice hs hb hc hl => simp only [elemsM, hc]
  | slice hs hb hc hl hr =>
    rw [hs] at he
    obtain rfl := Option.some.inj he
    simp only [elemsM, hc]
    exact key hr
  | arr hs hb hr =>
    rw [hs] at he
    obtain rfl := Option.some.inj he
    simp only [elemsM]
    exact key hr
  | struct hs _ => rw [hs] at he; cases he
  | iface hs _ => rw [hs] at he; cases he
  | map hs _ _ => rfl

theorem encFieldM_holds {f : Field} {num : Nat} {w : MVal} {v : Val} (hh : Unfolds Γ.toProg h f.ty w v) :
    encFieldM Γ c h rec f num w = encField Γ.toProg c recT f num v := by
  unfold encFieldM encField
  congr 1
  funext _
  rcases derefM_holds hh with ⟨h1, h2⟩ | ⟨dw, dv, h1, h2, h3⟩
  · rw [h1, h2]
  · rw [h1, h2]
    dsimp only
    rw [isDefaultBaseM_holds h3]
    have h4 : ∀ fo we bare, writeFieldM Γ rec num f.ty.deref fo dw we bare = writeField Γ.toProg recT num f.ty.deref fo dv we bare := by
      intro fo we bare
      unfold writeFieldM writeField
      rw [hsim _ _ _ _ _ h3]
    rw [h4]
    cases he : (Γ.shape f.ty.deref).elem? with
    | none => rfl
    | some e =>
      dsimp only
      rw [encListM_holds hsim hz h3 he]

theorem encFieldsM_holds : ∀ {fs : List Field} {num : Nat} {ws : List MVal} {vs : List Val},
    UnfoldsL Γ.toProg h (fs.map Field.ty) ws vs → encFieldsM Γ c h rec num fs ws = encFields Γ.toProg c recT num fs vs := by
  intro fs
  induction fs with
  | nil => intro num ws vs hh; cases hh; rfl
  | cons f fs ih =>
    intro num ws vs hh
    cases hh with
    | cons hv hl => rw [encFieldsM, encFields, encFieldM_holds hsim hz hv, ih hl, ih hl]

omit hz in
theorem encIfaceM_holds {id : TId} {w : MVal} {v : Val} {fo : FOpts} {bare : Bool} (hs : Γ.shape id = .iface)
    (hh : Unfolds Γ.toProg h (.base id) w v) : encIfaceM Γ c h rec id w fo bare = encIface Γ.toProg c recT id v fo bare := by
  cases hh with
  | prim h1 => rw [hs] at h1; cases h1
  | bytes h1 _ => rw [hs] at h1; cases h1
  | nil _ => rfl
  | byteSlice h1 => rw [hs] at h1; cases h1
  | slice h1 => rw [hs] at h1; cases h1
  | arr h1 => rw [hs] at h1; cases h1
  | struct h1 => rw [hs] at h1; cases h1
  | map h1 => rw [hs] at h1; cases h1
  | iface _ hr =>
    unfold encIfaceM encIface
    dsimp only
    rcases derefM_holds hr with ⟨h1, h2⟩ | ⟨dw, dv, h1, h2, h3⟩
    · rw [h1, h2]
    · rw [h1, h2]
      dsimp only
      rw [hsim _ _ _ _ _ h3]
      rfl

theorem encShapeM_holds {fuel : Nat} {id : TId} {w : MVal} {v : Val} {fo : FOpts} {bare : Bool}
    (hh : Unfolds Γ.toProg h (.base id) w v) :
    encShapeM Γ c h rec fuel id w fo bare = encShape Γ.toProg c recT fuel id v fo bare := by
  have hl := @encListM_holds Γ c h rec recT hsim hz id
  have hi := @encIfaceM_holds Γ c h rec recT hsim id
  unfold encShapeM
  cases hh with
  | prim h1 =>
    cases hsh : Γ.shape id <;> simp only [hsh, scalarShape] at h1 <;> first | (cases h1; done) | skip
    all_goals simp only [encShape, hsh]
  | bytes h1 hb => simp only [encShape, h1, hb, if_true]
  | nil h1 =>
    cases hsh : Γ.shape id <;> simp only [hsh, nilShape] at h1 <;> first | (cases h1; done) | skip
    · simp only [encShape, hsh]
      rw [hl (.nil (by rw [hsh]; rfl)) (by rw [hsh]; rfl)]
      rfl
    · simp only [encShape, hsh]
    · simp only [encShape, hsh]
      exact hi hsh (.nil (by rw [hsh]; rfl))
  | byteSlice h1 hb hc hle => simp only [encShape, h1, hb, if_true, bytesM, hc]
  | slice h1 hb hc hle hr =>
    simp only [encShape, h1, hb]
    rw [hl (.slice h1 hb hc hle hr) (by rw [h1]; rfl)]
    rfl
  | arr h1 hb hr =>
    simp only [encShape, h1, hb]
    rw [hl (.arr h1 hb hr) (by rw [h1]; rfl)]
    rfl
  | struct h1 hr =>
    simp only [encShape, h1]
    rw [encFieldsM_holds hsim hz hr]
  | iface h1 hr =>
    simp only [encShape, h1]
    exact hi h1 (.iface h1 hr)
  | map h1 hc hr => simp only [encShape, h1]

end

/-- The encoder gives the same on memory as on the tree. -/
theorem encM_holds {Γ : EProg} {c : Codec} (hm : MarshFollow Γ) (hz : ZeroPlain Γ.toProg) : ∀ (fuel : Nat) (h : Mem),
    EncSim Γ.toProg h (encM Γ c fuel h) (enc Γ.toProg c fuel)
  | 0, _, _, _, _, _, _, _ => rfl
  | fuel + 1, h, id, w, v, fo, bare, hh => by
    rw [encM, enc, encBody]
    cases hmm : Γ.marsh id with
    | none => exact encShapeM_holds (encM_holds hm hz fuel h) hz hh
    | some rm =>
      obtain ⟨rid, m⟩ := rm
      dsimp only
      have h1 := hm id rid m hmm h w v hh
      cases h2 : Γ.marshM id h w <;> cases h3 : m v <;> rw [h2, h3] at h1 <;> first | (cases h1; done) | skip
      · dsimp only at h1
        simp only [Res.bind]
        rw [encM_holds hm hz fuel _ rid _ _ fo bare h1]
      · cases h1; rfl
      · cases h1; rfl
      · rfl

end Amino
