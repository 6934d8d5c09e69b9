import Verif.SpecMemJson
import Verif.MemEncSim

/-!
# The JSON encoder on memory follows the one on trees
-/

namespace Amino
open Spec

mutual
theorem eqZero_holds {Γ : Prog} {h : Mem} : ∀ {t : Ty} {w : MVal} {v z : Val} {own ro : List Nat}, Unfolds Γ h t w v →
    RepV Γ [] t (ofZero z) z own ro → w.eqZero z = v.eqb z
  | _, _, _, _, _, _, .prim _, _ => by simp only [MVal.eqZero]
  | _, _, _, _, _, _, .bytes _ _, _ => by simp only [MVal.eqZero]
  | _, _, _, z, _, _, .nilPtr, _ => by cases z <;> rfl
  | _, _, _, z, _, _, .ptr _ _, hr => by
    cases z <;> first | rfl | skip
    rw [ofZero] at hr
    cases hr
  | _, _, _, z, _, _, .nil _, _ => by cases z <;> rfl
  | _, _, _, z, _, _, .byteSlice hs _ _ _, hr => by
    cases z <;> first | rfl | skip
    rw [ofZero] at hr
    · cases hr with
      | prim h1 => rw [hs] at h1; cases h1
      | bytes h1 => rw [hs] at h1; cases h1
    all_goals intros; contradiction
  | _, _, _, z, _, _, .slice hs _ _ _ _, hr => by
    cases z <;> first | rfl | skip
    rw [ofZero] at hr
    cases hr with
    | arr h1 => rw [hs] at h1; cases h1
  | _, _, _, z, _, _, .arr hs _ hl, hr => by
    cases z <;> first | rfl | skip
    rw [ofZero] at hr
    cases hr with
    | arr h1 _ hr =>
      rw [hs] at h1
      cases h1
      rw [MVal.eqZero, Val.eqb]
      exact eqZeros_holds hl hr
  | _, _, _, z, _, _, .struct hs hl, hr => by
    cases z <;> first | rfl | skip
    rw [ofZero] at hr
    cases hr with
    | struct h1 hr =>
      rw [hs] at h1
      cases h1
      rw [MVal.eqZero, Val.eqb]
      exact eqZeros_holds hl hr
  | _, _, _, z, _, _, .iface _ _, hr => by
    cases z <;> first | rfl | skip
    rw [ofZero] at hr
    cases hr
  | _, _, _, z, _, _, .map _ _ _, hr => by
    cases z <;> first | rfl | skip
    rw [ofZero] at hr
    cases hr

theorem eqZeros_holds {Γ : Prog} {h : Mem} : ∀ {ts : List Ty} {ws : List MVal} {vs zs : List Val} {own ro : List Nat}, UnfoldsL Γ h ts ws vs →
    RepL Γ [] ts (ofZeros zs) zs own ro → MVal.eqZeros ws zs = Val.eqbs vs zs
  | _, _, _, [], _, _, .nil, _ => rfl
  | _, _, _, _ :: _, _, _, .nil, _ => rfl
  | _, _, _, [], _, _, .cons _ _, _ => rfl
  | _, _, _, z :: zs, _, _, .cons hv hl, hr => by
    rw [ofZeros] at hr
    cases hr with
    | cons hz hzs => rw [MVal.eqZeros, Val.eqbs, eqZero_holds hv hz, eqZeros_holds hl hzs]
end

theorem jsonEmptyM_holds {Γ : Prog} (hz : ZeroPlain Γ) {h : Mem} {t : Ty} {w : MVal} {v : Val} (hh : Unfolds Γ h t w v) :
    jsonEmptyM Γ h t w = Γ.jsonEmpty t v := by
  unfold jsonEmptyM Prog.jsonEmpty
  have hdef : ∀ {dw dv}, Unfolds Γ h (.base t.deref) dw dv →
      (match Γ.shape t.deref, dw with
        | .slice _, .nil => true
        | .slice _, .slice _ _ len => len == 0
        | .array _ _, .prim (.bytes b) => b.isEmpty
        | .array _ _, .arr vs => vs.isEmpty
        | .string, .prim (.str s) => s.isEmpty
        | _, _ => false) =
      (match Γ.shape t.deref, dv with
        | .slice _, .nil => true
        | .slice _, .bytes b => b.isEmpty
        | .slice _, .list vs => vs.isEmpty
        | .array _ _, .bytes b => b.isEmpty
        | .array _ _, .list vs => vs.isEmpty
        | .string, .str s => s.isEmpty
        | _, _ => false) := by
    intro dw dv hd
    have hdf := isDefaultBaseM_holds hd
    generalize t.deref = id at hd hdf
    cases hd with
    | prim hs =>
      cases hsh : Γ.shape id <;> simp only [hsh, scalarShape] at hs <;> first | (cases hs; done) | skip
      all_goals cases dv <;> rfl
    | bytes hs _ => rw [hs]
    | nil hs => cases hsh : Γ.shape id <;> simp only [hsh, nilShape] at hs <;> first | (cases hs; done) | rfl
    | byteSlice hs _ _ hl => rw [hs] at hdf ⊢; exact hdf
    | slice hs _ _ hl hr => rw [hs] at hdf ⊢; exact hdf
    | arr hs _ hr =>
      rw [hs]
      have := holdsL_len hr
      simp only
      rw [Bool.eq_iff_iff, List.isEmpty_iff_length_eq_zero, List.isEmpty_iff_length_eq_zero, this]
    | struct hs _ => rw [hs]
    | iface hs _ => rw [hs]
    | map hs hc hr => rw [hs]
  cases t with
  | base id =>
    simp only [derefM, derefVal]
    rw [show w.eqZero (Γ.zeroTy (.base id)) = v.eqb (Γ.zeroTy (.base id)) from eqZero_holds hh (hz id)]
    congr 1
    exact hdef hh
  | ptr t =>
    rcases derefM_holds hh with ⟨h1, h2⟩ | ⟨dw, dv, h1, h2, h3⟩
    · rw [h1, h2]
    · rw [h1, h2]
      simp only [Ty.isPtr, Bool.not_true, Bool.false_and, Bool.false_or]
      exact hdef h3

section
variable {Γ : EProg} {c : Codec} {J : EJLib} {rec : Mem → Bool → Ty → MVal → FOpts → Res Bytes}
  {recT : Bool → Ty → Val → FOpts → Res Bytes}

/-- The recursive calls agree. -/
def JEncSim (Γ : Prog) (rec : Mem → Bool → Ty → MVal → FOpts → Res Bytes) (recT : Bool → Ty → Val → FOpts → Res Bytes) : Prop :=
  ∀ h addr t w v fo, Unfolds Γ h t w v → rec h addr t w fo = recT addr t v fo

variable (hsim : JEncSim Γ.toProg rec recT) {h : Mem}

include hsim

theorem jencIfaceM_holds {t : Ty} {w : MVal} {v : Val} {fo : FOpts} (hh : Unfolds Γ.toProg h t w v) :
    jencIfaceM Γ c rec h t w fo = jencIface Γ.toProg c recT t v fo := by
  unfold jencIfaceM jencIface
  rcases derefM_holds hh with ⟨h1, h2⟩ | ⟨dw, dv, h1, h2, h3⟩
  · rw [h1, h2]
  · rw [h1, h2]
    dsimp only
    rw [hsim _ _ _ _ _ _ h3]
    rfl

theorem jencElemsM_holds {addr : Bool} {e : Ty} {fo : FOpts} {n : Nat} : ∀ {ws : List MVal} {vs : List Val},
    UnfoldsL Γ.toProg h (List.replicate n e) ws vs → jencElemsM rec h addr e fo ws = jencElems recT addr e fo vs := by
  induction n with
  | zero => intro ws vs hh; cases hh; rfl
  | succ n ih =>
    intro ws vs hh
    rw [List.replicate_succ] at hh
    cases hh with
    | cons hv hl => rw [jencElemsM, jencElems, hsim _ _ _ _ _ _ hv, ih hl]

theorem jencFieldsM_holds (hz : ZeroPlain Γ.toProg) {addr : Bool} : ∀ {fs : List Field} {ws : List MVal} {vs : List Val},
    UnfoldsL Γ.toProg h (fs.map Field.ty) ws vs → jencFieldsM Γ c rec h addr fs ws = jencFields Γ.toProg c recT addr fs vs := by
  intro fs
  induction fs with
  | nil => intro ws vs hh; cases hh; rfl
  | cons f fs ih =>
    intro ws vs hh
    cases hh with
    | cons hv hl => rw [jencFieldsM, jencFields, jsonEmptyM_holds hz hv, hsim _ _ _ _ _ _ hv, ih hl]

theorem jencEntryM_holds {e : Ty} {fo : FOpts} {w : MVal} {v : Val} (hh : Unfolds Γ.toProg h e w v) :
    jencEntryM Γ c rec h e fo w = jencEntry Γ.toProg c recT e fo v := by
  unfold jencEntryM jencEntry
  rw [hsim _ _ _ _ _ _ hh]
  rcases derefM_holds hh with ⟨h1, h2⟩ | ⟨dw, dv, h1, h2, h3⟩
  · rw [h1, h2]
  · rw [h1, h2]

theorem jencEntriesM_holds {e : Ty} {fo : FOpts} : ∀ {ws : List MVal} {kvs : List (Bytes × Val)}, UnfoldsE Γ.toProg h e ws kvs →
    jencEntriesM Γ c rec h e fo ws = jencEntries Γ.toProg c recT e fo kvs
  | _, _, .nil => rfl
  | _, _, .cons hv hl => by rw [jencEntriesM, jencEntries, jencEntryM_holds hsim hv, jencEntriesM_holds hl]

theorem jencShapeM_holds (hz : ZeroPlain Γ.toProg) {addr : Bool} {id : TId} {w : MVal} {v : Val} {fo : FOpts}
    (hh : Unfolds Γ.toProg h (.base id) w v) :
    jencShapeM Γ c J rec h addr id w fo = jencShape Γ.toProg c J.toJLib recT addr id v fo := by
  unfold jencShapeM
  cases hh with
  | prim h1 =>
    cases hsh : Γ.shape id <;> simp only [hsh, scalarShape] at h1 <;> first | (cases h1; done) | skip
    all_goals cases v <;> simp only [jencShape, hsh]
  | bytes h1 hb => simp only [jencShape, h1]
  | nil h1 =>
    cases hsh : Γ.shape id <;> simp only [hsh, nilShape] at h1 <;> first | (cases h1; done) | skip
    all_goals simp only [jencShape, hsh]
  | byteSlice h1 hb hc hle => simp only [jencShape, h1, hc]
  | slice h1 hb hc hle hr => simp only [jencShape, h1, hc, jencListM, jencList, jencElemsM_holds hsim hr]
  | arr h1 hb hr => simp only [jencShape, h1, jencListM, jencList, jencElemsM_holds hsim hr]
  | struct h1 hr => simp only [jencShape, h1, jencFieldsM_holds hsim hz hr]
  | iface h1 hr => simp only [jencShape, h1, jencIfaceM_holds hsim hr]
  | map h1 hc hr => simp only [jencShape, h1, hc, jencEntriesM_holds hsim hr]

end

/-- The encoder gives the same on memory as on the tree. -/
theorem jencM_holds {Γ : EProg} {c : Codec} {J : EJLib} (hm : MarshFollow Γ) (hj : MarshJFollow Γ.toProg J) (hz : ZeroPlain Γ.toProg) :
    ∀ (fuel : Nat), JEncSim Γ.toProg (jencM Γ c J fuel) (jenc Γ.toProg c J.toJLib fuel)
  | 0, _, _, _, _, _, _, _ => rfl
  | fuel + 1, h, addr, t, w, v, fo, hh => by
    rw [jencM, jenc]
    rcases derefM_holds hh with ⟨h1, h2⟩ | ⟨dw, dv, h1, h2, h3⟩
    · rw [h1, h2]
    · rw [h1, h2]
      dsimp only
      have hsh := @jencShapeM_holds Γ c J (jencM Γ c J fuel) (jenc Γ.toProg c J.toJLib fuel) (jencM_holds hm hj hz fuel) h hz (addr || t.isPtr) t.deref dw dv fo h3
      unfold jencBaseM jencBase
      rw [hsh]
      split
      · rfl
      · cases hjm : J.marsh t.deref (addr || t.isPtr) with
        | some m =>
          dsimp only
          exact hj _ _ m hjm h dw dv h3
        | none =>
          dsimp only
          cases hmm : Γ.marsh t.deref with
          | none => rfl
          | some rm =>
            obtain ⟨rid, m⟩ := rm
            dsimp only
            have h4 := hm t.deref rid m hmm h dw dv h3
            cases h5 : Γ.marshM t.deref h dw <;> cases h6 : m dv <;> rw [h5, h6] at h4 <;> first | (cases h4; done) | skip
            · dsimp only at h4
              simp only [Res.bind]
              rw [jencM_holds hm hj hz fuel _ _ _ _ _ fo h4]
            · cases h4; rfl
            · cases h4; rfl
            · rfl

end Amino
