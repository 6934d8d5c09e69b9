import Verif.EvolveDemo
import Verif.PropsWire

/-!
# C77: types that change at any depth
-/

namespace Amino
open Spec

variable {Γ : Prog} {c c' : Codec} {D : Nat} {R : Bool → TId → TId → Prop}

theorem structOrRep_to (hE : Evolves Γ c c' D R) {b : Bool} {id id' : TId} (hR : R b id id') :
    Γ.structOrRep id' = Γ.structOrRep id := by
  have h := hE.shape hR
  unfold Prog.structOrRep
  generalize Γ.shape id = s at h
  generalize Γ.shape id' = s' at h
  cases h with
  | slice hp | array hp =>
    cases hp with
    | base hR => exact shapeTo_isStruct (hE.shape hR) rfl rfl
    | ptr _ => rfl
  | _ => rfl

/-- C77: a value of an old type and its counterpart in the new type are written as the same bytes. -/
theorem C77_sameBytes (hE : Evolves Γ c c' D R) (hT : Γ.Typed) {t t' : Ty} (hp : SamePtrs (R false) t t')
    (hpre : prefixOf c t.deref = prefixOf c' t'.deref) {v v' : Val} (hv : ValTo Γ c' D R false t t' v v') {f : Nat} {bz : Bytes}
    (h : marshalBare Γ c f t v = .ok bz) : marshalBare Γ c' (f + D) t' v' = .ok bz := by
  unfold marshalBare at h ⊢
  rcases valTo_deref hp hv with ⟨h1, h2⟩ | ⟨dv, dv', h1, h2, h3⟩
  · rw [h1] at h
    cases h
  · rw [h1] at h
    rw [h2]
    simp only at h ⊢
    obtain ⟨_, _, h⟩ := Res.bind_eq_ok h
    obtain ⟨x, hx, h⟩ := Res.bind_eq_ok h
    rw [hE.info hp.deref, Res.bind_ok, structOrRep_to hE hp.deref]
    have hb : ∀ n, TagOk false { fnum := n } := fun n _ => ⟨rfl, rfl⟩
    have ho : ∀ n, SameOpts { fnum := n } { fnum := n } := fun n => ⟨rfl, rfl, rfl, rfl, rfl, rfl⟩
    have : (if !Γ.structOrRep t.deref then
        writeField Γ (enc Γ c' (f + D)) 1 t'.deref {} dv' false (Γ.typ3 t'.deref {} != typ3ByteLength)
        else enc Γ c' (f + D) t'.deref dv' { fnum := 1 } true) = .ok x := by
      split at hx
      · rename_i hs
        rw [if_pos hs, typ3_to hE hp.deref (ho 0) (hb 0)]
        exact writeField_to hE (enc_to hE hT f) hp.deref (ho 0) (hb 0) h3 hx
      · rename_i hs
        rw [if_neg hs]
        exact enc_to hE hT f _ _ _ _ _ _ _ _ _ hp.deref h3 (ho 1) (hb 1) hx
    rw [this, Res.bind_ok]
    unfold prefixOf at hpre
    cases h1 : c.conc? t.deref <;> cases h2 : c'.conc? t'.deref <;> rw [h1] at h <;> rw [h1, h2] at hpre <;>
      simp_all

/-- C77: a message written with the old types is read with the new types as the counterpart of the value. -/
theorem C77_read (hE : Evolves Γ c c' D R) (hI : ImplTo Γ R) {S : TId → FOpts → Prop} (hU : Universe Γ c' S) (hZ : ZeroOk Γ)
    (hT : Γ.Typed) (hum : UserTotal Γ) (hp4 : Prefix4 c') {t t' : Ty} (hp : SamePtrs (R false) t t')
    (hpre : prefixOf c t.deref = prefixOf c' t'.deref) (hs : Γ.structOrRep t.deref = true)
    (hS : S t'.deref { fnum := 1 }) {v : Val} (ht : HasTy Γ t v) {f g : Nat} {bz : Bytes}
    (h : marshalBare Γ c f t v = .ok bz) (hl : bz.length < 2 ^ 63) (hg : 2 * (f + D) ≤ g) :
    ∃ v' w, ValTo Γ c' D R false t t' v v' ∧ HasTy Γ t' v' ∧ roundTrip Γ c' (f + D) t' v' = some w ∧
      unmarshalBare Γ c' g t' (Γ.zeroTy t') bz = .ok (refs t' w) := by
  obtain ⟨v', h1, h2⟩ := valTo_exists hE hT hI ht hp
  obtain ⟨w, h3, _, h4⟩ := C11_roundTrip hU hZ hT hum hp4 (by rw [structOrRep_to hE hp.deref, hs]) hS h2
    (C77_sameBytes hE hT hp hpre h1 h) hl hg rfl
  exact ⟨v', w, h1, h2, h3, h4⟩

/-- `Msg{L: []Sub{{7, "x"}}, I: Foo{5}}` written with the old types and read with the new ones. -/
example : unmarshalBare EvoDemo.prog EvoDemo.codecNew 16 (.base 14) (EvoDemo.prog.zero 14)
      [10, 5, 8, 7, 18, 1, 0x78, 18, 6, 1, 2, 3, 4, 8, 5] =
    .ok (.struct [.list [.struct [.int 7, .str [0x78], .bool false]], .iface (.base 12) (.struct [.int 5, .nil]), .nil]) := by
  have hm : marshalBare EvoDemo.prog EvoDemo.codecOld 7 (.base 13) EvoDemo.old =
      .ok [10, 5, 8, 7, 18, 1, 0x78, 18, 6, 1, 2, 3, 4, 8, 5] := by decide +kernel
  have ht : HasTy EvoDemo.prog (.base 13) EvoDemo.old := by
    refine .struct (fs := _) rfl rfl ?_
    simp
    refine ⟨.slice (e := .base 5) rfl rfl ?_, .iface rfl rfl (.struct (fs := _) rfl rfl ?_)⟩
    · simp
      refine .struct (fs := _) rfl rfl ?_
      simp
      exact ⟨.int rfl (by decide), .str rfl⟩
    · simp
      exact .int rfl (by decide)
  obtain ⟨_, w, _, _, _, h4⟩ := C77_read EvoDemo.evolves EvoDemo.implTo EvoDemo.univ EvoDemo.zeroOk EvoDemo.typed
    EvoDemo.userTotal EvoDemo.prefix4 (t := .base 13) (t' := .base 14) (.base ⟨rfl, by decide⟩) rfl rfl
    (by simp [EvoDemo.S, Ty.deref]) ht hm (by decide) (g := 16) (by omega)
  have hd : unmarshalBare EvoDemo.prog EvoDemo.codecNew 16 (.base 14) (EvoDemo.prog.zeroTy (.base 14))
      [10, 5, 8, 7, 18, 1, 0x78, 18, 6, 1, 2, 3, 4, 8, 5] =
    .ok (.struct [.list [.struct [.int 7, .str [0x78], .bool false]], .iface (.base 12) (.struct [.int 5, .nil]), .nil]) := by
    decide +kernel
  rw [hd] at h4
  exact hd

/-- C77, for widenings in general: refuted.  `int8` and `int16` are written zig-zag, the wider integers as plain varints:
`struct{ N int16 }{5}` is read, without an error, as `struct{ N int32 }{10}`. -/
theorem C77_widen_refuted : ∃ (Γ : Prog) (old new : TId) (v : Val) (bz : Bytes), Γ.Typed ∧
    Γ.shape old = .struct [{ ty := .base 15 }] ∧ Γ.shape new = .struct [{ ty := .base 1 }] ∧ Γ.shape 15 = .int .int16 ∧
    Γ.shape 1 = .int .int32 ∧ v = .struct [.int 5] ∧ marshalBare Γ {} 5 (.base old) v = .ok bz ∧
    unmarshalBare Γ {} 10 (.base new) (Γ.zero new) bz = .ok (.struct [.int 10]) :=
  ⟨EvoDemo.prog, 16, 17, _, [8, 10], EvoDemo.typed, rfl, rfl, rfl, rfl, rfl, by decide +kernel, by decide +kernel⟩

end Amino
