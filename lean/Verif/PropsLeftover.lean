import Verif.LeftLemmas
import Verif.PropsDec

/-! # Property C92: the variable after a failed Unmarshal -/

namespace Amino
open Spec

namespace Spec

/-- Types that can be overwritten in any state: no interface (except inside slices) and no field that is not
encoded is reached, and UnmarshalAmino methods ignore the old contents of the receiver. -/
structure Reusable (Γ : Prog) (S : TId → Prop) : Prop where
  iface : ∀ {id}, S id → Γ.shape id ≠ .iface
  array : ∀ {id n e}, S id → Γ.shape id = .array n e → Γ.isByteKind e = false → S e.deref
  struct : ∀ {id fs}, S id → Γ.shape id = .struct fs → ∀ f ∈ fs, f.visible = true ∧ S f.ty.deref
  unmarsh : ∀ {id rid um}, S id → Γ.unmarsh id = some (rid, um) → ∀ p p' r, um p r = um p' r

end Spec

variable {Γ : Prog} {c : Codec} {S S' : TId → Prop} {spoil : TId → Val → Val → Val}

theorem reusable_clean (hR : Reusable Γ S) {t : Ty} {p : Val} (h : HasTy Γ t p) (ht : S t.deref) : Clean Γ t p := by
  have ov : ∀ {id v}, S id → (Γ.unmarsh id = none → Clean Γ (.base id) v) → Clean Γ (.base id) v := by
    intro id v hi h
    cases hu : Γ.unmarsh id with
    | none => exact h hu
    | some q => obtain ⟨rid, um⟩ := q; exact .override hu (hR.unmarsh hi hu _ _)
  induction h with
  | ptrNil => exact .nilPtr
  | ptr _ ih => exact .ptr (ih ht)
  | arrayBytes hs hb =>
    refine ov ht fun hu => .leaf hu (by simp [hs]) (by simp [hs]) ?_
    intro n e he; rw [hs] at he; cases he; exact hb
  | array hs hb hl _ ih => exact ov ht fun hu => .array hu hs hb hl fun v hv => ih v hv (hR.array ht hs hb)
  | ifaceNil hs => exact .iface hs
  | iface hs => exact absurd hs (hR.iface ht)
  | struct hs hl _ ih =>
    refine ov ht fun hu => .struct hu hs hl.symm (fun f hf => (hR.struct ht hs f hf).1) fun q hq => ?_
    exact ih q hq (hR.struct ht hs _ (List.of_mem_zip hq).1).2
  | _ => rename_i hs <;> exact ov ht fun hu => .leaf hu (by simp_all) (by simp_all) (by simp_all)

theorem leftContents_typed (hT : Γ.Typed) (hu : Γ.UserOk) (hS : DecUniv Γ c S) (hsp : SpoilTy Γ spoil) {t : Ty} (ht : OkTy Γ S t)
    {p : Val} (hp : HasTy Γ t p) (f : Nat) (bz : Bytes) : HasTy Γ t (leftContents Γ c spoil f t p bz) := by
  have h := @left_typed _ c _ spoil hT hu hS hsp f
  unfold leftContents
  split
  · exact h _ _ _ ht hp
  split
  · exact hp
  split
  · split
    · split
      · exact hp
      split
      · exact hp
      · exact h _ _ _ ht hp
    · exact hp
  · exact h _ _ _ ht hp

/-- C92: whatever the bytes, successful or not, the call leaves a value of the variable's type in the variable. -/
theorem C92_typed (hT : Γ.Typed) (hu : Γ.UserOk) (hS : DecUniv Γ c S) (hsp : SpoilTy Γ spoil) {t : Ty} (ht : OkTy Γ S t)
    {p : Val} (hp : HasTy Γ t p) (f : Nat) (bz : Bytes) : HasTy Γ t (leftBare Γ c spoil f t p bz) := by
  unfold leftBare
  split
  · split
    · exact leftContents_typed hT hu hS hsp ht hp _ _
    · exact hp
  · exact hp

/-- C92: after a successful call the variable holds the decoded value. -/
theorem C92_success {t : Ty} {p v : Val} {f : Nat} {bz : Bytes} (h : unmarshalBare Γ c f t p bz = .ok v) :
    leftBare Γ c spoil f t p bz = v := by
  have all : ∀ {bare b}, decodeAll Γ c f t p bare b = .ok v → left Γ c spoil f t p { fnum := 1 } bare b = v := by
    intro bare b h
    unfold decodeAll at h
    split at h
    case h_1 hd =>
      split at h
      · cases h
      · cases h; exact left_ok hd
    all_goals cases h
  unfold unmarshalBare at h
  obtain ⟨_, hi, h⟩ := Res.bind_eq_ok h
  obtain ⟨b, hb, h⟩ := Res.bind_eq_ok h
  unfold leftBare
  simp only [hi, hb]
  unfold unmarshalContents at h
  unfold leftContents
  split at h
  · rename_i h1; rw [if_pos h1]; exact all h
  rename_i h1
  rw [if_neg h1]
  split at h
  · cases h
  rename_i h2
  rw [if_neg h2]
  split at h
  · rename_i h3
    rw [if_pos h3]
    split at h
    case h_4 hk =>
      simp only [hk]
      split at h
      · cases h
      rename_i h4
      rw [if_neg h4]
      split at h
      · cases h
      rename_i h5
      rw [if_neg h5]
      split at h
      · exact all h
      · cases h
    all_goals cases h
  · rename_i h3
    rw [if_neg h3]
    exact all h

/-- C92: a variable of a reusable type can be used for any number of calls, whether they fail or not: the next
call returns what it would have returned for a new variable.

Missing for the full statement: interfaces (`C92_interface_refuted`), pointers to lists
(`C92_listPointer_refuted`). -/
theorem C92_again_partial (hT : Γ.Typed) (hZ : ZeroOk Γ) (hu : Γ.UserOk) (hS : DecUniv Γ c S) (hsp : SpoilTy Γ spoil)
    (hR : Reusable Γ S') {t : Ty} (ht : OkTy Γ S t) (ht' : S' t.deref)
    (hl : t.isPtr = true → Γ.isListKind (.base t.deref) = false) {p : Val} (hp : HasTy Γ t p) (f g : Nat)
    (before : List Bytes) (bz : Bytes) :
    unmarshalBare Γ c g t (before.foldl (leftBare Γ c spoil f t) p) bz = unmarshalBare Γ c g t (Γ.zeroTy t) bz := by
  have h : HasTy Γ t (before.foldl (leftBare Γ c spoil f t) p) := by
    induction before generalizing p with
    | nil => exact hp
    | cons b bs ih => exact ih (C92_typed hT hu hS hsp ht hp f b)
  exact C25_fresh_partial hZ (reusable_clean hR h ht') hl g bz

theorem left_leaf {id : TId} (hu : Γ.unmarsh id = none) (hs : ∀ fs, Γ.shape id ≠ .struct fs) (hi : Γ.shape id ≠ .iface)
    (ha : ∀ n e, Γ.shape id = .array n e → Γ.isByteKind e = true) (f : Nat) (p : Val) (fo : FOpts) (bare : Bool) (bz : Bytes) :
    left Γ c spoil f (.base id) p fo bare bz = p ∨ ∃ n v, dec Γ c f (.base id) p fo bare bz = .ok n v := by
  cases f with
  | zero => exact .inl rfl
  | succ f =>
    have hd : dec Γ c (f + 1) (.base id) p fo bare bz = decShape Γ c (dec Γ c f) id p fo bare bz := by
      show decBody Γ c (dec Γ c f) (.base id) p fo bare bz = _
      unfold decBody
      simp only [Ty.isPtr, Bool.false_and, Bool.false_eq_true, if_false, Ty.deref, hu, Prog.derefPrior]
      cases decShape Γ c (dec Γ c f) id p fo bare bz <;> rfl
    have hl : left Γ c spoil (f + 1) (.base id) p fo bare bz = leftShape Γ c (dec Γ c f) (left Γ c spoil f) id p fo bare bz := by
      show leftBody Γ c spoil (dec Γ c f) _ (.base id) p fo bare bz = _
      unfold leftBody
      simp only [Ty.isPtr, Bool.false_and, Bool.false_eq_true, if_false, Ty.deref, hu, Prog.derefPrior, wrapTy]
    rw [hd, hl]
    have h : leftShape Γ c (dec Γ c f) (left Γ c spoil f) id p fo bare bz = (match decShape Γ c (dec Γ c f) id p fo bare bz with
        | .ok _ v => v
        | _ => p) := by
      unfold leftShape
      split
      · exact absurd ‹_› hi
      · rename_i hsh; rw [if_pos (ha _ _ hsh)]; rfl
      · exact absurd ‹_› (hs _)
      · rfl
    rw [h]
    split
    · rename_i hok; exact .inr ⟨_, _, hok⟩
    · exact .inl rfl

/-- C92: a failed call leaves numbers, strings, times, slices and byte arrays as they were, unless the error is
that bytes are left over.

Missing for the full statement: all other types, of which parts may have been replaced (`C92_half_refuted`), and
values followed by more bytes (`C92_trailing_refuted`). -/
theorem C92_kept_partial {id : TId} (hu : Γ.unmarsh id = none) (hs : ∀ fs, Γ.shape id ≠ .struct fs) (hi : Γ.shape id ≠ .iface)
    (ha : ∀ n e, Γ.shape id = .array n e → Γ.isByteKind e = true) {f : Nat} {p : Val} {bz : Bytes} {e : Err}
    (h : unmarshalBare Γ c f (.base id) p bz = .err e) (he : e ≠ .leftover) : leftBare Γ c spoil f (.base id) p bz = p := by
  have all : ∀ {bare b}, decodeAll Γ c f (.base id) p bare b = .err e → left Γ c spoil f (.base id) p { fnum := 1 } bare b = p := by
    intro bare b h
    rcases left_leaf (c := c) (spoil := spoil) hu hs hi ha f p { fnum := 1 } bare b with h' | ⟨n, v, h'⟩
    · exact h'
    · unfold decodeAll at h
      rw [h'] at h
      simp only at h
      split at h
      · cases h; exact absurd rfl he
      · cases h
  unfold leftBare
  split
  case h_2 => rfl
  rename_i hi
  split
  case h_2 => rfl
  rename_i b hb
  unfold unmarshalBare at h
  simp only [hi, hb, Res.bind] at h
  unfold unmarshalContents at h
  unfold leftContents
  split at h
  · rename_i h1; rw [if_pos h1]; exact all h
  rename_i h1
  rw [if_neg h1]
  split at h
  · cases h
  rename_i h2
  rw [if_neg h2]
  split at h
  · rename_i h3
    rw [if_pos h3]
    split
    · rename_i hk
      rw [hk] at h
      simp only at h
      split at h
      · rename_i h4; rw [if_pos h4]
      rename_i h4
      rw [if_neg h4]
      split at h
      · rename_i h5; rw [if_pos h5]
      rename_i h5
      rw [if_neg h5]
      split at h
      · exact all h
      · cases h
    · rfl
  · rename_i h3
    rw [if_neg h3]
    exact all h

theorem leftFields_hidden {rec : Ty → Val → FOpts → Bool → Bytes → DRes Val} {lft : Ty → Val → FOpts → Bool → Bytes → Val} :
    ∀ (fs : List Field) (ps : List Val) (num last : Nat) (bz : Bytes),
    (leftFields Γ c rec lft fs ps num last bz).length = ps.length ∧
    ∀ q ∈ fs.zip (ps.zip (leftFields Γ c rec lft fs ps num last bz)), q.1.visible = false → q.2.2 = q.2.1
  | [], ps, num, last, bz => by simp [leftFields]
  | f :: fs, [], num, last, bz => by simp [leftFields]
  | f :: fs, p :: ps, num, last, bz => by
    have same : ∀ (fs : List Field) (ps : List Val), ∀ q ∈ fs.zip (ps.zip ps), q.1.visible = false → q.2.2 = q.2.1 := by
      intro fs
      induction fs with
      | nil => simp
      | cons f fs ih =>
        intro ps
        cases ps with
        | nil => simp
        | cons p ps =>
          intro q hq
          simp only [List.zip_cons_cons, List.mem_cons] at hq
          rcases hq with rfl | hq
          · exact fun _ => rfl
          · exact ih ps q hq
    have cons : ∀ {w : Val} {ws : List Val}, (f.visible = false → w = p) →
        (ws.length = ps.length ∧ ∀ q ∈ fs.zip (ps.zip ws), q.1.visible = false → q.2.2 = q.2.1) →
        (w :: ws).length = (p :: ps).length ∧
        ∀ q ∈ (f :: fs).zip ((p :: ps).zip (w :: ws)), q.1.visible = false → q.2.2 = q.2.1 := by
      intro w ws hw h
      refine ⟨by simp [h.1], ?_⟩
      intro q hq
      simp only [List.zip_cons_cons, List.mem_cons] at hq
      rcases hq with rfl | hq
      · exact hw
      · exact h.2 q hq
    have stay : ∀ {w : Val}, (f.visible = false → w = p) → (w :: ps).length = (p :: ps).length ∧
        ∀ q ∈ (f :: fs).zip ((p :: ps).zip (w :: ps)), q.1.visible = false → q.2.2 = q.2.1 :=
      fun hw => cons hw ⟨rfl, same fs ps⟩
    have ih := fun num last bz => leftFields_hidden (rec := rec) (lft := lft) fs ps num last bz
    unfold leftFields
    split
    · exact cons (fun _ => rfl) (ih _ _ _)
    rename_i hv
    have hv : ∀ {w : Val}, f.visible = false → w = p := by intro w h; simp [h] at hv
    repeat' split
    all_goals first | exact cons hv (ih _ _ _) | exact stay hv

/-- C92: fields that are not encoded keep their contents also if the call fails. -/
theorem C92_hidden {id : TId} {fs : List Field} (hs : Γ.shape id = .struct fs) (hu : Γ.unmarsh id = none) (f : Nat)
    (ps : List Val) (bz : Bytes) : ∃ vs, leftBare Γ c spoil f (.base id) (.struct ps) bz = .struct vs ∧
      vs.length = ps.length ∧ ∀ q ∈ fs.zip (ps.zip vs), q.1.visible = false → q.2.2 = q.2.1 := by
  have self : ∃ vs, Val.struct ps = .struct vs ∧
      vs.length = ps.length ∧ ∀ q ∈ fs.zip (ps.zip vs), q.1.visible = false → q.2.2 = q.2.1 := by
    refine ⟨ps, rfl, rfl, fun q hq _ => ?_⟩
    have h := (List.of_mem_zip hq).2
    obtain ⟨i, hi, h⟩ := List.mem_iff_getElem.mp h
    rw [← h]
    simp
  have hst : Γ.structOrRep id = true := by unfold Prog.structOrRep; rw [hs]
  unfold leftBare
  split
  case h_2 => exact self
  split
  case h_2 => exact self
  unfold leftContents
  rw [show (Ty.base id).deref = id from rfl, if_pos hst]
  cases f with
  | zero => exact self
  | succ f =>
    unfold left leftBody leftShape
    simp only [Ty.isPtr, Bool.false_and, Bool.false_eq_true, if_false, Ty.deref, hu, hs, Prog.derefPrior, leftFrame,
      if_true, wrapTy]
    rename_i b _
    have h := leftFields_hidden (Γ := Γ) (c := c) (rec := dec Γ c f) (lft := left Γ c spoil f) fs ps 0 0 b
    exact ⟨_, rfl, h.1, h.2⟩

/-! ## The demo program -/

theorem Demo.reusable : Reusable Demo.prog fun id => id ≠ Demo.msgT ∧ id ≠ Demo.ifaceT where
  iface := by
    intro id h hs
    change Demo.shape id = _ at hs
    unfold Demo.shape at hs
    split at hs <;> first | (cases hs; done) | exact h.2 rfl
  array := by
    intro id n e h hs _
    change Demo.shape id = _ at hs
    unfold Demo.shape at hs
    split at hs <;> cases hs
    exact ⟨by decide, by decide⟩
  struct := by
    intro id fs h hs f hf
    change Demo.shape id = _ at hs
    unfold Demo.shape at hs
    split at hs <;> cases hs <;> first | exact absurd rfl h.1 | skip
    all_goals
      revert f
      decide
  unmarsh := by intro id rid um _ h; cases h

def Demo.noSpoil : TId → Val → Val → Val := fun _ p _ => p

/-- Three calls into the same `[2]int64`, the first two of which fail halfway. -/
example (bz : Bytes) : unmarshalBare Demo.prog Demo.codecFoo 9 (.base Demo.arrT)
      ([[10, 2, 5], [10, 3, 5, 6, 7]].foldl (leftBare Demo.prog Demo.codecFoo Demo.noSpoil 9 (.base Demo.arrT)) (.list [.int 8, .int 9])) bz =
    unmarshalBare Demo.prog Demo.codecFoo 9 (.base Demo.arrT) (.list [.int 0, .int 0]) bz :=
  C92_again_partial Demo.prog_typed Demo.prog_zero Demo.prog_user (Demo.univ _) (S := fun _ => True) (fun _ h => h) Demo.reusable
    ⟨trivial, rfl⟩ ⟨by decide, by decide⟩ (by simp [Ty.isPtr])
    (.array (e := .base Demo.int64T) rfl rfl rfl (by
      intro v hv
      simp only [List.mem_cons, List.not_mem_nil, or_false] at hv
      rcases hv with rfl | rfl <;> exact .int (k := .int64) rfl (by decide))) 9 9 _ bz

/-- A failed call does change the array: the second element has been read. -/
theorem C92_half_refuted :
    unmarshalBare Demo.prog Demo.codecFoo 9 (.base Demo.arrT) (.list [.int 8, .int 9]) [10, 3, 5, 6, 7] = .err .leftover ∧
    leftBare Demo.prog Demo.codecFoo Demo.noSpoil 9 (.base Demo.arrT) (.list [.int 8, .int 9]) [10, 3, 5, 6, 7] =
      .list [.int 5, .int 6] ∧
    unmarshalBare Demo.prog Demo.codecFoo 9 (.base Demo.subT) (.struct [.int 8, .bool true]) [8, 5, 16] = .err .eof ∧
    leftBare Demo.prog Demo.codecFoo Demo.noSpoil 9 (.base Demo.subT) (.struct [.int 8, .bool true]) [8, 5, 16] =
      .struct [.int 5, .bool true] := by decide +kernel

/-- Bytes left over: an error, but the number has been stored. -/
theorem C92_trailing_refuted :
    unmarshalBare Demo.prog Demo.codecFoo 9 (.base Demo.int64T) (.int 7) [8, 5, 0] = .err .leftover ∧
    leftBare Demo.prog Demo.codecFoo Demo.noSpoil 9 (.base Demo.int64T) (.int 7) [8, 5, 0] = .int 5 := by decide +kernel

/-- A number that cannot be read leaves the variable alone. -/
example : leftBare Demo.prog Demo.codecFoo Demo.noSpoil 9 (.base Demo.int64T) (.int 7) [8, 255] = .int 7 :=
  C92_kept_partial (e := .bufTooSmall) rfl (by intro _ h; cases h) (by intro h; cases h) (by intro _ _ h; cases h)
    (by decide +kernel) (by decide)

/-- C92 is false for interfaces: the failed call leaves a half-read `Foo` in the interface, after which good bytes
are refused that a new variable accepts. -/
theorem C92_interface_refuted :
    (∃ e, unmarshalBare Demo.prog Demo.codecFoo 9 (.base Demo.ifaceT) .nil [1, 2, 3, 4, 8] = .err e) ∧
    leftBare Demo.prog Demo.codecFoo Demo.noSpoil 9 (.base Demo.ifaceT) .nil [1, 2, 3, 4, 8] =
      .iface (.ptr (.base Demo.fooT)) (.ptr (.struct [.int 0])) ∧
    unmarshalBare Demo.prog Demo.codecFoo 9 (.base Demo.ifaceT)
      (leftBare Demo.prog Demo.codecFoo Demo.noSpoil 9 (.base Demo.ifaceT) .nil [1, 2, 3, 4, 8]) [1, 2, 3, 4, 8, 5] =
        .err .nonNilIface ∧
    unmarshalBare Demo.prog Demo.codecFoo 9 (.base Demo.ifaceT) .nil [1, 2, 3, 4, 8, 5] =
      .ok (.iface (.ptr (.base Demo.fooT)) (.ptr (.struct [.int 5]))) := by
  exact ⟨⟨.bufTooSmall, by decide +kernel⟩, by decide +kernel⟩

/-- C92 is false for pointers to lists: after a failed call the pointer is not nil any more, and the next call
panics. -/
theorem C92_listPointer_refuted :
    (∃ e, unmarshalBare Demo.prog Demo.codecFoo 9 (.ptr (.base Demo.int64sT)) .nil [10, 2, 5] = .err e) ∧
    leftBare Demo.prog Demo.codecFoo Demo.noSpoil 9 (.ptr (.base Demo.int64sT)) .nil [10, 2, 5] = .ptr .nil ∧
    unmarshalBare Demo.prog Demo.codecFoo 9 (.ptr (.base Demo.int64sT))
      (leftBare Demo.prog Demo.codecFoo Demo.noSpoil 9 (.ptr (.base Demo.int64sT)) .nil [10, 2, 5]) [10, 1, 5] =
        .panic .illTyped ∧
    unmarshalBare Demo.prog Demo.codecFoo 9 (.ptr (.base Demo.int64sT)) .nil [10, 1, 5] =
      .ok (.ptr (.list [.int 5])) := by
  exact ⟨⟨.insufficient, by decide +kernel⟩, by decide +kernel⟩

example : ∃ vs, leftBare Demo.hiddenProg {} Demo.noSpoil 5 (.base Demo.subT) (.struct [.int 9, .bool true]) [8] = .struct vs ∧
    vs.length = 2 ∧ ∀ q ∈ [({ ty := .base Demo.int32T } : Field), { ty := .base Demo.boolT, visible := false }].zip
      ([.int 9, .bool true].zip vs), q.1.visible = false → q.2.2 = q.2.1 :=
  C92_hidden rfl rfl 5 _ _

end Amino
