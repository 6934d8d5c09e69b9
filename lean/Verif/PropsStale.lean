import Verif.SpecStale
import Verif.PropsRT

/-! # Property C25: the old contents of the variable unmarshalled into -/

namespace Amino
open Spec

variable {Γ : Prog} {c : Codec}

/-- The decoder `rec` does not look at stale data. -/
def Blind (Γ : Prog) (rec : Ty → Val → FOpts → Bool → Bytes → DRes Val) : Prop :=
  ∀ {t p p'}, Stale Γ t p p' → ∀ fo bare bz, rec t p fo bare bz = rec t p' fo bare bz

theorem derefPrior_target {t : Ty} {v : Val} : Γ.derefPrior (.ptr t) v = Γ.derefPrior t (target Γ t v) := by
  cases v <;> simp [Prog.derefPrior, target, Prog.zeroTy] <;> cases t <;> rfl

theorem stale_derefPrior {t : Ty} {p p' : Val} (h : Stale Γ t p p') :
    Stale Γ (.base t.deref) (Γ.derefPrior t p) (Γ.derefPrior t p') := by
  induction t generalizing p p' with
  | base id => exact h
  | ptr t ih =>
    rw [derefPrior_target, derefPrior_target]
    cases h with
    | same => exact .same
    | ptr h => exact ih h

variable {rec : Ty → Val → FOpts → Bool → Bytes → DRes Val}

theorem andSlide_congr {α β : Type} {r r' : DRes α} {bz : Bytes} {n : Nat} {k k' : α → Bytes → Nat → DRes β} (h : r = r')
    (hk : ∀ a b m, k a b m = k' a b m) : r.andSlide bz n k = r'.andSlide bz n k' := by
  subst h
  have : k = k' := by funext a b m; exact hk a b m
  rw [this]

theorem decPackedArr_blind (hr : Blind Γ rec) (e : Ty) (fo : FOpts) : ∀ (ps ps' : List Val), ps.length = ps'.length →
    (∀ q ∈ ps.zip ps', Stale Γ e q.1 q.2) → ∀ bz n, decPackedArr Γ rec e fo ps bz n = decPackedArr Γ rec e fo ps' bz n
  | [], [], _, _, _, _ => rfl
  | p :: ps, p' :: ps', hl, h, bz, n => by
    unfold decPackedArr
    refine andSlide_congr (hr (h (p, p') (by simp)) _ _ _) fun v b m => ?_
    rw [decPackedArr_blind hr e fo ps ps' (by simpa using hl) fun q hq => h q (by simp [hq])]

theorem decUnpackedArr_blind (hr : Blind Γ rec) (e : Ty) (fo : FOpts) : ∀ (ps ps' : List Val), ps.length = ps'.length →
    (∀ q ∈ ps.zip ps', Stale Γ e q.1 q.2) → ∀ bz n, decUnpackedArr Γ rec e fo ps bz n = decUnpackedArr Γ rec e fo ps' bz n
  | [], [], _, _, _, _ => rfl
  | p :: ps, p' :: ps', hl, h, bz, n => by
    have ih := decUnpackedArr_blind hr e fo ps ps' (by simpa using hl) fun q hq => h q (by simp [hq])
    have h0 := hr (h (p, p') (by simp))
    unfold decUnpackedArr
    simp only [ih, h0]

theorem decFields_blind (hr : Blind Γ rec) : ∀ (fs : List Field) (ps ps' : List Val), ps.length = fs.length →
    ps'.length = fs.length → (∀ q ∈ fs.zip (ps.zip ps'), q.1.visible = true → Stale Γ q.1.ty q.2.1 q.2.2) →
    (∀ q ∈ fs.zip (ps.zip ps'), q.1.visible = false → q.2.1 = q.2.2) → ∀ num last bz n,
    decFields Γ c rec fs ps num last bz n = decFields Γ c rec fs ps' num last bz n
  | [], [], [], _, _, _, _, _, _, _, _ => rfl
  | f :: fs, p :: ps, p' :: ps', hl, hl', h, h0, num, last, bz, n => by
    have ih := decFields_blind hr fs ps ps' (by simpa using hl) (by simpa using hl') (fun q hq => h q (by simp [hq]))
      (fun q hq => h0 q (by simp [hq]))
    have h1 := h (f, p, p') (by simp)
    have h2 := h0 (f, p, p') (by simp)
    simp only at h1 h2
    cases hv : f.visible with
    | false =>
      simp only [decFields, hv, Bool.not_false, if_true, ih, h2 hv]
    | true =>
      have h3 := hr (h1 hv)
      simp only [decFields, hv, Bool.not_true, Bool.false_eq_true, if_false, ih, h3]

theorem decBody_blind (hr : Blind Γ rec) : Blind Γ (decBody Γ c rec) := by
  intro t p p' h fo bare bz
  have h := stale_derefPrior h
  unfold decBody
  simp only
  generalize Γ.derefPrior t p = q at h ⊢
  generalize Γ.derefPrior t p' = q' at h ⊢
  generalize t.deref = id at h ⊢
  cases h with
  | same => rfl
  | override hu hi => simp only [hu, hi]
  | leaf hu hs hif ha =>
    simp only [hu]
    congr 2
    unfold decShape
    split <;> rename_i hsh
    · exact absurd hsh hif
    · rw [if_pos (ha _ _ hsh), if_pos (ha _ _ hsh)]
    · rfl
    · exact absurd hsh (hs _)
    all_goals rfl
  | array hu hs hl hz =>
    simp only [hu]
    congr 2
    unfold decShape
    simp only [hs]
    unfold decArray
    simp only [decPackedArr_blind hr _ _ _ _ hl hz, decUnpackedArr_blind hr _ _ _ _ hl hz]
  | struct hu hs hl hl' hz h0 =>
    simp only [hu]
    congr 2
    unfold decShape
    simp only [hs, decFields_blind hr _ _ _ hl hl' hz h0]

theorem dec_blind (g : Nat) : Blind Γ (dec Γ c g) := by
  induction g with
  | zero => intro t p p' _ fo bare bz; rfl
  | succ g ih => intro t p p' h fo bare bz; exact decBody_blind ih h fo bare bz

/-- C25: unmarshalling gives the same result, success or failure, whatever stale contents the variable has.

Missing for the full statement: a variable that is a non-nil pointer to a list (other than a list of structs);
there UnmarshalBinaryBare panics, see `C25_listPointer_panics`. -/
theorem C25_stale_partial {t : Ty} {p p' : Val} (h : Stale Γ t p p')
    (hl : t.isPtr = true → Γ.isListKind (.base t.deref) = false) (g : Nat) (bz : Bytes) :
    unmarshalBare Γ c g t p bz = unmarshalBare Γ c g t p' bz := by
  have hp : ∀ q, ptrToListPanics Γ t q = false := by
    intro q
    unfold ptrToListPanics
    cases hi : t.isPtr with
    | false => simp
    | true => rw [hl hi]; simp
  unfold unmarshalBare unmarshalContents decodeAll
  simp only [hp, dec_blind g h]

/-- C25 for the length-prefixed form. -/
theorem C25_staleLengthPrefixed_partial {t : Ty} {p p' : Val} (h : Stale Γ t p p')
    (hl : t.isPtr = true → Γ.isListKind (.base t.deref) = false) (g : Nat) (bz : Bytes) :
    unmarshalLP Γ c g t p bz = unmarshalLP Γ c g t p' bz := by
  unfold unmarshalLP
  simp only [C25_stale_partial h hl]

/-- C25: a non-nil interface on the way is refused, whatever the bytes. -/
theorem C25_nonNilInterface {id : TId} {p : Val} (hs : Γ.shape id = .iface) (hu : Γ.unmarsh id = none) (hp : p ≠ .nil)
    (g : Nat) (fo : FOpts) (bare : Bool) (bz : Bytes) :
    dec Γ c (g + 1) (.base id) p fo bare bz = .err 0 .nonNilIface := by
  show decBody Γ c (dec Γ c g) (.base id) p fo bare bz = _
  unfold decBody decShape decIface
  simp only [Ty.isPtr, Bool.false_and, Bool.false_eq_true, if_false, Ty.deref, hu, hs, Prog.derefPrior]
  cases p <;> first | exact absurd rfl hp | rfl

theorem decFields_hidden : ∀ {fs : List Field} {ps vs : List Val} {num last n m : Nat} {bz : Bytes},
    decFields Γ c rec fs ps num last bz n = .ok m vs →
    ∀ q ∈ fs.zip (ps.zip vs), q.1.visible = false → q.2.2 = q.2.1
  | [], [], vs, num, last, n, m, bz, h => by simp
  | [], p :: ps, vs, num, last, n, m, bz, h => by simp [decFields] at h
  | f :: fs, [], vs, num, last, n, m, bz, h => by simp [decFields] at h
  | f :: fs, p :: ps, vs, num, last, n, m, bz, h => by
    have map_ok : ∀ {r : DRes (List Val)} {w : Val}, (f.visible = false → w = p) →
        (∀ {m vs}, r = .ok m vs → ∀ q ∈ fs.zip (ps.zip vs), q.1.visible = false → q.2.2 = q.2.1) →
        (r.map fun vs => w :: vs) = .ok m vs →
        ∀ q ∈ (f :: fs).zip ((p :: ps).zip vs), q.1.visible = false → q.2.2 = q.2.1 := by
      intro r w hw ih h
      cases r <;> simp only [DRes.map_ok, DRes.map_err, DRes.map_panic, DRes.map_oof, DRes.ok.injEq, reduceCtorEq] at h
      obtain ⟨rfl, rfl⟩ := h
      intro q hq
      simp only [List.zip_cons_cons, List.mem_cons] at hq
      rcases hq with rfl | hq
      · exact hw
      · exact ih rfl q hq
    have slide_ok : ∀ {r : DRes Val} {bz n k}, DRes.andSlide r bz n k = .ok m vs → ∃ a b i, k a b i = DRes.ok m vs := by
      intro r bz n k h
      unfold DRes.andSlide at h
      cases r with
      | ok j a =>
        simp only at h
        split at h
        · exact ⟨_, _, _, h⟩
        · cases h
      | err j e => simp only at h; split at h <;> cases h
      | panic p => cases h
      | oof => cases h
    cases hv : f.visible with
    | false =>
      simp only [decFields, hv, Bool.not_false, if_true] at h
      exact map_ok (fun _ => rfl) (fun h => decFields_hidden h) h
    | true =>
      simp only [decFields, hv, Bool.not_true, Bool.false_eq_true, if_false] at h
      unfold infoThen at h
      split at h
      case h_1 =>
        split at h
        · exact map_ok (by simp [hv]) (fun h => decFields_hidden h) h
        split at h
        · obtain ⟨a, b, i, h⟩ := slide_ok h
          exact map_ok (by simp [hv]) (fun h => decFields_hidden h) h
        split at h
        · cases h
        · cases h
        · cases h
        split at h
        · exact map_ok (by simp [hv]) (fun h => decFields_hidden h) h
        split at h
        · cases h
        unfold slideThen at h
        split at h
        case isFalse => cases h
        split at h
        · cases h
        split at h
        · cases h
        · obtain ⟨a, b, i, h⟩ := slide_ok h
          exact map_ok (by simp [hv]) (fun h => decFields_hidden h) h
      all_goals cases h

/-- C25: fields that are not encoded (unexported or `json:"-"`) keep their old contents. -/
theorem C25_skippedKept {id : TId} {fs : List Field} {ps : List Val} {v : Val} (hs : Γ.shape id = .struct fs)
    (hu : Γ.unmarsh id = none) {g : Nat} {bz : Bytes} (h : unmarshalBare Γ c g (.base id) (.struct ps) bz = .ok v) :
    ∃ vs, v = .struct vs ∧ ∀ q ∈ fs.zip (ps.zip vs), q.1.visible = false → q.2.2 = q.2.1 := by
  have hst : Γ.structOrRep id = true := by unfold Prog.structOrRep; rw [hs]
  unfold unmarshalBare at h
  obtain ⟨_, _, h⟩ := Res.bind_eq_ok h
  obtain ⟨b, _, h⟩ := Res.bind_eq_ok h
  unfold unmarshalContents at h
  rw [show (Ty.base id).deref = id from rfl, if_pos hst] at h
  unfold decodeAll at h
  cases g with
  | zero => cases h
  | succ g =>
    split at h
    case h_1 n w hd =>
      split at h
      · cases h
      · cases h
        change decBody Γ c (dec Γ c g) (.base id) (.struct ps) { fnum := 1 } true b = _ at hd
        unfold decBody decShape at hd
        simp only [Ty.isPtr, Bool.false_and, Bool.false_eq_true, if_false, Ty.deref, hu, hs, Prog.derefPrior, unframe,
          if_true, wrapTy] at hd
        cases hf : decFields Γ c (dec Γ c g) fs ps 0 0 b 0 with
        | ok m vs =>
          rw [hf] at hd
          simp only [DRes.map_ok, DRes.ok.injEq] at hd
          exact ⟨vs, hd.2.symm, decFields_hidden hf⟩
        | err m e => rw [hf] at hd; cases hd
        | panic p => rw [hf] at hd; cases hd
        | oof => rw [hf] at hd; cases hd
    all_goals cases h

theorem mem_zip_replicate {α β : Type} {b : β} : ∀ {n : Nat} {l : List α} {q : α × β}, q ∈ l.zip (List.replicate n b) →
    q.1 ∈ l ∧ q.2 = b
  | 0, l, q, h => by simp at h
  | n + 1, [], q, h => by simp at h
  | n + 1, a :: l, q, h => by
    simp only [List.replicate_succ, List.zip_cons_cons, List.mem_cons] at h
    rcases h with rfl | h
    · exact ⟨by simp, rfl⟩
    · have := mem_zip_replicate h
      exact ⟨by simp [this.1], this.2⟩

theorem mem_zip3 : ∀ {fs : List Field} {vs : List Val} {q : Field × Val × Val},
    q ∈ fs.zip (vs.zip (fs.map fun f => Γ.zeroTy f.ty)) → (q.1, q.2.1) ∈ fs.zip vs ∧ q.2.2 = Γ.zeroTy q.1.ty
  | [], vs, q, h => by simp at h
  | f :: fs, [], q, h => by simp at h
  | f :: fs, v :: vs, q, h => by
    simp only [List.map_cons, List.zip_cons_cons, List.mem_cons] at h
    rcases h with rfl | h
    · exact ⟨by simp, rfl⟩
    · have := mem_zip3 h
      exact ⟨by simp [this.1], this.2⟩

/-- Clean contents are as good as those of a new variable. -/
theorem clean_stale (hZ : ZeroOk Γ) {t : Ty} {p : Val} (h : Clean Γ t p) : Stale Γ t p (Γ.zeroTy t) := by
  induction h with
  | nilPtr => exact .same
  | @ptr t v _ ih =>
    refine .ptr ?_
    have : target Γ t (Γ.zeroTy (.ptr t)) = Γ.zeroTy t := by cases t <;> rfl
    rw [this]
    exact ih
  | override hu hi => exact .override hu hi
  | leaf hu h1 h2 h3 => exact .leaf hu h1 h2 h3
  | iface hs => show Stale Γ _ _ (Γ.zero _); rw [hZ.iface hs]; exact .same
  | array hu hs hb hl _ ih =>
    show Stale Γ _ _ (Γ.zero _)
    rw [hZ.array hs hb]
    refine .array hu hs (by simp [hl]) ?_
    intro q hq
    obtain ⟨h1, h2⟩ := mem_zip_replicate hq
    rw [h2]
    exact ih _ h1
  | struct hu hs hl hv _ ih =>
    show Stale Γ _ _ (Γ.zero _)
    rw [hZ.struct hs]
    refine .struct hu hs hl (by simp) ?_ ?_
    · intro q hq _
      obtain ⟨h1, h2⟩ := mem_zip3 hq
      rw [h2]
      exact ih _ h1
    · intro q hq hf
      have : q.1 ∈ _ := (List.of_mem_zip hq).1
      rw [hv _ this] at hf
      cases hf

/-- C25: into a variable with clean old contents, unmarshalling gives what it gives into a new variable. -/
theorem C25_fresh_partial (hZ : ZeroOk Γ) {t : Ty} {p : Val} (h : Clean Γ t p)
    (hl : t.isPtr = true → Γ.isListKind (.base t.deref) = false) (g : Nat) (bz : Bytes) :
    unmarshalBare Γ c g t p bz = unmarshalBare Γ c g t (Γ.zeroTy t) bz :=
  C25_stale_partial (clean_stale hZ h) hl g bz

theorem Demo.leafClean {id : TId} {v : Val} (h : (match Demo.shape id with
    | .struct _ | .iface | .array _ _ => false
    | _ => true) = true) : Clean Demo.prog (.base id) v := by
  refine .leaf rfl ?_ ?_ ?_
  · intro fs hs; change Demo.shape id = _ at hs; rw [hs] at h; cases h
  · intro hs; change Demo.shape id = _ at hs; rw [hs] at h; cases h
  · intro n e hs; change Demo.shape id = _ at hs; rw [hs] at h; cases h

/-- A `Msg` full of data (also a non-nil pointer to another `Msg`), with a nil interface, is overwritten
completely. -/
example (bz : Bytes) : unmarshalBare Demo.prog Demo.codecFoo 10 (.base Demo.msgT)
      (.struct [.int 7, .str [1], .bytes [2], .ptr (.struct [.int 8, .str [], .nil, .nil, .nil, .nil, .time 5 5]),
        .list [.struct [.int 3, .bool true]], .nil, .time 9 9]) bz =
    unmarshalBare Demo.prog Demo.codecFoo 10 (.base Demo.msgT) (Demo.prog.zero Demo.msgT) bz := by
  have h : ∀ d, Clean Demo.prog (.ptr (.base Demo.msgT)) d → ∀ a b c e t, Clean Demo.prog (.base Demo.msgT)
      (.struct [a, b, c, d, e, .nil, t]) := by
    intro d hd a b c e t
    refine .struct (fs := Demo.msgFields) rfl rfl rfl (by decide) ?_
    simp only [Demo.msgFields, List.zip_cons_cons, List.zip_nil_left, List.mem_cons, List.not_mem_nil, or_false,
      forall_eq_or_imp, forall_eq]
    exact ⟨Demo.leafClean rfl, Demo.leafClean rfl, Demo.leafClean rfl, hd, Demo.leafClean rfl, .iface rfl,
      Demo.leafClean rfl⟩
  exact C25_fresh_partial Demo.prog_zero (h _ (.ptr (h _ .nilPtr _ _ _ _ _)) _ _ _ _ _) (by simp [Ty.isPtr]) 10 bz

/-- C25 is false for a non-nil pointer to a list of numbers: with a nil pointer the bytes are decoded, with a
non-nil pointer the call panics. -/
theorem C25_listPointer_panics :
    unmarshalBare Demo.prog Demo.codecFoo 5 (.ptr (.base Demo.int64sT)) .nil [10, 1, 5] = .ok (.ptr (.list [.int 5])) ∧
    unmarshalBare Demo.prog Demo.codecFoo 5 (.ptr (.base Demo.int64sT)) (.ptr (.list [.int 1])) [10, 1, 5] =
      .panic .illTyped := by
  decide +kernel

/-- A `Msg` with a non-nil interface: an error as soon as the field is on the wire. -/
example : dec Demo.prog Demo.codecFoo 5 (.base Demo.ifaceT) (.iface (.base Demo.fooT) (.struct [.int 1])) {} false [6, 1, 2, 3, 4, 8, 9] =
    .err 0 .nonNilIface := C25_nonNilInterface rfl rfl (by simp) 4 _ _ _

/-- The demo program with the second field of `Sub` not encoded. -/
def Demo.hiddenProg : Prog := { Demo.prog with
  shape := fun id => if id = Demo.subT then .struct [{ ty := .base Demo.int32T }, { ty := .base Demo.boolT, visible := false }]
    else Demo.prog.shape id }

example : ∃ v, unmarshalBare Demo.hiddenProg {} 5 (.base Demo.subT) (.struct [.int 9, .bool true]) [8, 4] = .ok v ∧
    v = .struct [.int 4, .bool true] := by
  have h : unmarshalBare Demo.hiddenProg {} 5 (.base Demo.subT) (.struct [.int 9, .bool true]) [8, 4] =
    .ok (.struct [.int 4, .bool true]) := by decide +kernel
  obtain ⟨vs, hv, _⟩ := C25_skippedKept (fs := [{ ty := .base Demo.int32T }, { ty := .base Demo.boolT, visible := false }])
    rfl rfl h
  exact ⟨_, h, rfl⟩

end Amino
