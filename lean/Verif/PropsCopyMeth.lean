import Verif.SpecCopyMeth
import Verif.CopyMeth
import Verif.PropsMethods

/-! # Property C113: DeepCopy uses the methods of a type -/

namespace Amino
open Spec

variable {D : TId → TDecl} {mbn : MethodByName} {Γ : Prog} {C : CMethods} {ex : TId → Nat → Bool} {zH : Ty → HVal}

theorem isIface_kind {id : TId} : Γ.isIface id = true ↔ Γ.shape id = .iface := by
  unfold Prog.isIface
  cases Γ.shape id <;> simp

theorem valueMethod_iff (hg : GoMethods D mbn) {t : Ty} {name : Bytes} {m : MDecl} :
    valueMethod Γ mbn t name = some m ↔ InMethodSet D Γ.shape t name m := by
  match t with
  | .base id =>
    show mbn id false name = some m ↔ _
    rw [hg]
    exact ⟨.val, fun h => by cases h; assumption⟩
  | .ptr (.base id) =>
    show (if Γ.isIface id then none else mbn id true name) = some m ↔ _
    cases hi : Γ.isIface id with
    | true =>
      have := isIface_kind.1 hi
      constructor
      · intro h; cases h
      · intro h; cases h with | ptr h _ => exact absurd this h
    | false =>
      have hn : Γ.shape id ≠ .iface := fun h => by rw [isIface_kind.2 h] at hi; cases hi
      show mbn id true name = some m ↔ _
      rw [hg]
      exact ⟨.ptr hn, fun h => by cases h; assumption⟩
  | .ptr (.ptr _) =>
    constructor
    · intro h; cases h
    · intro h; cases h

theorem Spec.InMethodSet.unique {shape : TId → Shape} {t : Ty} {name : Bytes} {m m' : MDecl}
    (h : InMethodSet D shape t name m) (h' : InMethodSet D shape t name m') : m = m' := by
  cases h with
  | val h => cases h' with | val h' => exact h.unique h'
  | ptr _ h => cases h' with | ptr _ h' => exact h.unique h'

theorem deepCopyOut_iff (hg : GoMethods D mbn) {t o : Ty} :
    deepCopyOut Γ mbn t = some o ↔ CopiesTo D Γ.shape t o := by
  unfold deepCopyOut CopiesTo
  cases h : valueMethod Γ mbn t (ascii "DeepCopy") with
  | none =>
    constructor
    · intro e; cases e
    · rintro ⟨m, hm, -⟩; rw [(valueMethod_iff hg).2 hm] at h; cases h
  | some m =>
    have hm := (valueMethod_iff hg).1 h
    have key : (∃ m, InMethodSet D Γ.shape t (ascii "DeepCopy") m ∧ m.sig = ⟨[], [.ty o]⟩) ↔ m.sig = ⟨[], [.ty o]⟩ :=
      ⟨fun ⟨m', h1, h2⟩ => by cases hm.unique h1; exact h2, fun h => ⟨m, hm, h⟩⟩
    rw [key]
    obtain ⟨n, b, ⟨ins, outs⟩⟩ := m
    match ins, outs with
    | _ :: _, _ => simp
    | [], [] => simp
    | [], _ :: _ :: _ => simp
    | [], [a] => cases a <;> simp

theorem canAminoCopy_iff (hg : GoMethods D mbn) {t : Ty} :
    canAminoCopy Γ mbn t = true ↔ CopiesAmino D Γ.shape t := by
  unfold canAminoCopy CopiesAmino
  cases h : valueMethod Γ mbn t (ascii "UnmarshalAmino") with
  | none =>
    constructor
    · intro e; cases e
    · rintro ⟨m, u, r, -, hu, -⟩; rw [(valueMethod_iff hg).2 hu] at h; cases h
  | some u =>
    have hu := (valueMethod_iff hg).1 h
    cases h' : valueMethod Γ mbn t (ascii "MarshalAmino") with
    | none =>
      constructor
      · intro e
        dsimp only at e
        repeat (split at e; · cases e)
        cases e
      · rintro ⟨m, u, r, hm, -⟩; rw [(valueMethod_iff hg).2 hm] at h'; cases h'
    | some m =>
      have hm := (valueMethod_iff hg).1 h'
      have key : (∃ m u r, InMethodSet D Γ.shape t (ascii "MarshalAmino") m ∧ InMethodSet D Γ.shape t (ascii "UnmarshalAmino") u ∧
          m.sig = ⟨[], [r, .error]⟩ ∧ u.sig = ⟨[r], [.error]⟩) ↔ ∃ r, m.sig = ⟨[], [r, .error]⟩ ∧ u.sig = ⟨[r], [.error]⟩ :=
        ⟨fun ⟨m', u', r, h1, h2, h3⟩ => by cases hm.unique h1; cases hu.unique h2; exact ⟨r, h3⟩,
          fun ⟨r, h⟩ => ⟨m, u, r, hm, hu, h⟩⟩
      rw [key]
      obtain ⟨n, b, ⟨ins, outs⟩⟩ := m
      obtain ⟨n', b', ⟨ins', outs'⟩⟩ := u
      match ins', outs' with
      | [], _ => simp
      | _ :: _ :: _, _ => simp
      | [_], [] => simp
      | [_], _ :: _ :: _ => simp
      | [a], [b] =>
        match ins, outs with
        | _ :: _, _ => simp
        | [], [] => simp
        | [], [_] => simp
        | [], _ :: _ :: _ :: _ => simp
        | [], [c, d] =>
          cases hb : decide (b = MTy.error) <;> cases hd : decide (d = MTy.error) <;> simp at hb hd <;> simp [hb, hd, eq_comm]

variable (ex zH) in
/-- A value (not nil) of a type with a method DeepCopy. -/
theorem copyVal_self (hg : GoMethods D mbn) {n : Nat} {addr : Bool} {t o : Ty} {v : HVal} {h : Heap}
    (hc : CopiesTo D Γ.shape t o) (hv : v ≠ .nil) :
    (t = o → copyVal (dprogOf Γ mbn C ex zH) (n + 1) true addr t v h = C.deepCopy t h v) ∧
    (t = .ptr o → copyVal (dprogOf Γ mbn C ex zH) (n + 1) true addr t v h =
      (C.deepCopy t h v).bind fun (w, h) => .ok (.ptr h.length, h ++ [.var w])) := by
  have hn : v.isNil = false := by cases v <;> first | rfl | exact absurd rfl hv
  have ho := (deepCopyOut_iff hg).2 hc
  have hM : (dprogOf Γ mbn C ex zH).deepCopyM t = some (o, C.deepCopy t) := by
    show (deepCopyOut Γ mbn t).map _ = _
    rw [ho]; rfl
  constructor
  · rintro rfl
    have hne : t ≠ .ptr t := by
      intro e
      have := congrArg sizeOf e
      simp at this
    simp [copyVal, hn, callDeepCopy, hM, hne]
  · rintro rfl
    simp [copyVal, hn, callDeepCopy, hM]

/-- No method DeepCopy that fits. -/
theorem callDeepCopy_none (hg : GoMethods D mbn) {t : Ty} {v : HVal} {h : Heap} (hc : ¬ CopiesSelf D Γ.shape t) :
    callDeepCopy (dprogOf Γ mbn C ex zH) t v h = none := by
  have hM : (dprogOf Γ mbn C ex zH).deepCopyM t = (deepCopyOut Γ mbn t).map fun o => (o, C.deepCopy t) := rfl
  unfold callDeepCopy
  rw [hM]
  cases ho : deepCopyOut Γ mbn t with
  | none => rfl
  | some o =>
    have hc' := (deepCopyOut_iff hg).1 ho
    have h1 : t ≠ o := fun e => hc ⟨o, hc', .inl e⟩
    have h2 : t ≠ .ptr o := fun e => hc ⟨o, hc', .inr e⟩
    simp [h1, h2]

/-- Property C113, methods DeepCopy: wherever DeepCopy comes to a value (not nil) of a type with `DeepCopy() T`, its
result is the copy. -/
theorem C113_deepcopy (hg : GoMethods D mbn) {n : Nat} {id : TId} {v : HVal} {h : Heap}
    (hc : CopiesTo D Γ.shape (.base id) (.base id)) (hv : v ≠ .nil) :
    deepCopyTop (dprogOf Γ mbn C ex zH) (n + 1) (.base id) v h = C.deepCopy (.base id) h v :=
  (copyVal_self ex zH hg hc hv).1 rfl

/-- C113: for a pointer to such a type, a pointer to a new variable with the result. -/
theorem C113_deepcopy_pointer (hg : GoMethods D mbn) {n : Nat} {t : Ty} {a : Addr} {h h' : Heap} {w : HVal}
    (hc : CopiesTo D Γ.shape (.ptr t) t) (hr : C.deepCopy (.ptr t) h (.ptr a) = .ok (w, h')) :
    deepCopyTop (dprogOf Γ mbn C ex zH) (n + 1) (.ptr t) (.ptr a) h = .ok (.ptr h'.length, h' ++ [.var w]) := by
  show copyVal _ _ _ _ _ _ _ = _
  rw [(copyVal_self ex zH hg hc (by intro e; cases e)).2 rfl, hr]; rfl

/-- C113: for a pointer to a type with MarshalAmino and UnmarshalAmino of the same representation, UnmarshalAmino is
called on a new variable with what MarshalAmino gives. -/
theorem C113_amino_partial (hg : GoMethods D mbn) {n : Nat} {t : Ty} {a : Addr} {h h' h'' : Heap} {r : HVal}
    (hs : ¬ CopiesSelf D Γ.shape (.ptr t)) (hc : CopiesAmino D Γ.shape (.ptr t))
    (hm : C.marsh (.ptr t) (h ++ [.var (zH t)]) (.ptr a) = .ok (r, h'))
    (hu : C.unmarsh (.ptr t) h' h.length r = .ok h'') :
    deepCopyTop (dprogOf Γ mbn C ex zH) (n + 1) (.ptr t) (.ptr a) h = .ok (.ptr h.length, h'') := by
  have hA : (dprogOf Γ mbn C ex zH).aminoCopyM (.ptr t) = some (aminoCopyRun C (zH t) (.ptr t)) := by
    show (if canAminoCopy Γ mbn (.ptr t) then _ else _) = _
    rw [(canAminoCopy_iff hg).2 hc]; rfl
  simp [deepCopyTop, copyVal, HVal.isNil, callDeepCopy_none hg hs, callAminoCopy, hA, aminoCopyRun, hm, hu, Res.raise, Res.bind]

/-- C113: it panics if one of them returns an error. -/
theorem C113_amino_error (hg : GoMethods D mbn) {n : Nat} {t : Ty} {a : Addr} {h : Heap}
    (hs : ¬ CopiesSelf D Γ.shape (.ptr t)) (hc : CopiesAmino D Γ.shape (.ptr t))
    (he : (∃ e, C.marsh (.ptr t) (h ++ [.var (zH t)]) (.ptr a) = .err e) ∨
      (∃ r h' e, C.marsh (.ptr t) (h ++ [.var (zH t)]) (.ptr a) = .ok (r, h') ∧ C.unmarsh (.ptr t) h' h.length r = .err e)) :
    deepCopyTop (dprogOf Γ mbn C ex zH) (n + 1) (.ptr t) (.ptr a) h = .panic .user := by
  have hA : (dprogOf Γ mbn C ex zH).aminoCopyM (.ptr t) = some (aminoCopyRun C (zH t) (.ptr t)) := by
    show (if canAminoCopy Γ mbn (.ptr t) then _ else _) = _
    rw [(canAminoCopy_iff hg).2 hc]; rfl
  rcases he with ⟨e, hm⟩ | ⟨r, h', e, hm, hu⟩
  · simp [deepCopyTop, copyVal, HVal.isNil, callDeepCopy_none hg hs, callAminoCopy, hA, aminoCopyRun, hm, Res.raise, Res.bind]
  · simp [deepCopyTop, copyVal, HVal.isNil, callDeepCopy_none hg hs, callAminoCopy, hA, aminoCopyRun, hm, hu, Res.raise, Res.bind]

/-- An addressable value whose pointer has the pair. -/
theorem copyVal_addr (hg : GoMethods D mbn) {n : Nat} {id : TId} {v : HVal} {h : Heap}
    (hs : ¬ CopiesSelf D Γ.shape (.base id)) (hc : CopiesAmino D Γ.shape (.ptr (.base id))) (hv : v ≠ .nil) :
    copyVal (dprogOf Γ mbn C ex zH) (n + 1) true true (.base id) v h = .panic .notAssignable := by
  have hn : v.isNil = false := by cases v <;> first | rfl | exact absurd rfl hv
  have hA : (dprogOf Γ mbn C ex zH).aminoCopyM (.ptr (.base id)) = some (aminoCopyRun C (zH (.base id)) (.ptr (.base id))) := by
    show (if canAminoCopy Γ mbn (.ptr (.base id)) then _ else _) = _
    rw [(canAminoCopy_iff hg).2 hc]; rfl
  simp [copyVal, hn, callDeepCopy_none hg hs, callAminoCopy, hA]

/-- C113 is false for slices of values of such a type: DeepCopy panics on each that is not empty (its first element not
being nil). -/
theorem C113_slice_refuted (hg : GoMethods D mbn) {n : Nat} {id e : TId} {a : Addr} {off len : Nat} {h : Heap} {v : HVal}
    {vs ws : List HVal} (hsh : Γ.shape id = .slice (.base e)) (hb : Γ.bulk (.base e) = false)
    (hs' : ¬ CopiesSelf D Γ.shape (.base id))
    (hs : ¬ CopiesSelf D Γ.shape (.base e)) (hc : CopiesAmino D Γ.shape (.ptr (.base e)))
    (ha : h[a]? = some (.array ws)) (hw : (ws.drop off).take len = v :: vs) (hv : v ≠ .nil) :
    deepCopyTop (dprogOf Γ mbn C ex zH) (n + 2) (.base id) (.slice a off len) h = .panic .notAssignable := by
  have hsh' : (dprogOf Γ mbn C ex zH).shape id = .slice (.base e) := hsh
  have hb' : (dprogOf Γ mbn C ex zH).bulk (.base e) = false := hb
  have key := copyVal_addr (C := C) (ex := ex) (zH := zH) (n := n) (h := h) hg hs hc hv
  have hk : copyKind (dprogOf Γ mbn C ex zH) (copyVal (dprogOf Γ mbn C ex zH) (n + 1)) false (.base id) (.slice a off len) h =
      .panic .notAssignable := by
    unfold copyKind
    simp only [hsh', hb', ha, hw, copyElems, key]
    rfl
  show copyVal _ (n + 1 + 1) _ _ _ _ _ = _
  rw [copyVal]
  simp only [HVal.isNil, callDeepCopy_none hg hs', callAminoCopy, Bool.false_eq_true, if_false, if_true, hk]

theorem copyFields_not_ok {Δ : DProg} {rec : Bool → Bool → Ty → HVal → Heap → Res (HVal × Heap)} {id : TId} {j : Nat}
    {f : Field} {v : HVal} (hx : ∀ h, ∀ r, rec true true f.ty v h ≠ .ok r) {fs : List Field} {vs : List HVal} {h : Heap} {i : Nat}
    (hf : fs[j]? = some f) (hv : vs[j]? = some v) (he : Δ.exported id (i + j) = true) (r : List HVal × Heap) :
    copyFields Δ rec true id i fs vs h ≠ .ok r := by
  induction j generalizing fs vs h i r with
  | zero =>
    match fs, vs with
    | g :: fs, w :: vs =>
      cases hf; cases hv
      intro e
      simp only [copyFields, Nat.add_zero] at e he
      rw [he] at e
      simp only [Bool.not_true, Bool.false_eq_true, if_false] at e
      obtain ⟨x, hx', -⟩ := Res.bind_eq_ok e
      exact hx _ _ hx'
    | [], _ => cases hf
    | _ :: _, [] => cases hv
  | succ j ih =>
    match fs, vs with
    | g :: fs, w :: vs =>
      intro e
      have he' : Δ.exported id (i + 1 + j) = true := by rw [← he]; congr 1; omega
      simp only [copyFields] at e
      split at e
      · obtain ⟨x, hx', -⟩ := Res.bind_eq_ok e
        exact ih (by simpa using hf) (by simpa using hv) he' _ hx'
      · obtain ⟨x, -, e⟩ := Res.bind_eq_ok e
        obtain ⟨y, hy, -⟩ := Res.bind_eq_ok e
        exact ih (by simpa using hf) (by simpa using hv) he' _ hy
    | [], _ => simp at hf
    | _ :: _, [] => simp at hv

/-- C113 is false for fields: DeepCopy never succeeds on a pointer to a struct with an exported field of such a type. -/
theorem C113_field_refuted (hg : GoMethods D mbn) {n : Nat} {id e : TId} {a : Addr} {h : Heap} {v : HVal}
    {fs : List Field} {vs : List HVal} {j : Nat} {f : Field} (hsh : Γ.shape id = .struct fs)
    (hs' : ¬ CopiesSelf D Γ.shape (.ptr (.base id))) (hc' : ¬ CopiesAmino D Γ.shape (.ptr (.base id)))
    (hs : ¬ CopiesSelf D Γ.shape (.base e)) (hc : CopiesAmino D Γ.shape (.ptr (.base e)))
    (ha : h[a]? = some (.var (.struct vs))) (hf : fs[j]? = some f) (hft : f.ty = .base e) (hj : vs[j]? = some v) (hv : v ≠ .nil)
    (hx : ex id j = true) (r : HVal × Heap) :
    deepCopyTop (dprogOf Γ mbn C ex zH) n (.ptr (.base id)) (.ptr a) h ≠ .ok r := by
  intro he
  match n with
  | 0 => cases he
  | n + 1 =>
    have hA : (dprogOf Γ mbn C ex zH).aminoCopyM (.ptr (.base id)) = none := by
      show (if canAminoCopy Γ mbn (.ptr (.base id)) then _ else _) = _
      cases hcc : canAminoCopy Γ mbn (.ptr (.base id)) with
      | true => exact absurd ((canAminoCopy_iff hg).1 hcc) hc'
      | false => rfl
    have hsh' : (dprogOf Γ mbn C ex zH).shape id = .struct fs := hsh
    rw [deepCopyTop, copyVal] at he
    unfold copyKind at he
    simp only [HVal.isNil, callDeepCopy_none hg hs', callAminoCopy, hA, ha, Bool.false_eq_true, if_false, if_true] at he
    obtain ⟨x, hx', -⟩ := Res.bind_eq_ok he
    match n with
    | 0 => cases hx'
    | n + 1 =>
      rw [copyVal] at hx'
      unfold copyKind at hx'
      simp only [Bool.false_eq_true, if_false, hsh'] at hx'
      obtain ⟨y, hy, -⟩ := Res.bind_eq_ok hx'
      refine copyFields_not_ok (j := j) (f := f) (v := v) ?_ hf hj (by rw [Nat.zero_add]; exact hx) y hy
      intro h r
      rw [hft]
      match n with
      | 0 => intro e; cases e
      | n + 1 => rw [copyVal_addr hg hs hc hv]; intro e; cases e

theorem found_true (name : Bytes) (d : Nat) : ∀ T, found D name d T true = (found D name d T false).map (Option.map fun x => (x.1, true)) := by
  induction d with
  | zero => intro T; simp [found, Function.comp_def]
  | succ d ih =>
    intro T
    simp only [found, Bool.true_or, Bool.false_or, List.map_flatMap]
    congr 1
    funext e
    cases e.byPtr with
    | false => exact ih _
    | true =>
      rw [ih e.target]
      simp [Function.comp_def, Option.map_map]

/-- The methods of a type are methods of the pointer to it. -/
theorem Spec.Selected.ptr {T : TId} {name : Bytes} {m : MDecl} (h : Selected D T false name m) : Selected D T true name m := by
  obtain ⟨d, q, h1, h2, h3⟩ := h
  refine ⟨d, true, ?_, fun d' hd => ?_, fun _ => rfl⟩
  · rw [found_true, h1]; rfl
  · rw [found_true, h2 d' hd]; rfl

/-- C113: where the encoder and the decoder use methods with the same representation, DeepCopy of a pointer uses them. -/
theorem C113_codec (hg : GoMethods D mbn) {id : TId} {r : MTy} (hi : Γ.shape id ≠ .iface)
    (h : methodInfo mbn id = .ok ⟨some r, some r⟩) : CopiesAmino D Γ.shape (.ptr (.base id)) := by
  obtain ⟨h1, h2⟩ := (C109_exact hg id _).1 h
  rcases h1 with ⟨h, -⟩ | ⟨m, r', hm, hs, e⟩
  · cases h
  cases e
  rcases h2 with ⟨h, -⟩ | ⟨u, r', hu, hs', e⟩
  · cases h
  cases e
  exact ⟨m, u, r, .ptr hi hm.ptr, .ptr hi hu, hs.1, hs'.1⟩

/-- C113: for programs that declare no such methods, DeepCopy works without (C51, C52 and C59 say what it does). -/
theorem C113_none (hg : GoMethods D mbn)
    (h : ∀ T, ∀ m ∈ (D T).methods, m.name ≠ ascii "DeepCopy" ∧ m.name ≠ ascii "UnmarshalAmino") (t : Ty) :
    (dprogOf Γ mbn C ex zH).deepCopyM t = none ∧ (dprogOf Γ mbn C ex zH).aminoCopyM t = none := by
  have key : ∀ T p name, (∀ U, ∀ m ∈ (D U).methods, m.name ≠ name) → ∀ m, ¬ Selected D T p name m := by
    rintro T p name hn m ⟨d, q, h1, -⟩
    exact found_none (fun U _ => hn U) d p m q (by rw [h1]; exact List.mem_singleton.2 rfl)
  have key' : ∀ t name, (∀ U, ∀ m ∈ (D U).methods, m.name ≠ name) → ∀ m, ¬ InMethodSet D Γ.shape t name m := by
    intro t name hn m hm
    cases hm with
    | val h => exact key _ _ _ hn _ h
    | ptr _ h => exact key _ _ _ hn _ h
  constructor
  · show (deepCopyOut Γ mbn t).map _ = none
    cases ho : deepCopyOut Γ mbn t with
    | none => rfl
    | some o =>
      obtain ⟨m, hm, -⟩ := (deepCopyOut_iff hg).1 ho
      exact absurd hm (key' _ _ (fun U m hm => (h U m hm).1) m)
  · show (if canAminoCopy Γ mbn t then _ else _) = none
    cases hc : canAminoCopy Γ mbn t with
    | false => rfl
    | true =>
      obtain ⟨-, u, -, -, hu, -⟩ := (canAminoCopy_iff hg).1 hc
      exact absurd hu (key' _ _ (fun U m hm => (h U m hm).2) u)

/-! ### The program of `PropsMethods.lean`, and `type Box struct { N int64 }; func (Box) DeepCopy() Box` -/

namespace Demo

def cdecls (id : TId) : TDecl :=
  if id = 8 then { methods := [⟨ascii "DeepCopy", false, ⟨[], [.ty (.base 8)]⟩⟩], fields := [ascii "N"] } else mdecls id

/-- The methods work on the name. -/
def nameMeth : CMethods where
  deepCopy := fun t h v =>
    match t, v with
    | .ptr _, .ptr a => match h[a]? with | some (.var w) => .ok (w, h) | _ => .panic .illTyped
    | _, v => .ok (v, h)
  marsh := fun _ h v =>
    match v with
    | .ptr a =>
      match h[a]? with
      | some (.var (.struct [.prim s])) => .ok (.prim s, h)
      | some (.var (.struct [.struct [.prim s], _])) => .ok (.prim s, h)
      | _ => .panic .illTyped
    | _ => .panic .illTyped
  unmarsh := fun _ h a r =>
    match h[a]? with
    | some (.var (.struct [.prim _])) => .ok (h.set a (.var (.struct [r])))
    | some (.var (.struct [.struct [.prim _], x])) => .ok (h.set a (.var (.struct [.struct [r], x])))
    | _ => .panic .illTyped

/-- They always fail. -/
def failMeth : CMethods where
  deepCopy := fun _ _ _ => .panic .user
  marsh := fun _ _ _ => .err .json
  unmarsh := fun _ _ _ _ => .err .json

def zeroName : Ty → HVal
  | .base 62 => .struct [.struct [.prim (.str [])], .prim (.int 0)]
  | _ => .struct [.prim (.str [])]

end Demo

theorem demo_noSelf {shape : TId → Shape} (t : Ty) : ¬ CopiesSelf Demo.mdecls shape t := by
  have hn : ∀ U, ∀ m ∈ (Demo.mdecls U).methods, m.name ≠ ascii "DeepCopy" := by
    intro U m hm
    unfold Demo.mdecls at hm
    split at hm
    case h_6 => cases hm
    all_goals
      simp at hm
      try rcases hm with rfl | rfl
      all_goals first | (subst hm; decide +kernel) | decide +kernel
  have key : ∀ T p m, ¬ Selected Demo.mdecls T p (ascii "DeepCopy") m := by
    rintro T p m ⟨d, q, h1, -⟩
    exact found_none (fun U _ => hn U) d p m q (by rw [h1]; exact List.mem_singleton.2 rfl)
  rintro ⟨o, ⟨m, hm, -⟩, -⟩
  cases hm with
  | val h => exact key _ _ _ h
  | ptr _ h => exact key _ _ _ h

theorem demo_name : CopiesAmino Demo.mdecls Demo.methProg.shape (.ptr (.base 40)) :=
  ⟨⟨ascii "MarshalAmino", false, Demo.mStr⟩, ⟨ascii "UnmarshalAmino", true, Demo.uStr⟩, .ty (.base Demo.stringT),
    .ptr (by intro h; cases h) (selected0 (by decide +kernel) (fun _ => rfl)),
    .ptr (by intro h; cases h) (selected0 (by decide +kernel) (fun _ => rfl)), rfl, rfl⟩

/-- The methods of `*Name` copy what a pointer points to. -/
example {mbn : MethodByName} (hg : GoMethods Demo.mdecls mbn) :
    deepCopyTop (dprogOf Demo.methProg mbn Demo.nameMeth (fun _ _ => true) Demo.zeroName) 9 (.ptr (.base 40)) (.ptr 0)
      [.var (.struct [.prim (.str [104])])] =
    .ok (.ptr 1, [.var (.struct [.prim (.str [104])]), .var (.struct [.prim (.str [104])])]) :=
  C113_amino_partial hg (demo_noSelf _) demo_name (h' := [.var (.struct [.prim (.str [104])]), .var (.struct [.prim (.str [])])])
    (r := .prim (.str [104])) rfl rfl

example {mbn : MethodByName} (hg : GoMethods Demo.mdecls mbn) :
    deepCopyTop (dprogOf Demo.methProg mbn Demo.failMeth (fun _ _ => true) Demo.zeroName) 9 (.ptr (.base 40)) (.ptr 0)
      [.var (.struct [.prim (.str [104])])] = .panic .user :=
  C113_amino_error hg (demo_noSelf _) demo_name (.inl ⟨_, rfl⟩)

/-- DeepCopy of `Box` and `*Box` is what the method returns. -/
example {mbn : MethodByName} (hg : GoMethods Demo.cdecls mbn) (h : Heap) :
    deepCopyTop (dprogOf Demo.methProg mbn Demo.nameMeth (fun _ _ => true) Demo.zeroName) 9 (.base 8) (.struct [.prim (.int 5)]) h =
      .ok (.struct [.prim (.int 5)], h) :=
  C113_deepcopy hg ⟨⟨ascii "DeepCopy", false, ⟨[], [.ty (.base 8)]⟩⟩, .val (selected0 (by decide +kernel) (by intro h; cases h)), rfl⟩
    (by intro h; cases h)

example {mbn : MethodByName} (hg : GoMethods Demo.cdecls mbn) :
    deepCopyTop (dprogOf Demo.methProg mbn Demo.nameMeth (fun _ _ => true) Demo.zeroName) 9 (.ptr (.base 8)) (.ptr 0)
      [.var (.struct [.prim (.int 5)])] = .ok (.ptr 1, [.var (.struct [.prim (.int 5)]), .var (.struct [.prim (.int 5)])]) :=
  C113_deepcopy_pointer (h' := [.var (.struct [.prim (.int 5)])]) hg ⟨⟨ascii "DeepCopy", false, ⟨[], [.ty (.base 8)]⟩⟩,
    .ptr (by intro h; cases h) (selected0 (by decide +kernel) (by intro h; cases h)), rfl⟩ rfl

/-- A slice of names, and a pointer to a struct with one. -/
example {mbn : MethodByName} (hg : GoMethods Demo.mdecls mbn) (n : Nat) :
    deepCopyTop (dprogOf { Demo.methProg with shape := fun id => if id = 70 then .slice (.base 40) else Demo.methProg.shape id }
      mbn Demo.nameMeth (fun _ _ => true) Demo.zeroName) (n + 2) (.base 70) (.slice 0 0 1)
      [.array [.struct [.prim (.str [104])]]] = .panic .notAssignable :=
  C113_slice_refuted (e := 40) (vs := []) (v := .struct [.prim (.str [104])]) (ws := [.struct [.prim (.str [104])]]) hg rfl rfl
    (demo_noSelf _) (demo_noSelf _)
    ⟨⟨ascii "MarshalAmino", false, Demo.mStr⟩, ⟨ascii "UnmarshalAmino", true, Demo.uStr⟩, .ty (.base Demo.stringT),
      .ptr (by intro h; cases h) (selected0 (by decide +kernel) (fun _ => rfl)),
      .ptr (by intro h; cases h) (selected0 (by decide +kernel) (fun _ => rfl)), rfl, rfl⟩
    rfl rfl (by intro h; cases h)

/-- C113 is false for values: DeepCopy of a `Name` does not use the methods (they fail here, and DeepCopy does not panic). -/
theorem C113_value_refuted {mbn : MethodByName} (hg : GoMethods Demo.mdecls mbn) (h : Heap) :
    CopiesAmino Demo.mdecls Demo.methProg.shape (.ptr (.base 40)) ∧
    deepCopyTop (dprogOf Demo.methProg mbn Demo.failMeth (fun _ _ => true) Demo.zeroName) 9 (.base 40)
      (.struct [.prim (.str [104])]) h = .ok (.struct [.prim (.str [104])], h) := by
  refine ⟨demo_name, ?_⟩
  simp only [deepCopyTop, copyVal, HVal.isNil, callDeepCopy_none hg (demo_noSelf _), callAminoCopy]
  unfold copyKind
  have h1 : (dprogOf Demo.methProg mbn Demo.failMeth (fun _ _ => true) Demo.zeroName).shape 40 = .struct [{ ty := .base Demo.stringT }] := rfl
  simp only [h1, copyFields]
  rfl

/-- C113: DeepCopy and the codec may disagree.  A MarshalAmino with a pointer receiver is used by DeepCopy, but not by the
encoder. -/
theorem C113_pointer_refuted {mbn : MethodByName} (hg : GoMethods Demo.mdecls mbn) :
    CopiesAmino Demo.mdecls Demo.methProg.shape (.ptr (.base 60)) ∧
    methodInfo mbn 60 = .ok ⟨none, some (.ty (.base Demo.stringT))⟩ :=
  ⟨⟨⟨ascii "MarshalAmino", true, Demo.mStr⟩, ⟨ascii "UnmarshalAmino", true, Demo.uStr⟩, .ty (.base Demo.stringT),
    .ptr (by intro h; cases h) (selected0 (by decide +kernel) (fun _ => rfl)),
    .ptr (by intro h; cases h) (selected0 (by decide +kernel) (fun _ => rfl)), rfl, rfl⟩,
   (C109_exact hg 60 _).2 ⟨.inl ⟨rfl, fun ⟨m, hm⟩ => ptr_m m hm⟩,
    .inr ⟨⟨ascii "UnmarshalAmino", true, Demo.uStr⟩, _, selected0 (by decide +kernel) (fun _ => rfl),
      ⟨rfl, fun t e => by cases e⟩, rfl⟩⟩⟩

/-- C113: with the methods of an embedded type, the copy is not equal to the original: DeepCopy of `&Person{Name{"h"}, 7}`
is `&Person{Name{"h"}, 0}`. -/
theorem C113_embedded_refuted {mbn : MethodByName} (hg : GoMethods Demo.mdecls mbn) :
    deepCopyTop (dprogOf Demo.methProg mbn Demo.nameMeth (fun _ _ => true) Demo.zeroName) 9 (.ptr (.base 62)) (.ptr 0)
      [.var (.struct [.struct [.prim (.str [104])], .prim (.int 7)])] =
    .ok (.ptr 1, [.var (.struct [.struct [.prim (.str [104])], .prim (.int 7)]),
      .var (.struct [.struct [.prim (.str [104])], .prim (.int 0)])]) :=
  C113_amino_partial hg (demo_noSelf _)
    ⟨⟨ascii "MarshalAmino", false, Demo.mStr⟩, ⟨ascii "UnmarshalAmino", true, Demo.uStr⟩, .ty (.base Demo.stringT),
      .ptr (by intro h; cases h) person_m.ptr, .ptr (by intro h; cases h) person_u, rfl, rfl⟩
    (h' := [.var (.struct [.struct [.prim (.str [104])], .prim (.int 7)]), .var (.struct [.struct [.prim (.str [])], .prim (.int 0)])])
    (r := .prim (.str [104])) rfl rfl

/-- A pointer to a struct with a field of type `Name`. -/
example {mbn : MethodByName} (hg : GoMethods Demo.mdecls mbn) (n : Nat) (r : HVal × Heap) :
    deepCopyTop (dprogOf { Demo.methProg with shape := fun id => if id = 70 then .struct [{ ty := .base 40 }] else Demo.methProg.shape id }
      mbn Demo.nameMeth (fun _ _ => true) Demo.zeroName) n (.ptr (.base 70)) (.ptr 0)
      [.var (.struct [.struct [.prim (.str [104])]])] ≠ .ok r :=
  C113_field_refuted (e := 40) (vs := [.struct [.prim (.str [104])]]) (v := .struct [.prim (.str [104])]) (fs := [{ ty := .base 40 }])
    (j := 0) (f := { ty := .base 40 }) hg rfl
    (demo_noSelf _)
    (by
      rintro ⟨m, u, r, hm, -⟩
      cases hm with
      | ptr _ h =>
        obtain ⟨d, q, h1, -⟩ := h
        rw [decls_found0 (by decide)] at h1
        cases h1)
    (demo_noSelf _)
    ⟨⟨ascii "MarshalAmino", false, Demo.mStr⟩, ⟨ascii "UnmarshalAmino", true, Demo.uStr⟩, .ty (.base Demo.stringT),
      .ptr (by intro h; cases h) (selected0 (by decide +kernel) (fun _ => rfl)),
      .ptr (by intro h; cases h) (selected0 (by decide +kernel) (fun _ => rfl)), rfl, rfl⟩
    rfl rfl rfl rfl (by intro h; cases h) rfl r

example {mbn : MethodByName} (hg : GoMethods Demo.mdecls mbn) : CopiesAmino Demo.mdecls Demo.methProg.shape (.ptr (.base 40)) :=
  C113_codec (r := .ty (.base Demo.stringT)) hg (by intro h; cases h)
    (C109_own (m := ⟨ascii "MarshalAmino", false, Demo.mStr⟩) (u := ⟨ascii "UnmarshalAmino", true, Demo.uStr⟩) hg
      ⟨rfl, by decide +kernel, by decide +kernel⟩ rfl ⟨rfl, fun t e => by cases e⟩
      ⟨rfl, by decide +kernel, by decide +kernel⟩ ⟨rfl, fun t e => by cases e⟩)

/-- A program without methods. -/
example {mbn : MethodByName} (hg : GoMethods (fun _ => {}) mbn) (t : Ty) :=
  C113_none (Γ := Demo.methProg) (C := Demo.nameMeth) (ex := fun _ _ => true) (zH := Demo.zeroName) hg (fun _ m hm => by cases hm) t

end Amino
