import Verif.BinAddr
import Verif.PropsJWrite
import Verif.PropsWrite

/-!
# C83: pointer or value
-/

namespace Amino
open Spec

variable {Γ : Prog} {c : Codec} {J : JLib}

/-- There are arrays of a byte type other than `byte`. -/
def Spec.NamedByteArrays (Γ : Prog) : Prop :=
  ∃ id n e, Γ.shape id = .array n e ∧ Γ.isByteKind e = true ∧ e ≠ .base Γ.byteId

/-- `x` is `y`, or the panic of `reflect.Copy`, if that is possible. -/
def Agrees {α : Type} (Γ : Prog) (x y : Res α) : Prop := x = y ∨ (NamedByteArrays Γ ∧ x = .panic .notAssignable)

namespace Agrees

theorem refl {α : Type} (x : Res α) : Agrees Γ x x := .inl rfl

theorem bind {α β : Type} {x y : Res α} {k k' : α → Res β} (h : Agrees Γ x y) (hk : ∀ a, Agrees Γ (k a) (k' a)) :
    Agrees Γ (x.bind k) (y.bind k') := by
  rcases h with rfl | ⟨hn, rfl⟩
  · cases x with
    | ok a => exact hk a
    | _ => exact .inl rfl
  · exact .inr ⟨hn, rfl⟩

end Agrees

section
variable {rec rec' : TId → Val → FOpts → Bool → Res Bytes}

/-- The helpers preserve agreement of the recursive calls. -/
def RecAg (Γ : Prog) (rec rec' : TId → Val → FOpts → Bool → Res Bytes) : Prop :=
  ∀ id v fo bare, Agrees Γ (rec id v fo bare) (rec' id v fo bare)

theorem encPacked_ag (h : RecAg Γ rec rec') (e : Ty) (fo : FOpts) (vs : List Val) :
    Agrees Γ (encPacked Γ rec e fo vs) (encPacked Γ rec' e fo vs) := by
  induction vs with
  | nil => exact .refl _
  | cons v vs ih => exact (h _ _ _ _).bind fun b => ih.bind fun bs => .refl _

theorem encElem_ag (h : RecAg Γ rec rec') (e : Ty) (fo : FOpts) (v : Val) :
    Agrees Γ (encElem Γ rec e fo v) (encElem Γ rec' e fo v) := by
  unfold encElem
  split
  · exact .refl _
  · split
    · exact .refl _
    · exact h _ _ _ _

theorem encUnpacked_ag (h : RecAg Γ rec rec') (e : Ty) (fo : FOpts) (vs : List Val) :
    Agrees Γ (encUnpacked Γ rec e fo vs) (encUnpacked Γ rec' e fo vs) := by
  induction vs with
  | nil => exact .refl _
  | cons v vs ih => exact (Agrees.refl _).bind fun k => (encElem_ag h _ _ _).bind fun b => ih.bind fun bs => .refl _

theorem encList_ag (h : RecAg Γ rec rec') (e : Ty) (v : Val) (fo : FOpts) (bare : Bool) :
    Agrees Γ (encList Γ c rec e v fo bare) (encList Γ c rec' e v fo bare) := by
  unfold encList
  refine (Agrees.refl _).bind fun _ => ?_
  split
  · exact .refl _
  · refine Agrees.bind ?_ fun _ => .refl _
    split
    · exact encPacked_ag h _ _ _
    · exact encUnpacked_ag h _ _ _
  · exact .refl _

theorem writeField_ag (h : RecAg Γ rec rec') (num : Nat) (id : TId) (fo : FOpts) (dv : Val) (we bare : Bool) :
    Agrees Γ (writeField Γ rec num id fo dv we bare) (writeField Γ rec' num id fo dv we bare) := by
  unfold writeField
  exact (Agrees.refl _).bind fun _ => (h _ _ _ _).bind fun _ => .refl _

theorem encField_ag (h : RecAg Γ rec rec') (f : Field) (num : Nat) (v : Val) :
    Agrees Γ (encField Γ c rec f num v) (encField Γ c rec' f num v) := by
  unfold encField
  refine (Agrees.refl _).bind fun _ => ?_
  split
  · exact .refl _
  split
  · exact .refl _
  split
  · split
    · exact encList_ag h _ _ _ _
    · exact .refl _
  · exact writeField_ag h _ _ _ _ _ _

theorem encIface_ag (h : RecAg Γ rec rec') (id : TId) (v : Val) (fo : FOpts) (bare : Bool) :
    Agrees Γ (encIface Γ c rec id v fo bare) (encIface Γ c rec' id v fo bare) := by
  unfold encIface
  split
  · exact .refl _
  · split
    · exact .refl _
    split
    · exact .refl _
    refine (Agrees.refl _).bind fun _ => ?_
    split
    · exact .refl _
    split
    · exact .refl _
    exact (h _ _ _ _).bind fun _ => .refl _
  · exact .refl _

theorem encFields_ag (h : RecAg Γ rec rec') (num : Nat) (fs : List Field) (vs : List Val) :
    Agrees Γ (encFields Γ c rec num fs vs) (encFields Γ c rec' num fs vs) := by
  induction fs generalizing num vs with
  | nil => cases vs <;> exact .refl _
  | cons f fs ih =>
    cases vs with
    | nil => exact .refl _
    | cons v vs =>
      rw [encFields, encFields]
      split
      · exact ih _ _
      · exact (encField_ag h _ _ _).bind fun _ => (ih _ _).bind fun _ => .refl _

theorem encShape_ag (h : RecAg Γ rec rec') (fuel : Nat) (id : TId) (v : Val) (fo : FOpts) (bare : Bool) :
    Agrees Γ (encShape Γ c rec fuel id v fo bare) (encShape Γ c rec' fuel id v fo bare) := by
  unfold encShape
  split
  · exact encIface_ag h _ _ _ _
  · split
    · exact .refl _
    split
    · exact .refl _
    · exact encList_ag h _ _ _ _
  · split
    · exact .refl _
    split
    · exact .refl _
    · exact encList_ag h _ _ _ _
  · split
    · exact (encFields_ag h _ _ _).bind fun _ => .refl _
    · exact .refl _
  all_goals exact .refl _

end

section
variable {rec rec' : Bool → TId → Val → FOpts → Bool → Res Bytes}

theorem elemAddr_mono {a a' : Bool} (h : a = true → a' = true) (s : Shape) (e : Ty) :
    elemAddr a s e = true → elemAddr a' s e = true := by
  unfold elemAddr
  split
  · exact id
  · cases a <;> simp_all

theorem fieldAddr_mono {a a' : Bool} (h : a = true → a' = true) (f : Field) :
    fieldAddr Γ a f = true → fieldAddr Γ a' f = true := by
  have hp : (a || f.ty.isPtr) = true → (a' || f.ty.isPtr) = true := by cases a <;> simp_all
  unfold fieldAddr
  split
  · split
    · exact elemAddr_mono hp _ _
    · exact hp
  · exact hp

theorem encFieldsA_ag (h : ∀ a a', (a = true → a' = true) → RecAg Γ (rec a) (rec' a')) {a a' : Bool} (ha : a = true → a' = true)
    (num : Nat) (fs : List Field) (vs : List Val) :
    Agrees Γ (encFieldsA Γ c rec a num fs vs) (encFieldsA Γ c rec' a' num fs vs) := by
  induction fs generalizing num vs with
  | nil => cases vs <;> exact .refl _
  | cons f fs ih =>
    cases vs with
    | nil => exact .refl _
    | cons v vs =>
      rw [encFieldsA, encFieldsA]
      split
      · exact ih _ _
      · exact (encField_ag (h _ _ (fieldAddr_mono ha f)) _ _ _).bind fun _ => (ih _ _).bind fun _ => .refl _

theorem encShapeA_ag (h : ∀ a a', (a = true → a' = true) → RecAg Γ (rec a) (rec' a')) {a a' : Bool} (ha : a = true → a' = true)
    (fuel : Nat) (id : TId) (v : Val) (fo : FOpts) (bare : Bool) :
    Agrees Γ (encShapeA Γ c rec a fuel id v fo bare) (encShapeA Γ c rec' a' fuel id v fo bare) := by
  unfold encShapeA
  cases hs : Γ.shape id with
  | iface => exact encIface_ag (h _ _ (fun x => x)) _ _ _ _
  | slice e => exact encShape_ag (h _ _ (elemAddr_mono ha _ _)) _ _ _ _ _
  | array n e =>
    simp only
    split
    · rename_i hb
      simp only [Bool.and_eq_true, bne_iff_ne, Bool.not_eq_true'] at hb
      exact .inr ⟨⟨id, n, e, hs, hb.1.1, hb.2⟩, rfl⟩
    · rename_i hb
      rw [if_neg]
      · exact encShape_ag (h _ _ (elemAddr_mono ha _ _)) _ _ _ _ _
      · intro hb'
        apply hb
        simp only [Bool.and_eq_true, bne_iff_ne, Bool.not_eq_true'] at hb' ⊢
        refine ⟨⟨hb'.1.1, ?_⟩, hb'.2⟩
        cases a with
        | false => rfl
        | true => rw [ha rfl] at hb'; exact absurd hb'.1.2 (by decide)
  | struct fs =>
    simp only
    split
    · exact (encFieldsA_ag h ha _ _ _).bind fun _ => .refl _
    · exact .refl _
  | _ => exact encShape_ag (h _ _ ha) _ _ _ _ _

theorem encBodyA_ag (h : ∀ a a', (a = true → a' = true) → RecAg Γ (rec a) (rec' a')) {a a' : Bool} (ha : a = true → a' = true)
    (fuel : Nat) (id : TId) (v : Val) (fo : FOpts) (bare : Bool) :
    Agrees Γ (encBodyA Γ c rec a fuel id v fo bare) (encBodyA Γ c rec' a' fuel id v fo bare) := by
  unfold encBodyA
  split
  · exact (Agrees.refl _).bind fun _ => (Agrees.refl _).bind fun _ => h _ _ (fun x => x) _ _ _ _
  · exact encShapeA_ag h ha _ _ _ _ _

theorem encFieldsA_const {r : TId → Val → FOpts → Bool → Res Bytes} (a : Bool) (num : Nat) (fs : List Field) (vs : List Val) :
    encFieldsA Γ c (fun _ => r) a num fs vs = encFields Γ c r num fs vs := by
  induction fs generalizing num vs with
  | nil => cases vs <;> rfl
  | cons f fs ih =>
    cases vs with
    | nil => rfl
    | cons v vs => rw [encFieldsA, encFields]; simp only [ih]

theorem encBodyA_const {r : TId → Val → FOpts → Bool → Res Bytes} (fuel : Nat) (id : TId) (v : Val) (fo : FOpts) (bare : Bool) :
    encBodyA Γ c (fun _ => r) true fuel id v fo bare = encBody Γ c r fuel id v fo bare := by
  unfold encBodyA encBody
  cases hm : Γ.marsh id with
  | some p => rfl
  | none =>
    simp only
    unfold encShapeA
    cases hs : Γ.shape id with
    | iface => simp only; unfold encShape; rw [hs]
    | array n e => simp only [Bool.not_true, Bool.and_false, Bool.false_and, Bool.false_eq_true, if_false]
    | struct fs => simp only [encFieldsA_const]; unfold encShape; rw [hs]; cases v <;> rfl
    | _ => rfl

end

/-- An addressable value is encoded as another, or the other panics. -/
theorem encA_mono (f : Nat) (a a' : Bool) (ha : a = true → a' = true) : RecAg Γ (encA Γ c f a) (encA Γ c f a') := by
  induction f generalizing a a' with
  | zero => intro _ _ _ _; exact .refl _
  | succ f ih => intro id v fo bare; exact encBodyA_ag ih ha _ _ _ _ _

/-- The encoder with addressability does what `enc` does, or panics in `reflect.Copy`. -/
theorem encA_ag (f : Nat) (a : Bool) : RecAg Γ (encA Γ c f a) (enc Γ c f) := by
  induction f generalizing a with
  | zero => intro _ _ _ _; exact .refl _
  | succ f ih =>
    intro id v fo bare
    rw [enc, ← encBodyA_const]
    exact encBodyA_ag (fun a _ _ => ih a) (fun _ => rfl) _ _ _ _ _

section
variable {f : Nat} {t : Ty} {v : Val}

/-- C83: addressability only matters for arrays of named byte types, on which the encoder may panic. -/
theorem C83_refines : marshalBareA Γ c f t v = marshalBare Γ c f t v ∨
    (NamedByteArrays Γ ∧ marshalBareA Γ c f t v = .panic .notAssignable) := by
  show Agrees Γ _ _
  unfold marshalBareA marshalBare
  cases derefVal t v with
  | none => exact .refl _
  | some rv =>
  refine (Agrees.refl _).bind fun _ => Agrees.bind ?_ fun _ => .refl _
  split
  · exact writeField_ag (encA_ag f _) _ _ _ _ _ _
  · exact encA_ag f _ _ _ _ _

/-- C83: so all theorems about bytes `marshalBare` gives (C11, C13, C14, C41, C67, ...) are about the bytes the code with
addressability gives. -/
theorem C83_transfer {b : Bytes} (h : marshalBareA Γ c f t v = .ok b) : marshalBare Γ c f t v = .ok b := by
  rcases C83_refines (Γ := Γ) (c := c) (f := f) (t := t) (v := v) with e | ⟨_, e⟩
  · rw [← e, h]
  · rw [h] at e; cases e

theorem marshalBareA_ptr : Agrees Γ (marshalBareA Γ c f t v) (marshalBareA Γ c f (.ptr t) (.ptr v)) := by
  unfold marshalBareA
  rw [show derefVal (.ptr t) (.ptr v) = derefVal t v from rfl]
  cases derefVal t v with
  | none => exact .refl _
  | some rv =>
  refine (Agrees.refl _).bind fun _ => Agrees.bind ?_ fun _ => .refl _
  have hm : RecAg Γ (encA Γ c f t.isPtr) (encA Γ c f (Ty.ptr t).isPtr) := encA_mono f _ _ fun _ => rfl
  show Agrees Γ (if (!Γ.structOrRep t.deref) = true then _ else _) (if (!Γ.structOrRep t.deref) = true then _ else _)
  split
  · exact writeField_ag hm _ _ _ _ _ _
  · exact hm _ _ _ _

/-- C83: if marshalling the value succeeds, so does marshalling a pointer to it, with the same bytes. -/
theorem C83_pointer {b : Bytes} (h : marshalBareA Γ c f t v = .ok b) : marshalBareA Γ c f (.ptr t) (.ptr v) = .ok b := by
  rcases marshalBareA_ptr (Γ := Γ) (c := c) (f := f) (t := t) (v := v) with e | ⟨_, e⟩
  · rw [← e, h]
  · rw [h] at e; cases e

/-- C83: the length-prefixed form; the bytes are those of the model without addressability. -/
theorem C83_pointer_LP {b : Bytes} (h : marshalLPA Γ c f t v = .ok b) : marshalLPA Γ c f (.ptr t) (.ptr v) = .ok b ∧
    marshalLP Γ c f t v = .ok b := by
  unfold marshalLPA at h ⊢
  obtain ⟨bz, h1, h⟩ := Res.bind_eq_ok h
  rw [C83_pointer h1]
  refine ⟨h, ?_⟩
  unfold marshalLP
  rcases C83_refines (Γ := Γ) (c := c) (f := f) (t := t) (v := v) with e | ⟨_, e⟩
  · rw [← e, h1]; exact h
  · rw [h1] at e; cases e

/-- C83 (partial): a value and a pointer to it are marshalled alike, in programs without arrays of named byte types. -/
theorem C83_alike_partial (hn : ¬ NamedByteArrays Γ) : marshalBareA Γ c f (.ptr t) (.ptr v) = marshalBareA Γ c f t v ∧
    marshalBareA Γ c f t v = marshalBare Γ c f t v := by
  refine ⟨?_, ?_⟩
  · rcases marshalBareA_ptr (Γ := Γ) (c := c) (f := f) (t := t) (v := v) with e | ⟨h, _⟩
    · exact e.symm
    · exact absurd h hn
  · rcases C83_refines (Γ := Γ) (c := c) (f := f) (t := t) (v := v) with e | ⟨h, _⟩
    · exact e
    · exact absurd h hn

end

/-- C83, C78: which values are marshalled, with addressability taken into account. -/
theorem C83_writes_partial (hn : ¬ NamedByteArrays Γ) (hN : ∀ id fs, Γ.shape id = .struct fs → fs.length < 2 ^ 29) (t : Ty)
    (v : Val) : (∃ f b, marshalBareA Γ c f t v = .ok b) ↔
      Known Γ c t.deref ∧ ∃ dv, pointee t v = some dv ∧ Writable Γ c (.val t.deref) {} dv := by
  rw [← C78_writes hN]
  constructor
  · rintro ⟨f, b, h⟩
    exact ⟨f, b, by rw [← (C83_alike_partial hn).2, h]⟩
  · rintro ⟨f, b, h⟩
    exact ⟨f, b, by rw [(C83_alike_partial hn).2, h]⟩

/-! ## JSON -/

/-- MarshalJSON is declared for the type itself or not at all, never for the pointer only. -/
def Spec.ValueMethods (J : JLib) : Prop := ∀ id a a', J.marsh id a = J.marsh id a'

/-- Lists of bytes are lists of `byte`. -/
def Spec.PlainBytes (Γ : Prog) : Prop := ∀ id e, (Γ.shape id).elem? = some e → Γ.isByteKind e = true → e = .base Γ.byteId

section
variable {rec : Bool → Ty → Val → FOpts → Res Bytes}

/-- `rec` does not look at the flag. -/
def NoAddr (Γ : Prog) (rec : Bool → Ty → Val → FOpts → Res Bytes) : Prop :=
  ∀ t v fo a a', HasTy Γ t v → rec a t v fo = rec a' t v fo

theorem jencElems_addr (h : NoAddr Γ rec) (a a' : Bool) (e : Ty) (fo : FOpts) {vs : List Val} (hv : ∀ v ∈ vs, HasTy Γ e v) :
    jencElems rec a e fo vs = jencElems rec a' e fo vs := by
  induction vs with
  | nil => rfl
  | cons v vs ih =>
    rw [jencElems, jencElems, h e v fo a a' (hv v (.head _)), ih fun w hw => hv w (.tail _ hw)]

theorem jencFields_addr (h : NoAddr Γ rec) (a a' : Bool) {fs : List Field} {vs : List Val}
    (hv : ∀ p ∈ fs.zip vs, HasTy Γ p.1.ty p.2) : jencFields Γ c rec a fs vs = jencFields Γ c rec a' fs vs := by
  induction fs generalizing vs with
  | nil => cases vs <;> rfl
  | cons f fs ih =>
    cases vs with
    | nil => rfl
    | cons v vs =>
      simp only [jencFields, h f.ty v f.opts a a' (hv (f, v) (.head _)), ih fun p hp => hv p (.tail _ hp)]

theorem jencShape_addr (hB : PlainBytes Γ) (h : NoAddr Γ rec) (a a' : Bool) {id : TId} {v : Val} (hv : HasTy Γ (.base id) v)
    (fo : FOpts) : jencShape Γ c J rec a id v fo = jencShape Γ c J rec a' id v fo := by
  have hb : ∀ {e : Ty} {b : Bytes}, (Γ.shape id).elem? = some e → Γ.isByteKind e = true →
      jencBytes Γ a e b = jencBytes Γ a' e b := by
    intro e b he hk
    unfold jencBytes
    rw [hB id e he hk]
    simp
  unfold jencShape
  cases hv with
  | sliceBytes hs hk => simp only [hs]; exact hb (by rw [hs]; rfl) hk
  | arrayBytes hs hk _ => simp only [hs]; exact hb (by rw [hs]; rfl) hk
  | array hs _ _ hf => simp only [hs]; unfold jencList; rw [jencElems_addr h a a' _ _ hf]
  | struct hs _ hf => simp only [hs]; rw [jencFields_addr h a a' hf]
  | bool hs => simp only [hs]
  | int hs => simp only [hs]
  | f32 hs => simp only [hs]
  | f64 hs => simp only [hs]
  | str hs => simp only [hs]
  | time hs => simp only [hs]
  | sliceNil hs => simp only [hs]
  | slice hs => simp only [hs]
  | mapNil hs => simp only [hs]
  | map hs => simp only [hs]
  | ifaceNil hs => simp only [hs]
  | iface hs => simp only [hs]

end

theorem jenc_addr (hM : ValueMethods J) (hB : PlainBytes Γ) (f : Nat) : NoAddr Γ (jenc Γ c J f) := by
  induction f with
  | zero => intro _ _ _ _ _ _; rfl
  | succ f ih =>
    intro t v fo a a' hv
    rw [jenc, jenc]
    cases hd : derefVal t v with
    | none => rfl
    | some dv =>
      have hdv := hasTy_derefVal hv hd
      simp only
      unfold jencBase
      rw [hM t.deref (a || t.isPtr) (a' || t.isPtr), jencShape_addr hB ih (a || t.isPtr) (a' || t.isPtr) hdv fo]

theorem jenc_toPtr (f : Nat) (t : Ty) (v : Val) (fo : FOpts) : jenc Γ c J f false (.ptr t) (.ptr v) fo = jenc Γ c J f true t v fo := by
  cases f with
  | zero => rfl
  | succ f => rw [jenc, jenc]; simp [derefVal, Ty.isPtr, Ty.deref]

/-- C83 (partial): a value and a pointer to it have the same JSON, in programs without lists of named byte types and types
whose MarshalJSON is declared for pointers only. -/
theorem C83_json_partial (hM : ValueMethods J) (hB : PlainBytes Γ) {f : Nat} {t : Ty} {v : Val} (hv : HasTy Γ t v) :
    marshalJSON Γ c J f (some (.ptr t, .ptr v)) = marshalJSON Γ c J f (some (t, v)) := by
  rw [marshalJSON, marshalJSON, jenc_toPtr, jenc_addr hM hB f t v _ true false hv]
  rfl

/-! ## Examples and refutations -/

/-- The hypotheses are met by programs with byte arrays, whatever the codec. -/
theorem Demo.plainArrays : ¬ NamedByteArrays Demo.prog := by
  rintro ⟨id, n, e, hs, hb, he⟩
  obtain ⟨_, _, rfl⟩ := Demo.shape_array hs
  exact absurd hb (by decide +kernel)

theorem JDemo.plainBytes : PlainBytes JDemo.prog := by
  intro id e he hb
  match id with
  | 0 | 1 | 2 | 4 | 5 | 6 | 7 | 8 | 9 | 10 | 12 | 13 | 15 => cases he
  | 3 => cases he; rfl
  | 11 | 14 => cases he; exact absurd hb (by decide +kernel)
  | n + 16 => cases he

example {f : Nat} : marshalJSON JDemo.prog JDemo.codec JDemo.lib f (some (.ptr (.base JDemo.recT), .ptr JDemo.rec1)) =
    marshalJSON JDemo.prog JDemo.codec JDemo.lib f (some (.base JDemo.recT, JDemo.rec1)) :=
  C83_json_partial (fun _ _ _ => rfl) JDemo.plainBytes JDemo.rec1_typed

example {f : Nat} {t : Ty} {v : Val} : marshalBareA Demo.prog Demo.codec f (.ptr t) (.ptr v) = marshalBareA Demo.prog Demo.codec f t v :=
  (C83_alike_partial Demo.plainArrays).1

/-- `type MyByte byte`, `[2]MyByte` and a struct with it; `type P struct{}` with `func (*P) MarshalJSON`. -/
def addrProg : Prog where
  shape
    | 0 | 1 => .int .uint8
    | 2 => .array 2 (.base 1)
    | 3 => .struct [{ ty := .base 2 }]
    | _ => .struct []
  zero
    | 0 | 1 => .int 0
    | 2 => .bytes [0, 0]
    | 3 => .struct [.bytes [0, 0]]
    | _ => .struct []
  marsh _ := none
  unmarsh _ := none
  implements _ _ := false
  byteId := 0

def addrLib : JLib := { JDemo.lib with marsh := fun id a => if id = 4 ∧ a then some fun _ => .ok "1".toUTF8.toList else none }

/-- C83 in general: refuted.  A struct with an array of a named byte type panics, a pointer to it does not. -/
theorem C83_array_refuted :
    marshalBareA addrProg {} 9 (.base 3) (.struct [.bytes [1, 2]]) = .panic .notAssignable ∧
    marshalBareA addrProg {} 9 (.ptr (.base 3)) (.ptr (.struct [.bytes [1, 2]])) = .ok [10, 2, 1, 2] := by
  decide +kernel

/-- C83 in general: refuted for JSON, if MarshalJSON is declared for the pointer. -/
theorem C83_json_refuted :
    marshalJSON addrProg {} addrLib 9 (some (.base 4, .struct [])) = .ok [0x7b, 0x7d] ∧
    marshalJSON addrProg {} addrLib 9 (some (.ptr (.base 4), .ptr (.struct []))) = .ok [0x31] := by
  decide +kernel

/-- The types of `addrProg`, and: 4 is `[1]S` and 5 a struct with it, where `S` is the struct 3; 6 is `[]S` and 7 a struct with
it; 8 is a struct with a `*[2]MyByte`; 9 an interface and 10 a struct with it; 11 has a MarshalAmino that returns
`[2]MyByte`. -/
def placeProg : Prog where
  shape
    | 0 | 1 => .int .uint8
    | 2 => .array 2 (.base 1)
    | 3 => .struct [{ ty := .base 2 }]
    | 4 => .array 1 (.base 3)
    | 5 => .struct [{ ty := .base 4 }]
    | 6 => .slice (.base 3)
    | 7 => .struct [{ ty := .base 6 }]
    | 8 => .struct [{ ty := .ptr (.base 2) }]
    | 9 => .iface
    | 10 => .struct [{ ty := .base 9 }]
    | _ => .struct []
  zero
    | 0 | 1 => .int 0
    | 2 => .bytes [0, 0]
    | 3 => .struct [.bytes [0, 0]]
    | 4 => .list [.struct [.bytes [0, 0]]]
    | 5 => .struct [.list [.struct [.bytes [0, 0]]]]
    | 6 | 9 => .nil
    | 7 | 8 | 10 => .struct [.nil]
    | _ => .struct []
  marsh id := if id = 11 then some (2, fun _ => .ok (.bytes [1, 2])) else none
  unmarsh _ := none
  implements t i := i == 9 && (t == .base 3 || t == .ptr (.base 3))
  byteId := 0

def placeConc : ConcInfo := { tid := 3, ptrPref := false, name := [0x66], disamb := [7, 7, 7], prefx := [1, 2, 3, 4] }

def placeCodec : Codec where
  ifaces := [{ tid := 9, priority := [], always := false, impls := [placeConc] }]
  concs := [placeConc]
  byDisfix := [(placeConc.disfix, placeConc)]
  byName := [(placeConc.name, placeConc)]

/-- C83: which places are addressable.  Elements of arrays are if the array is, elements of slices and what pointers point to
always are; the contents of interfaces and what MarshalAmino returns are not, even if the argument is a pointer. -/
theorem C83_places_refuted :
    (∀ a, encA placeProg placeCodec 9 a 5 (.struct [.list [.struct [.bytes [1, 2]]]]) {} true =
      if a then .ok [10, 4, 10, 2, 1, 2] else .panic .notAssignable) ∧
    (∀ a, encA placeProg placeCodec 9 a 7 (.struct [.list [.struct [.bytes [1, 2]]]]) {} true = .ok [10, 4, 10, 2, 1, 2]) ∧
    (∀ a, encA placeProg placeCodec 9 a 8 (.struct [.ptr (.bytes [1, 2])]) {} true = .ok [10, 2, 1, 2]) ∧
    (∀ a, encA placeProg placeCodec 9 a 10 (.struct [.iface (.base 3) (.struct [.bytes [1, 2]])]) {} true =
      .panic .notAssignable) ∧
    (∀ a, encA placeProg placeCodec 9 a 10 (.struct [.iface (.ptr (.base 3)) (.ptr (.struct [.bytes [1, 2]]))]) {} true =
      .ok [10, 8, 1, 2, 3, 4, 10, 2, 1, 2]) ∧
    (∀ a, encA placeProg placeCodec 9 a 11 (.struct []) {} false = .panic .notAssignable) := by
  decide +kernel

end Amino
