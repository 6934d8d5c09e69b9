import Verif.Demo
import Verif.NormLemmas

/-!
# The demo program is a supported universe

All types of `Demo.prog` except `[][]byte` as a type of its own (it is supported as a struct field) and
`Outer` (which nests a time by value, see C13 and C43), with `Foo` registered.
-/

namespace Amino.Demo
open Spec

def supported (id : TId) : Bool := id != bytessT && id != outerT

def S (id : TId) (_ : FOpts) : Prop := supported id = true

/-- All components of the fields are supported. -/
def fieldCheck (f : Field) : Bool :=
  !(f.ty.isPtr && prog.isIface f.ty.deref) && !f.opts.writeEmpty &&
  (if repeated prog f then true else supported f.ty.deref) &&
  match (prog.shape f.ty.deref).elem? with
  | some e => !(e.isPtr && prog.isIface e.deref) && supported e.deref
  | none => true

theorem fieldOk_of {f : Field} {num : Nat} (h : fieldCheck f = true) : FieldOk prog S f num := by
  unfold fieldCheck at h
  simp only [Bool.and_eq_true, Bool.not_eq_true'] at h
  obtain ⟨⟨⟨h1, h2⟩, h3⟩, h4⟩ := h
  refine ⟨?_, ?_, ?_⟩
  · intro hp; simpa [hp] using h1
  · intro _
    refine ⟨rfl, rfl, ?_⟩
    intro e he
    rw [he] at h4
    simp only [Bool.and_eq_true, Bool.not_eq_true'] at h4
    exact ⟨fun hp => by simpa [hp] using h4.1, h4.2⟩
  · intro hr
    rw [hr] at h3
    simp at h3
    exact ⟨h3, fun _ => h2⟩

theorem fieldsOk_of {fs : List Field} {num : Nat} (h : fs.all fieldCheck = true) : FieldsOk prog S num fs := by
  induction fs generalizing num with
  | nil => trivial
  | cons f fs ih =>
    simp only [List.all_cons, Bool.and_eq_true] at h
    unfold FieldsOk
    split
    · exact ⟨fieldOk_of h.1, ih h.2⟩
    · exact ih h.2

theorem shape_struct {id : TId} {fs : List Field} (h : prog.shape id = .struct fs) :
    (supported id = true → fs.all fieldCheck = true) ∧ (∀ f ∈ fs, prog.badFloat f = false) ∧
      prog.zero id = .struct (fs.map fun f => prog.zeroTy f.ty) := by
  match id with
  | 0 | 1 | 2 | 3 | 6 | 7 | 10 | 11 | 13 | 14 | 15 | 16 | 19 | 21 | 22 | 23 | 24 => simp [prog, shape] at h
  | 4 | 5 | 8 | 9 | 12 | 17 | 18 | 20 | 25 =>
    simp only [prog, shape, Shape.struct.injEq] at h
    subst h
    exact ⟨by decide +kernel, by decide +kernel, rfl⟩
  | n + 26 => simp [prog, shape] at h

theorem shape_slice {id : TId} {e : Ty} (h : prog.shape id = .slice e) :
    (id ≠ bytessT → prog.isListKind e = false) ∧ (prog.isByteKind e = true → e = .base prog.byteId) ∧
      (e.isPtr = true → prog.isIface e.deref = false) ∧ supported e.deref = true ∧ prog.zero id = .nil := by
  match id with
  | 0 | 1 | 2 | 4 | 5 | 7 | 8 | 9 | 10 | 11 | 12 | 13 | 14 | 16 | 17 | 18 | 20 | 24 | 25 => simp [prog, shape] at h
  | 3 | 6 | 15 | 19 | 21 | 22 | 23 =>
    simp only [prog, shape, Shape.slice.injEq] at h
    subst h
    exact ⟨by decide +kernel, by decide +kernel, by decide +kernel, by decide +kernel, rfl⟩
  | n + 26 => simp [prog, shape] at h

theorem shape_array {id : TId} {n : Nat} {e : Ty} (h : prog.shape id = .array n e) :
    id = arrT ∧ n = 2 ∧ e = .base int64T := by
  match id with
  | 0 | 1 | 2 | 3 | 4 | 5 | 6 | 7 | 8 | 9 | 10 | 11 | 12 | 13 | 14 | 15 | 16 | 17 | 18 | 19 | 20 | 21 | 22 | 23 | 25 =>
    simp [prog, shape] at h
  | 24 =>
    simp only [prog, shape, Shape.array.injEq] at h
    exact ⟨rfl, h.1.symm, h.2.symm⟩
  | n + 26 => simp [prog, shape] at h

theorem shape_iface {id : TId} (h : prog.shape id = .iface) : id = ifaceT := by
  match id with
  | 7 => rfl
  | 0 | 1 | 2 | 3 | 4 | 5 | 6 | 8 | 9 | 10 | 11 | 12 | 13 | 14 | 15 | 16 | 17 | 18 | 19 | 20 | 21 | 22 | 23 | 24 | 25 =>
    simp [prog, shape] at h
  | n + 26 => simp [prog, shape] at h

theorem shape_map {id : TId} {e : Ty} : prog.shape id ≠ .map e := by
  intro h
  match id with
  | 0 | 1 | 2 | 3 | 4 | 5 | 6 | 7 | 8 | 9 | 10 | 11 | 12 | 13 | 14 | 15 | 16 | 17 | 18 | 19 | 20 | 21 | 22 | 23 | 24 | 25 =>
    simp [prog, shape] at h
  | n + 26 => simp [prog, shape] at h

theorem prog_zero : ZeroOk prog where
  struct h := (shape_struct h).2.2
  array h hb := by obtain ⟨rfl, rfl, rfl⟩ := shape_array h; rfl
  slice h := (shape_slice h).2.2.2.2
  iface h := by rw [shape_iface h]; rfl
  bool := by
    intro id h
    match id with
    | 0 | 1 | 2 | 3 | 4 | 5 | 6 | 7 | 8 | 9 | 10 | 11 | 12 | 13 | 15 | 16 | 17 | 18 | 19 | 20 | 21 | 22 | 23 | 24 | 25 =>
      simp [prog, shape] at h
    | 14 => rfl
    | n + 26 => rfl
  int := by
    intro id k h
    match id with
    | 2 | 3 | 4 | 5 | 6 | 7 | 8 | 9 | 10 | 12 | 14 | 15 | 16 | 17 | 18 | 19 | 20 | 21 | 22 | 23 | 24 | 25 =>
      simp [prog, shape] at h
    | 0 | 1 | 11 | 13 => rfl
    | n + 26 => simp [prog, shape] at h
  string := by
    intro id h
    match id with
    | 0 | 1 | 3 | 4 | 5 | 6 | 7 | 8 | 9 | 10 | 11 | 12 | 13 | 14 | 15 | 17 | 18 | 19 | 20 | 21 | 22 | 23 | 24 | 25 =>
      simp [prog, shape] at h
    | 2 | 16 => rfl
    | n + 26 => simp [prog, shape] at h

theorem conc_foo {id : TId} {ci : ConcInfo} (h : codecFoo.conc? id = some ci) : ci = foo ∧ id = fooT := by
  unfold Codec.conc? codecFoo at h
  rw [List.find?_cons] at h
  split at h
  · rename_i hh
    simp only [Option.some.injEq] at h
    exact ⟨h.symm, by simp [foo] at hh; exact hh.symm⟩
  · simp at h

theorem univ_foo : Universe prog codecFoo S where
  noMap _ := shape_map
  registered _ h := by rw [shape_iface h]; rfl
  floats _ h := (shape_struct h).2.1
  marsh _ h := by simp [prog] at h
  noMarsh _ _ := rfl
  slice := by
    intro id fo e hS h _
    obtain ⟨h1, h2, h3, h4, _⟩ := shape_slice h
    unfold ListOk
    split
    · rename_i hb; exact h2 hb
    · exact ⟨h1 (by intro hh; subst hh; simp [S, supported] at hS), h3, h4⟩
  array := by
    intro id fo n e hS h _
    obtain ⟨rfl, rfl, rfl⟩ := shape_array h
    unfold ListOk
    rw [if_neg (by decide)]
    exact ⟨by decide, by simp [noIfacePtr, Ty.isPtr], show supported int64T = true by decide⟩
  struct hS h _ := fieldsOk_of ((shape_struct h).1 hS)
  iface := by
    intro id fo ii hS h hii
    have hid := shape_iface h
    subst hid
    have : ii = { tid := ifaceT, priority := [], always := false, impls := [foo] } := by
      have : codecFoo.iface? ifaceT = some { tid := ifaceT, priority := [], always := false, impls := [foo] } := rfl
      rw [this] at hii
      exact (Option.some.inj hii).symm
    subst this
    refine ⟨?_, ?_⟩
    · intro t ci _ hci
      rw [(conc_foo hci).1]
      simp
    · intro ci hci
      simp at hci
      subst hci
      exact ⟨show supported fooT = true by decide, by decide, fun _ => by decide, by decide, by decide, by decide, by decide, by decide +kernel⟩

theorem user_total : UserTotal prog := by intro id rid um r h; simp [prog] at h

theorem prefix4_foo : ∀ id ci, codecFoo.conc? id = some ci → ci.prefx.length = 4 := by
  intro id ci h
  rw [(conc_foo h).1]
  rfl

theorem steady_leaf {id : TId} (h : prog.isStruct id = false) : Steady prog id := .leaf rfl h

theorem steady_sub : Steady prog subT := by
  refine .struct rfl (fs := _) rfl ?_
  intro f hf _ i hi
  simp at hf
  rcases hf with rfl | rfl <;> cases hi <;> exact steady_leaf rfl

theorem steady_foo : Steady prog fooT := by
  refine .struct rfl (fs := _) rfl ?_
  intro f hf _ i hi
  simp at hf
  subst hf
  cases hi; exact steady_leaf rfl

/-- By value: anything that is not a struct, `time.Time`, `Sub`. -/
theorem byValue_of {t : Ty} (h : t.isPtr = true ∨ prog.isStruct t.deref = false ∨ t.deref = timeT ∨ t.deref = subT) :
    ByValue prog t := by
  intro i hi
  subst hi
  rcases h with h | h | h | h
  · simp [Ty.isPtr] at h
  · exact .inr (steady_leaf h)
  · simp only [Ty.deref] at h; subst h; exact .inl ⟨rfl, rfl⟩
  · simp only [Ty.deref] at h; subst h; exact .inr steady_sub

def byValueCheck (t : Ty) : Bool := t.isPtr || !prog.isStruct t.deref || t.deref == timeT || t.deref == subT

theorem byValue_check {t : Ty} (h : byValueCheck t = true) : ByValue prog t := by
  unfold byValueCheck at h
  apply byValue_of
  cases h1 : t.isPtr <;> cases h2 : prog.isStruct t.deref <;> simp_all

def stableCheck (f : Field) : Bool :=
  !(f.ty.isPtr && f.ty.deref == timeT) && byValueCheck f.ty &&
  match (prog.shape f.ty.deref).elem? with
  | some e => byValueCheck e
  | none => true

theorem stable_all {fs : List Field} {f : Field} (h : fs.all stableCheck = true) (hf : f ∈ fs) :
    stableCheck f = true := List.all_eq_true.mp h f hf

theorem shape_time {id : TId} (h : prog.shape id = .time) : id = timeT := by
  match id with
  | 10 => rfl
  | 0 | 1 | 2 | 3 | 4 | 5 | 6 | 7 | 8 | 9 | 11 | 12 | 13 | 14 | 15 | 16 | 17 | 18 | 19 | 20 | 21 | 22 | 23 | 24 | 25 =>
    simp [prog, shape] at h
  | n + 26 => simp [prog, shape] at h

theorem stable : Stable prog S where
  field := by
    intro id fo fs f hS h _ hf hv
    have hc : stableCheck f = true := by
      match id with
      | 0 | 1 | 2 | 3 | 6 | 7 | 10 | 11 | 13 | 14 | 15 | 16 | 19 | 21 | 22 | 23 | 24 => simp [prog, shape] at h
      | 17 => simp [S, supported, outerT] at hS
      | 4 | 5 | 8 | 9 | 12 | 18 | 20 | 25 =>
        simp only [prog, shape, Shape.struct.injEq] at h
        subst h
        exact stable_all (by decide +kernel) hf
      | n + 26 => simp [prog, shape] at h
    unfold stableCheck at hc
    simp only [Bool.and_eq_true, Bool.not_eq_true'] at hc
    obtain ⟨⟨h1, h2⟩, h3⟩ := hc
    refine ⟨?_, byValue_check h2, ?_⟩
    · intro ht
      have := shape_time ht
      simpa [this] using h1
    · intro _ e he
      rw [he] at h3
      exact byValue_check h3
  time _ _ := rfl
  elem := by
    intro id fo e _ _ h _
    cases hs : prog.shape id with
    | slice e' =>
      rw [hs] at h
      simp [Shape.elem?] at h
      subst h
      apply byValue_check
      match id with
      | 0 | 1 | 2 | 4 | 5 | 7 | 8 | 9 | 10 | 11 | 12 | 13 | 14 | 16 | 17 | 18 | 20 | 24 | 25 => simp [prog, shape] at hs
      | 3 | 6 | 15 | 19 | 21 | 22 | 23 =>
        simp only [prog, shape, Shape.slice.injEq] at hs
        subst hs
        decide +kernel
      | n + 26 => simp [prog, shape] at hs
    | array n e' =>
      rw [hs] at h
      simp [Shape.elem?] at h
      subst h
      obtain ⟨_, _, rfl⟩ := shape_array hs
      exact byValue_check (by decide +kernel)
    | _ => rw [hs] at h; simp [Shape.elem?] at h
  lawful := by intro id fo rid m um _ h; simp [prog] at h

/-- `Msg{A: -5, B: "hi", C: []byte{1,2}, D: &Msg{A: 7, E: []Sub{}}, E: []Sub{{0,false},{3,true}}, I: Foo{9},
T: 2001-09-09}`: exercises every construct; `D.E` (empty slice) and `I` (value instead of pointer) are
normalised. -/
def msg : Val :=
  .struct [.int (-5), .str [104, 105], .bytes [1, 2],
    .ptr (.struct [.int 7, .str [], .nil, .nil, .list [], .nil, .time 0 0]),
    .list [.struct [.int 0, .bool false], .struct [.int 3, .bool true]],
    .iface (.base fooT) (.struct [.int 9]), .time 1000000000 0]

def msgBack : Val :=
  .struct [.int (-5), .str [104, 105], .bytes [1, 2],
    .ptr (.struct [.int 7, .str [], .nil, .nil, .nil, .nil, .time 0 0]),
    .list [.struct [.int 0, .bool false], .struct [.int 3, .bool true]],
    .iface (.ptr (.base fooT)) (.ptr (.struct [.int 9])), .time 1000000000 0]

theorem msg_typed : HasTy prog (.base msgT) msg := by
  have hi : ∀ {id k i}, shape id = .int k → k.inRange i → HasTy prog (.base id) (.int i) := fun h => .int h
  have hsub : ∀ i b, IntKind.int32.inRange i → HasTy prog (.base subT) (.struct [.int i, .bool b]) := by
    intro i b hr
    refine .struct (fs := _) rfl rfl ?_
    simp
    exact ⟨.int rfl hr, .bool rfl⟩
  have hempty : HasTy prog (.base subsT) (.list []) := .slice rfl rfl (by simp)
  refine .struct (fs := msgFields) rfl rfl ?_
  simp [msgFields]
  refine ⟨.int rfl (by decide), .str rfl, .sliceBytes rfl rfl, .ptr ?_, .slice rfl rfl ?_, .iface rfl rfl ?_,
    .time rfl (by decide) (by decide) (by decide) (by decide)⟩
  · refine .struct (fs := msgFields) rfl rfl ?_
    simp [msgFields]
    exact ⟨.int rfl (by decide), .str rfl, .sliceNil rfl, .ptrNil, hempty, .ifaceNil rfl,
      .time rfl (by decide) (by decide) (by decide) (by decide)⟩
  · simp
    exact ⟨hsub _ _ (by decide), hsub _ _ (by decide)⟩
  · refine .struct (fs := _) rfl rfl ?_
    simp
    exact .int rfl (by decide)

end Amino.Demo
