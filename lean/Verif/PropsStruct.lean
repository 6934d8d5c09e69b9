import Verif.StructInfo
import Verif.Demo

/-!
# C45: struct metadata
-/

namespace Amino
open Spec

/-! ## Specification -/

/-- `item` is one of the pieces of a comma separated tag. -/
def Spec.Listed (tag item : Bytes) : Prop :=
  ∃ pre post, tag = pre ++ item ++ post ∧ (pre = [] ∨ ∃ p, pre = p ++ [44]) ∧ (post = [] ∨ ∃ p, post = 44 :: p)

/-- The declarations amino encodes: exported, and not `json:"-"`. -/
def Spec.Encoded (d : SDecl) : Prop := d.pkgPath = [] ∧ d.upper = true ∧ d.tag (ascii "json") ≠ ascii "-"

instance (d : SDecl) : Decidable (Encoded d) := by unfold Encoded; infer_instance

/-- A field of float kind. -/
def Spec.IsFloat (Γ : Prog) (t : Ty) : Prop :=
  ∃ id, t = .base id ∧ (Γ.shape id = .float32 ∨ Γ.shape id = .float64)

/-- The encoded declarations among `ds`, with their positions from `i` on. -/
def Spec.encodedFrom (i : Nat) (ds : List SDecl) : List (Nat × SDecl) :=
  ((List.range' i ds.length).zip ds).filter fun p => decide (Encoded p.2)

/-! ## Tags -/

theorem splitComma_ne (b : Bytes) : splitComma b ≠ [] := by
  cases b with
  | nil => simp [splitComma]
  | cons x xs =>
    rw [splitComma]
    split
    · simp
    · split <;> simp

theorem splitComma_cons {x : UInt8} (hx : x ≠ 44) (xs : Bytes) :
    splitComma (x :: xs) = (x :: (splitComma xs).headD []) :: (splitComma xs).tail := by
  rw [splitComma, if_neg hx]
  cases h : splitComma xs with
  | nil => exact absurd h (splitComma_ne xs)
  | cons p ps => rfl

theorem splitComma_comma (xs : Bytes) : splitComma (44 :: xs) = [] :: splitComma xs := by
  rw [splitComma, if_pos rfl]

theorem splitComma_append (a b : Bytes) (ha : 44 ∉ a) : splitComma (a ++ 44 :: b) = a :: splitComma b := by
  induction a with
  | nil => exact splitComma_comma b
  | cons x xs ih =>
    have hx : x ≠ 44 := fun h => ha (by simp [h])
    have hxs : 44 ∉ xs := fun h => ha (by simp [h])
    rw [List.cons_append, splitComma_cons hx, ih hxs]; rfl

theorem splitComma_free (a : Bytes) (ha : 44 ∉ a) : splitComma a = [a] := by
  induction a with
  | nil => rfl
  | cons x xs ih =>
    have hx : x ≠ 44 := fun h => ha (by simp [h])
    have hxs : 44 ∉ xs := fun h => ha (by simp [h])
    rw [splitComma_cons hx, ih hxs]; rfl

/-- Every string is comma free, or a comma free piece followed by a comma and a rest. -/
theorem comma_cases (b : Bytes) : 44 ∉ b ∨ ∃ p r, 44 ∉ p ∧ b = p ++ 44 :: r := by
  induction b with
  | nil => left; simp
  | cons x xs ih =>
    by_cases hx : x = 44
    · right; exact ⟨[], xs, by simp, by simp [hx]⟩
    · rcases ih with h | ⟨p, r, hp, rfl⟩
      · left; simp [h, Ne.symm hx]
      · right; exact ⟨x :: p, r, by simp [hp, Ne.symm hx], rfl⟩

theorem mem_splitComma (item : Bytes) (hi : 44 ∉ item) : ∀ (n : Nat) (tag : Bytes), tag.length ≤ n →
    (item ∈ splitComma tag ↔ Listed tag item) := by
  intro n
  induction n with
  | zero =>
    intro tag h
    cases tag with
    | cons x xs => simp at h
    | nil =>
      simp only [splitComma, List.mem_singleton]
      constructor
      · rintro rfl; exact ⟨[], [], rfl, .inl rfl, .inl rfl⟩
      · rintro ⟨pre, post, h, _, _⟩
        have := congrArg List.length h
        simp only [List.length_append, List.length_nil] at this
        exact List.length_eq_zero_iff.mp (by omega)
  | succ n ih =>
    intro tag hl
    rcases comma_cases tag with hf | ⟨p, r, hp, rfl⟩
    · rw [splitComma_free tag hf, List.mem_singleton]
      constructor
      · rintro rfl; exact ⟨[], [], by simp, .inl rfl, .inl rfl⟩
      · rintro ⟨pre, post, rfl, h1, h2⟩
        rcases h1 with rfl | ⟨q, rfl⟩
        · rcases h2 with rfl | ⟨q, rfl⟩
          · simp
          · exact absurd (by simp) hf
        · exact absurd (by simp) hf
    · rw [splitComma_append p r hp, List.mem_cons, ih r (by simp at hl; omega)]
      constructor
      · rintro (rfl | ⟨pre, post, rfl, h1, h2⟩)
        · exact ⟨[], 44 :: r, by simp, .inl rfl, .inr ⟨r, rfl⟩⟩
        · refine ⟨p ++ 44 :: pre, post, by simp, .inr ?_, h2⟩
          rcases h1 with rfl | ⟨q, rfl⟩
          · exact ⟨p, by simp⟩
          · exact ⟨p ++ 44 :: q, by simp⟩
      · rintro ⟨pre, post, h, h1, h2⟩
        rcases h1 with rfl | ⟨q, rfl⟩
        · left
          rw [List.nil_append] at h
          rcases h2 with rfl | ⟨q, rfl⟩
          · exact absurd (by rw [List.append_nil] at h; rw [← h]; simp) hi
          · have := congrArg splitComma h
            rw [splitComma_append p r hp, splitComma_append item q hi] at this
            exact (List.cons.inj this).1.symm
        · right
          -- pre = q ++ [44]: the first comma of the tag is in pre
          rcases comma_cases q with hq | ⟨p', r', hp', rfl⟩
          · have e : splitComma (p ++ 44 :: r) = splitComma (q ++ 44 :: (item ++ post)) := by rw [h]; simp
            have hpq : p = q := by
              rw [splitComma_append p r hp, splitComma_append q _ hq] at e
              exact (List.cons.inj e).1
            subst hpq
            have : r = item ++ post := by simpa using h
            exact ⟨[], post, by simpa using this, .inl rfl, h2⟩
          · have e : splitComma (p ++ 44 :: r) = splitComma (p' ++ 44 :: (r' ++ 44 :: (item ++ post))) := by rw [h]; simp
            have hpq : p = p' := by
              rw [splitComma_append p r hp, splitComma_append p' _ hp'] at e
              exact (List.cons.inj e).1
            subst hpq
            have : r = r' ++ 44 :: (item ++ post) := by simpa using h
            exact ⟨r' ++ [44], post, by simpa using this, .inr ⟨r', rfl⟩, h2⟩

theorem aminoTags_spec (ts : List Bytes) (fo : FOpts) :
    aminoTags ts fo = { fo with
      floatOk := fo.floatOk || decide (ascii "unsafe" ∈ ts)
      writeEmpty := fo.writeEmpty || decide (ascii "write_empty" ∈ ts)
      emptyElements := fo.emptyElements || decide (ascii "empty_elements" ∈ ts) } := by
  induction ts generalizing fo with
  | nil => simp [aminoTags]
  | cons t ts ih =>
    rw [aminoTags, ih]
    by_cases h1 : t = ascii "unsafe"
    · subst h1; simp [show ascii "unsafe" ≠ ascii "write_empty" by decide,
        show ascii "unsafe" ≠ ascii "empty_elements" by decide,
        show ascii "write_empty" ≠ ascii "unsafe" by decide,
        show ascii "empty_elements" ≠ ascii "unsafe" by decide]
    · by_cases h2 : t = ascii "write_empty"
      · subst h2; simp [show ascii "write_empty" ≠ ascii "empty_elements" by decide,
          show ascii "write_empty" ≠ ascii "unsafe" by decide,
          show ascii "unsafe" ≠ ascii "write_empty" by decide,
          show ascii "empty_elements" ≠ ascii "write_empty" by decide]
      · by_cases h3 : t = ascii "empty_elements"
        · subst h3; simp [show ascii "empty_elements" ≠ ascii "write_empty" by decide,
            show ascii "empty_elements" ≠ ascii "unsafe" by decide,
            show ascii "unsafe" ≠ ascii "empty_elements" by decide,
            show ascii "write_empty" ≠ ascii "empty_elements" by decide]
        · simp [h1, h2, h3, Ne.symm h1, Ne.symm h2, Ne.symm h3]

theorem visible_iff (d : SDecl) : d.field.visible = true ↔ Encoded d := by
  unfold SDecl.field Encoded SDecl.exported parseFieldOptions
  simp only [Bool.and_eq_true]
  constructor
  · rintro ⟨h1, h2⟩
    split at h1
    · cases h1
    · rename_i hp
      refine ⟨Classical.byContradiction hp, h1, fun hj => ?_⟩
      rw [if_pos hj] at h2; cases h2
  · rintro ⟨h1, h2, h3⟩
    rw [if_neg (fun h => h h1), if_neg h3]
    exact ⟨h2, rfl⟩

theorem badFloat_eq (Γ : Prog) (d : SDecl) :
    Γ.badFloat d.field = (d.field.visible && !d.field.opts.floatOk && isFloatKind Γ d.ty) := by
  unfold Prog.badFloat isFloatKind
  have : d.field.ty = d.ty := rfl
  rw [this]
  cases d.ty with
  | ptr t => rfl
  | base id => cases h : Γ.shape id <;> simp [h]

theorem unpackedList_eq (Γ : Prog) (d : SDecl) : Γ.unpackedList d.field = unpackedKind Γ d.ty d.field.opts := by
  unfold Prog.unpackedList unpackedKind
  have : d.field.ty = d.ty := rfl
  rw [this]
  cases d.ty with
  | ptr t => rfl
  | base id =>
    cases hs : Γ.shape id with
    | slice e => cases h : Γ.isByteKind e <;> simp [h, hs]
    | array n e => cases h : Γ.isByteKind e <;> simp [h, hs]
    | _ => simp [hs]

theorem isFloatKind_iff (Γ : Prog) (t : Ty) : isFloatKind Γ t = true ↔ IsFloat Γ t := by
  unfold IsFloat isFloatKind
  cases t with
  | ptr t => simp
  | base id => cases h : Γ.shape id <;> simp [h]

/-- What parseStructInfo appends, `n` fields having been appended before index `i`. -/
def infosFrom (Γ : Prog) : Nat → Nat → List SDecl → List FInfo
  | _, _, [] => []
  | n, i, d :: ds =>
    if d.field.visible then
      ⟨d.name, d.ty, i, Γ.unpackedList d.field, { (parseFieldOptions d).2 with fnum := n + 1 }⟩
        :: infosFrom Γ (n + 1) (i + 1) ds
    else infosFrom Γ n (i + 1) ds

theorem parseStructLoop_eq (Γ : Prog) (ds : List SDecl) : ∀ (i : Nat) (infos : List FInfo),
    parseStructLoop Γ i infos ds =
      if (ds.map SDecl.field).any Γ.badFloat then .panic .unsafeFloat
      else .ok (infos ++ infosFrom Γ infos.length i ds) := by
  induction ds with
  | nil => intro i infos; simp [parseStructLoop, infosFrom]
  | cons d ds ih =>
    intro i infos
    rw [parseStructLoop, infosFrom, List.map_cons, List.any_cons]
    by_cases he : d.exported = true
    · cases hs : (parseFieldOptions d).1 with
      | true =>
        have hv : d.field.visible = false := by simp [SDecl.field, hs]
        have hb : Γ.badFloat d.field = false := by simp [Prog.badFloat, hv]
        rw [he, hv, hb, Bool.false_or]
        simp only [Bool.not_true, Bool.false_eq_true, if_false]
        generalize hpf : parseFieldOptions d = r
        obtain ⟨sk, fo⟩ := r
        rw [hpf] at hs
        simp only at hs
        subst hs
        simp only [if_true]
        exact ih (i + 1) infos
      | false =>
        have hv : d.field.visible = true := by simp [SDecl.field, hs, he]
        generalize hpf : parseFieldOptions d = r
        obtain ⟨sk, fo⟩ := r
        rw [hpf] at hs
        simp only at hs
        subst hs
        have hfo : d.field.opts = fo := by simp [SDecl.field, hpf]
        have hty : d.field.ty = d.ty := rfl
        simp only [he, hv, Bool.not_true, Bool.false_eq_true, if_false, if_true]
        have hbad : Γ.badFloat d.field = (!fo.floatOk && isFloatKind Γ d.ty) := by
          rw [badFloat_eq, hv, hfo, Bool.true_and]
        have hunp : Γ.unpackedList d.field = unpackedKind Γ d.ty fo := by
          rw [unpackedList_eq, hfo]
        rw [← hbad, ← hunp]
        cases hb : Γ.badFloat d.field with
        | true => rw [if_pos rfl, Bool.true_or, if_pos rfl]
        | false =>
          rw [if_neg (by decide), Bool.false_or, ih]
          split
          · rfl
          · rw [List.append_assoc, List.length_append]; rfl
    · have he : d.exported = false := by simpa using he
      have hv : d.field.visible = false := by simp [SDecl.field, he]
      have hb : Γ.badFloat d.field = false := by simp [Prog.badFloat, hv]
      rw [he, hv, hb, Bool.false_or]
      simp only [Bool.not_false, if_true, Bool.false_eq_true, if_false]
      exact ih (i + 1) infos

theorem parseStructInfo_eq (Γ : Prog) (ds : List SDecl) :
    parseStructInfo Γ ds = if (ds.map SDecl.field).any Γ.badFloat then .panic .unsafeFloat
      else .ok (infosFrom Γ 0 0 ds) := by
  rw [parseStructInfo, parseStructLoop_eq]; rfl

/-! ## The theorems -/

/-- C45, tags: the options of a field, in terms of the comma separated pieces of its tags. -/
theorem C45_options (d : SDecl) (hd : d.tag (ascii "json") ≠ ascii "-") :
    let fo := (parseFieldOptions d).2
    fo.jsonName = (let first := (d.tag (ascii "json")).takeWhile (· ≠ 44); if first = [] then d.name else first) ∧
    (fo.omitEmpty = true ↔ ∃ first rest, 44 ∉ first ∧ (rest = [] ∨ ∃ r, rest = 44 :: r) ∧
      d.tag (ascii "json") = first ++ [44] ++ ascii "omitempty" ++ rest) ∧
    (fo.fixed64 = true ↔ d.tag (ascii "binary") = ascii "fixed64") ∧
    (fo.fixed32 = true ↔ d.tag (ascii "binary") = ascii "fixed32") ∧
    (fo.floatOk = true ↔ Listed (d.tag (ascii "amino")) (ascii "unsafe")) ∧
    (fo.writeEmpty = true ↔ Listed (d.tag (ascii "amino")) (ascii "write_empty")) ∧
    (fo.emptyElements = true ↔ Listed (d.tag (ascii "amino")) (ascii "empty_elements")) := by
  have hhead : ∀ b : Bytes, (splitComma b).headD [] = b.takeWhile (· ≠ 44) := by
    intro b
    induction b with
    | nil => rfl
    | cons x xs ih =>
      by_cases hx : x = 44
      · subst hx; rw [splitComma_comma]; rfl
      · rw [splitComma_cons hx, List.takeWhile_cons, if_pos (by simpa using hx), ← ih]; rfl
  have hsecond : (1 < (splitComma (d.tag (ascii "json"))).length ∧
      (splitComma (d.tag (ascii "json"))).getD 1 [] = ascii "omitempty") ↔
      ∃ first rest, 44 ∉ first ∧ (rest = [] ∨ ∃ r, rest = 44 :: r) ∧
        d.tag (ascii "json") = first ++ [44] ++ ascii "omitempty" ++ rest := by
    generalize d.tag (ascii "json") = b
    have hc : (44 : UInt8) ∉ ascii "omitempty" := by decide
    rcases comma_cases b with hf | ⟨p, r, hp, rfl⟩
    · rw [splitComma_free b hf]
      constructor
      · rintro ⟨h, _⟩; simp at h
      · rintro ⟨first, rest, _, _, rfl⟩; exact absurd (by simp) hf
    · rw [splitComma_append p r hp]
      constructor
      · rintro ⟨_, h⟩
        simp only [List.getD_cons_succ] at h
        rcases comma_cases r with hf | ⟨p', r', hp', rfl⟩
        · rw [splitComma_free r hf] at h
          exact ⟨p, [], hp, .inl rfl, by simpa using h⟩
        · rw [splitComma_append p' r' hp'] at h
          exact ⟨p, 44 :: r', hp, .inr ⟨r', rfl⟩, by simpa using h⟩
      · rintro ⟨first, rest, hfi, hr, h⟩
        have e := congrArg splitComma h
        rw [show first ++ [44] ++ ascii "omitempty" ++ rest = first ++ 44 :: (ascii "omitempty" ++ rest) by simp,
          splitComma_append p r hp, splitComma_append first _ hfi] at e
        have e2 := (List.cons.inj e).2
        rw [e2]
        refine ⟨?_, ?_⟩
        · have := splitComma_ne (ascii "omitempty" ++ rest)
          cases h : splitComma (ascii "omitempty" ++ rest) with
          | nil => exact absurd h this
          | cons a as => simp
        · rcases hr with rfl | ⟨r', rfl⟩
          · rw [List.append_nil, splitComma_free _ hc]; rfl
          · rw [splitComma_append _ _ hc]; rfl
  have hlist : ∀ item : Bytes, 44 ∉ item →
      (decide (item ∈ splitComma (d.tag (ascii "amino"))) = true ↔ Listed (d.tag (ascii "amino")) item) := by
    intro item hi
    rw [decide_eq_true_iff]
    exact mem_splitComma item hi _ _ (Nat.le_refl _)
  simp only [parseFieldOptions, if_neg hd, hhead]
  rw [aminoTags_spec]
  rw [← hsecond, ← hlist _ (by decide), ← hlist _ (by decide), ← hlist _ (by decide)]
  have hne : ascii "fixed64" ≠ ascii "fixed32" := by decide
  generalize (splitComma (d.tag (ascii "json"))).getD 1 [] = snd
  generalize hx : (if List.takeWhile (fun x => decide (x ≠ 44)) (d.tag (ascii "json")) = [] then d.name
    else List.takeWhile (fun x => decide (x ≠ 44)) (d.tag (ascii "json"))) = nm
  generalize d.tag (ascii "binary") = bt
  generalize (splitComma (d.tag (ascii "json"))).length = len
  by_cases h1 : 1 < len <;>
  by_cases h2 : snd = ascii "omitempty" <;>
  by_cases h3 : bt = ascii "fixed64" <;>
  by_cases h4 : bt = ascii "fixed32" <;>
  first
  | exact absurd (h3.symm.trans h4) hne
  | simp [h1, h2, h3, h4, hne, Ne.symm hne]

/-- C45, numbers: the fields of the struct info are the encoded declarations in order, with their names, types,
positions and options; they are numbered 1, 2, 3, ... -/
theorem C45_numbers {Γ : Prog} {ds : List SDecl} {infos : List FInfo} (h : parseStructInfo Γ ds = .ok infos) :
    infos.map (fun fi => (fi.index, fi.name, fi.ty)) = (encodedFrom 0 ds).map (fun p => (p.1, p.2.name, p.2.ty)) ∧
    infos.map (fun fi => fi.opts.fnum) = List.range' 1 infos.length ∧
    infos.map (fun fi => { fi.opts with fnum := 0 }) =
      (encodedFrom 0 ds).map (fun p => { (parseFieldOptions p.2).2 with fnum := 0 }) := by
  rw [parseStructInfo_eq] at h
  split at h
  · cases h
  · simp only [Res.ok.injEq] at h
    subst h
    have key : ∀ (ds : List SDecl) (n i : Nat),
        (infosFrom Γ n i ds).map (fun fi => (fi.index, fi.name, fi.ty)) =
          (encodedFrom i ds).map (fun p => (p.1, p.2.name, p.2.ty)) ∧
        (infosFrom Γ n i ds).map (fun fi => fi.opts.fnum) = List.range' (n + 1) (infosFrom Γ n i ds).length ∧
        (infosFrom Γ n i ds).map (fun fi => { fi.opts with fnum := 0 }) =
          (encodedFrom i ds).map (fun p => { (parseFieldOptions p.2).2 with fnum := 0 }) := by
      intro ds
      induction ds with
      | nil => intro n i; simp [infosFrom, encodedFrom]
      | cons d ds ih =>
        intro n i
        have he : encodedFrom i (d :: ds) = if Encoded d then (i, d) :: encodedFrom (i + 1) ds
            else encodedFrom (i + 1) ds := by
          simp only [encodedFrom, List.length_cons, List.range'_succ, List.zip_cons_cons, List.filter_cons,
            decide_eq_true_eq]
        rw [he, infosFrom]
        by_cases hv : d.field.visible = true
        · rw [if_pos hv, if_pos ((visible_iff d).1 hv)]
          obtain ⟨a, b, c⟩ := ih (n + 1) (i + 1)
          simp only [List.map_cons, List.length_cons, List.range'_succ, a, b, c, and_self]
        · rw [if_neg hv, if_neg (fun h => hv ((visible_iff d).2 h))]
          exact ih n (i + 1)
    exact key ds 0 0

/-- C45, stability: two declarations with the same encoded fields give the same names, types, numbers and options,
whatever other fields stand before, between and after them. -/
theorem C45_stable {Γ : Prog} {ds ds' : List SDecl}
    (h : ds.filter (fun d => decide (Encoded d)) = ds'.filter (fun d => decide (Encoded d))) :
    (∃ p, parseStructInfo Γ ds = .panic p ∧ parseStructInfo Γ ds' = .panic p) ∨
    ∃ infos infos', parseStructInfo Γ ds = .ok infos ∧ parseStructInfo Γ ds' = .ok infos' ∧
      infos.map (fun fi => { fi with index := 0 }) = infos'.map (fun fi => { fi with index := 0 }) := by
  have hany : ∀ ds : List SDecl, (ds.map SDecl.field).any Γ.badFloat =
      ((ds.filter (fun d => decide (Encoded d))).map SDecl.field).any Γ.badFloat := by
    intro ds
    induction ds with
    | nil => rfl
    | cons d ds ih =>
      rw [List.filter_cons]
      split
      · rw [List.map_cons, List.map_cons, List.any_cons, List.any_cons, ih]
      · rename_i hv
        have : d.field.visible = false := by
          cases hv' : d.field.visible with
          | false => rfl
          | true => exact absurd (decide_eq_true ((visible_iff d).1 hv')) hv
        rw [List.map_cons, List.any_cons, ih, show Γ.badFloat d.field = false by simp [Prog.badFloat, this],
          Bool.false_or]
  have hinf : ∀ (ds : List SDecl) (n i j : Nat), (infosFrom Γ n i ds).map (fun fi => { fi with index := 0 }) =
      (infosFrom Γ n j (ds.filter (fun d => decide (Encoded d)))).map (fun fi => { fi with index := 0 }) := by
    intro ds
    induction ds with
    | nil => intro n i j; rfl
    | cons d ds ih =>
      intro n i j
      rw [List.filter_cons]
      by_cases hv : d.field.visible = true
      · rw [if_pos (decide_eq_true ((visible_iff d).1 hv)), infosFrom, infosFrom, if_pos hv, if_pos hv]
        simp only [List.map_cons, ih (n + 1) (i + 1) (j + 1)]
      · rw [if_neg (fun h => hv ((visible_iff d).2 (of_decide_eq_true h))), infosFrom, if_neg hv]
        exact ih n (i + 1) j
  rw [parseStructInfo_eq, parseStructInfo_eq, hany ds, hany ds', h]
  cases hb : ((ds'.filter (fun d => decide (Encoded d))).map SDecl.field).any Γ.badFloat with
  | true => left; exact ⟨_, rfl, rfl⟩
  | false => right; exact ⟨_, _, rfl, rfl, by rw [hinf ds 0 0 0, hinf ds' 0 0 0, h]⟩

/-- C45, floats: a struct is unusable exactly when an encoded field of float kind lacks `amino:"unsafe"`. -/
theorem C45_float (Γ : Prog) (ds : List SDecl) :
    (∃ infos, parseStructInfo Γ ds = .ok infos) ↔
      ∀ d ∈ ds, Encoded d → IsFloat Γ d.ty → Listed (d.tag (ascii "amino")) (ascii "unsafe") := by
  have hbad : ∀ d : SDecl, Γ.badFloat d.field = true ↔
      Encoded d ∧ IsFloat Γ d.ty ∧ ¬ Listed (d.tag (ascii "amino")) (ascii "unsafe") := by
    intro d
    rw [badFloat_eq, Bool.and_eq_true, Bool.and_eq_true, isFloatKind_iff, visible_iff]
    constructor
    · rintro ⟨⟨h1, h2⟩, h3⟩
      refine ⟨h1, h3, fun h => ?_⟩
      rw [show d.field.opts.floatOk = true from (C45_options d h1.2.2).2.2.2.2.1.2 h] at h2
      cases h2
    · rintro ⟨h1, h2, h3⟩
      refine ⟨⟨h1, ?_⟩, h2⟩
      cases hf : d.field.opts.floatOk with
      | false => rfl
      | true => exact absurd ((C45_options d h1.2.2).2.2.2.2.1.1 hf) h3
  rw [parseStructInfo_eq]
  cases hb : (ds.map SDecl.field).any Γ.badFloat with
  | true =>
    simp only [if_true, reduceCtorEq, exists_false, false_iff]
    intro h
    simp only [List.any_eq_true, List.mem_map] at hb
    obtain ⟨_, ⟨d, hd, rfl⟩, hbd⟩ := hb
    obtain ⟨h1, h2, h3⟩ := (hbad d).1 hbd
    exact h3 (h d hd h1 h2)
  | false =>
    simp only [Bool.false_eq_true, if_false, Res.ok.injEq, exists_eq', true_iff]
    intro d hd h1 h2
    refine Classical.byContradiction fun h3 => ?_
    have := (hbad d).2 ⟨h1, h2, h3⟩
    have : (ds.map SDecl.field).any Γ.badFloat = true := by
      simp only [List.any_eq_true, List.mem_map]
      exact ⟨_, ⟨d, hd, rfl⟩, this⟩
    rw [hb] at this; cases this

/-- C45, use: encoding a struct value with the struct info of its declaration is what the model's encoder, which is
given the fields themselves, does. -/
theorem C45_encode {Γ : Prog} {c : Codec} {rec : TId → Val → FOpts → Bool → Res Bytes} {ds : List SDecl}
    {infos : List FInfo} (h : parseStructInfo Γ ds = .ok infos) {vs : List Val} (hl : vs.length = ds.length) :
    encInfos Γ c rec vs infos = encFields Γ c rec 0 (ds.map SDecl.field) vs := by
  rw [parseStructInfo_eq] at h
  split at h
  · cases h
  · simp only [Res.ok.injEq] at h
    subst h
    have key : ∀ (ds : List SDecl) (n : Nat) (pre post : List Val), post.length = ds.length →
        encInfos Γ c rec (pre ++ post) (infosFrom Γ n pre.length ds) = encFields Γ c rec n (ds.map SDecl.field) post := by
      intro ds
      induction ds with
      | nil =>
        intro n pre post hl
        cases post with
        | nil => simp [infosFrom, encInfos, encFields]
        | cons a as => simp at hl
      | cons d ds ih =>
        intro n pre post hl
        cases post with
        | nil => simp at hl
        | cons v vs =>
          have hrec := fun n => ih n (pre ++ [v]) vs (by simpa using hl)
          simp only [List.append_assoc, List.singleton_append, List.length_append, List.length_cons, List.length_nil,
            Nat.zero_add] at hrec
          rw [List.map_cons, encFields, infosFrom]
          by_cases hv : d.field.visible = true
          · rw [if_pos hv, encInfos, hrec, hv]
            simp only [Bool.not_true, Bool.false_eq_true, if_false, List.getElem?_append_right (Nat.le_refl _), Nat.sub_self,
              List.getElem?_cons_zero]
            have : encInfo Γ c rec ⟨d.name, d.ty, pre.length, Γ.unpackedList d.field,
                { (parseFieldOptions d).2 with fnum := n + 1 }⟩ v = encField Γ c rec d.field (n + 1) v := rfl
            rw [this]
          · have hv : d.field.visible = false := by simpa using hv
            rw [hv]
            simp only [Bool.false_eq_true, if_false, Bool.not_false, if_true]
            exact hrec n
    exact key ds 0 [] vs hl

/-- `struct { A int64; b string; C string "json:\"-\""; D int64 "json:\"d,omitempty\" binary:\"fixed64\"
amino:\"write_empty,unsafe\"" }`. -/
def Demo.decls : List SDecl :=
  [{ name := ascii "A", ty := .base Demo.int64T },
   { name := ascii "b", upper := false, pkgPath := ascii "main", ty := .base Demo.stringT },
   { name := ascii "C", ty := .base Demo.stringT, tag := fun k => if k = ascii "json" then ascii "-" else [] },
   { name := ascii "D", ty := .base Demo.int64T, tag := fun k =>
      if k = ascii "json" then ascii "d,omitempty" else if k = ascii "binary" then ascii "fixed64"
      else if k = ascii "amino" then ascii "write_empty,unsafe" else [] }]

example : parseStructInfo Demo.prog Demo.decls = .ok
    [⟨ascii "A", .base Demo.int64T, 0, false, { jsonName := ascii "A", fnum := 1 }⟩,
     ⟨ascii "D", .base Demo.int64T, 3, false,
      { jsonName := ascii "d", omitEmpty := true, fixed64 := true, fnum := 2, floatOk := true, writeEmpty := true }⟩] := by
  decide +kernel

example : Demo.decls.filter (fun d => decide (Encoded d)) =
    (Demo.decls.take 1 ++ Demo.decls.drop 3).filter (fun d => decide (Encoded d)) := rfl

end Amino
