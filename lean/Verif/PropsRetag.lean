import Verif.Retag
import Verif.PropsRT
import Verif.PropsJson
import Verif.StructInfo

/-!
# Property C95: which tags can be changed without breaking stored data

Two versions of a program declare the same types with the same fields, and differ in struct tags.  `json` tags do not
matter to the binary format, `binary` and `amino` tags do not matter to JSON, and `amino:"write_empty"` does not matter to
the reader of binary data.
-/

namespace Amino
namespace Spec

/-- `Γ'` is `Γ` with other tags: each pair of old and new options of a field is related by `R`. -/
structure Retagged (R : FOpts → FOpts → Prop) (Γ Γ' : Prog) : Prop where
  rest : Γ' = { Γ with shape := Γ'.shape }
  others : ∀ id, (∀ fs, Γ.shape id ≠ .struct fs) → Γ'.shape id = Γ.shape id
  structs : ∀ id fs, Γ.shape id = .struct fs → ∃ fs', Γ'.shape id = .struct fs' ∧ fs'.length = fs.length ∧
    ∀ p ∈ fs.zip fs', p.2.ty = p.1.ty ∧ p.2.visible = p.1.visible ∧ R p.1.opts p.2.opts

/-- Only the member name and `omitempty` changed. -/
def JsonTags (a b : FOpts) : Prop :=
  b.fixed64 = a.fixed64 ∧ b.fixed32 = a.fixed32 ∧ b.fnum = a.fnum ∧ b.floatOk = a.floatOk ∧ b.writeEmpty = a.writeEmpty ∧
    b.emptyElements = a.emptyElements

/-- Only the member name, `omitempty` and `write_empty` changed. -/
def JsonWriteTags (a b : FOpts) : Prop :=
  b.fixed64 = a.fixed64 ∧ b.fixed32 = a.fixed32 ∧ b.fnum = a.fnum ∧ b.floatOk = a.floatOk ∧
    b.emptyElements = a.emptyElements

/-- Only `fixed32`, `fixed64`, `write_empty`, `empty_elements` changed. -/
def BinTags (a b : FOpts) : Prop :=
  b.jsonName = a.jsonName ∧ b.omitEmpty = a.omitEmpty ∧ b.floatOk = a.floatOk

end Spec

open Spec

theorem Retagged_mapOpts {R : FOpts → FOpts → Prop} {Γ Γ' : Prog} {g : FOpts → FOpts} (h : Retagged R Γ Γ')
    (hg : ∀ a b, R a b → g a = g b) : Γ'.mapOpts g = Γ.mapOpts g := by
  have hs : ∀ id, (Γ'.shape id).mapOpts g = (Γ.shape id).mapOpts g := by
    intro id
    by_cases hst : ∃ fs, Γ.shape id = .struct fs
    · obtain ⟨fs, hf⟩ := hst
      obtain ⟨fs', hf', hl, hp⟩ := h.structs id fs hf
      rw [hf, hf']
      simp only [Shape.mapOpts, Shape.struct.injEq]
      apply List.ext_getElem (by simp [hl])
      intro i h1 h2
      simp only [List.length_map] at h1 h2
      have hz : i < (fs.zip fs').length := by simp; omega
      obtain ⟨a, b, r⟩ := hp _ (List.getElem_mem hz)
      simp only [List.getElem_zip] at a b r
      simp only [List.getElem_map, a, b, hg _ _ r]
    · rw [h.others id fun fs hf => hst ⟨fs, hf⟩]
  rw [h.rest]
  simp only [Prog.mapOpts, hs]

/-- Forget what JSON tags say. -/
def noJson (fo : FOpts) : FOpts := { fo with jsonName := [], omitEmpty := false }
/-- Forget what JSON tags and `write_empty` say. -/
def noJsonWrite (fo : FOpts) : FOpts := { fo with jsonName := [], omitEmpty := false, writeEmpty := false }
/-- Forget what binary tags say. -/
def noBin (fo : FOpts) : FOpts := { jsonName := fo.jsonName, omitEmpty := fo.omitEmpty, floatOk := fo.floatOk }

theorem noJson_keeps : KeepsBin noJson := by constructor <;> intros <;> rfl
theorem noJsonWrite_keeps : KeepsBin noJsonWrite := by constructor <;> intros <;> rfl
theorem noBin_keeps : KeepsJson noBin := by constructor <;> intros <;> rfl

variable {Γ Γ' : Prog} {c : Codec}

/-- C95: `json:"name,omitempty"` tags have no influence on what is written and read in binary. -/
theorem C95_json_tags (h : Retagged JsonTags Γ Γ') (f : Nat) (t : Ty) :
    (∀ v, marshalBare Γ' c f t v = marshalBare Γ c f t v) ∧ (∀ v, marshalLP Γ' c f t v = marshalLP Γ c f t v) ∧
    (∀ p bz, unmarshalBare Γ' c f t p bz = unmarshalBare Γ c f t p bz) ∧
    (∀ p bz, unmarshalLP Γ' c f t p bz = unmarshalLP Γ c f t p bz) := by
  have e : Γ'.mapOpts noJson = Γ.mapOpts noJson := by
    apply Retagged_mapOpts h
    rintro a b ⟨h1, h2, h3, h4, h5, h6⟩
    simp only [noJson, h1, h2, h3, h4, h5, h6]
  have m : ∀ v, marshalBare Γ' c f t v = marshalBare Γ c f t v := fun v => by
    rw [← mapOpts_marshalBare noJson_keeps (fun _ => rfl), e, mapOpts_marshalBare noJson_keeps fun _ => rfl]
  have u : ∀ p bz, unmarshalBare Γ' c f t p bz = unmarshalBare Γ c f t p bz := fun p bz => by
    rw [← mapOpts_unmarshalBare noJson_keeps, e, mapOpts_unmarshalBare noJson_keeps]
  refine ⟨m, fun v => ?_, u, fun p bz => ?_⟩
  · unfold marshalLP; rw [m]
  · unfold unmarshalLP; simp only [u]

/-- C95: `amino:"write_empty"` (and json tags) have no influence on what is read in binary. -/
theorem C95_write_empty (h : Retagged JsonWriteTags Γ Γ') (f : Nat) (t : Ty) (p : Val) (bz : Bytes) :
    unmarshalBare Γ' c f t p bz = unmarshalBare Γ c f t p bz ∧ unmarshalLP Γ' c f t p bz = unmarshalLP Γ c f t p bz := by
  have e : Γ'.mapOpts noJsonWrite = Γ.mapOpts noJsonWrite := by
    apply Retagged_mapOpts h
    rintro a b ⟨h1, h2, h3, h4, h5⟩
    simp only [noJsonWrite, h1, h2, h3, h4, h5]
  have u : ∀ p bz, unmarshalBare Γ' c f t p bz = unmarshalBare Γ c f t p bz := fun p bz => by
    rw [← mapOpts_unmarshalBare noJsonWrite_keeps, e, mapOpts_unmarshalBare noJsonWrite_keeps]
  refine ⟨u p bz, ?_⟩
  unfold unmarshalLP; simp only [u]

/-- C95: so `write_empty` can be added and removed freely: what the program with one set of these tags writes, the program
with the other set reads, with the result that the writer's own program gets. -/
theorem C95_cross {S : TId → FOpts → Prop} (h : Retagged JsonWriteTags Γ Γ') (hU : Universe Γ c S) (hZ : ZeroOk Γ) (hT : Γ.Typed)
    (hum : UserTotal Γ) (hp4 : Prefix4 c) {t t' : Ty} {v : Val} {bz : Bytes} {f g : Nat} (hs : Γ.structOrRep t.deref = true)
    (hS : S t.deref { fnum := 1 }) (ht : HasTy Γ t v) (hm : marshalBare Γ c f t v = .ok bz) (hl : bz.length < 2 ^ 63)
    (hg : 2 * f ≤ g) (htt : t'.deref = t.deref) :
    ∃ w, roundTrip Γ c f t v = some w ∧ unmarshalBare Γ' c g t' (Γ'.zeroTy t') bz = .ok (refs t' w) := by
  obtain ⟨w, h1, _, h2⟩ := C11_roundTrip hU hZ hT hum hp4 hs hS ht hm hl hg htt
  refine ⟨w, h1, ?_⟩
  have hz : Γ'.zeroTy t' = Γ.zeroTy t' := by rw [h.rest]; cases t' <;> rfl
  rw [hz, (C95_write_empty h g t' _ bz).1, h2]

/-- C95: `binary:"…"`, `amino:"write_empty"` and `amino:"empty_elements"` tags have no influence on JSON. -/
theorem C95_binary_tags {J : JLib} (h : Retagged BinTags Γ Γ') (f : Nat) :
    (∀ o, marshalJSON Γ' c J f o = marshalJSON Γ c J f o) ∧
    (∀ t p bz, unmarshalJSON Γ' c J f t p bz = unmarshalJSON Γ c J f t p bz) := by
  have e : Γ'.mapOpts noBin = Γ.mapOpts noBin := by
    apply Retagged_mapOpts h
    rintro a b ⟨h1, h2, h3⟩
    simp only [noBin, h1, h2, h3]
  constructor
  · intro o
    rw [← mapOpts_marshalJSON noBin_keeps, e, mapOpts_marshalJSON noBin_keeps]
  · intro t p bz
    rw [← mapOpts_unmarshalJSON noBin_keeps, e, mapOpts_unmarshalJSON noBin_keeps]

/-! ## Witnesses -/

/-- The program with the options of all fields of all structs changed. -/
theorem Retagged_map {R : FOpts → FOpts → Prop} {g : FOpts → FOpts} (h : ∀ fo, R fo (g fo)) (Γ : Prog) :
    Retagged R Γ (Γ.mapOpts g) := by
  refine ⟨rfl, ?_, ?_⟩
  · intro id hn
    show (Γ.shape id).mapOpts g = _
    cases hs : Γ.shape id with
    | struct fs => exact absurd hs (hn fs)
    | _ => rfl
  · intro id fs hf
    refine ⟨_, by show (Γ.shape id).mapOpts g = _; rw [hf]; rfl, by simp, ?_⟩
    intro p hp
    obtain ⟨i, hi, rfl⟩ := List.mem_iff_getElem.1 hp
    simp only [List.getElem_zip, List.getElem_map, true_and]
    exact h _

namespace Demo
/-- The program with `json:"x,omitempty"` on all fields. -/
def named : Prog := prog.mapOpts fun fo => { fo with jsonName := [0x78], omitEmpty := true }
/-- The program with `amino:"write_empty"` on all fields. -/
def written : Prog := prog.mapOpts fun fo => { fo with writeEmpty := true }
/-- The program with `binary:"fixed32"` on all fields. -/
def fixed : Prog := prog.mapOpts fun fo => { fo with fixed32 := true }
/-- The program with `amino:"empty_elements"` on all fields. -/
def emptied : Prog := prog.mapOpts fun fo => { fo with emptyElements := true }

theorem named_retagged : Retagged JsonTags prog named := Retagged_map (fun _ => ⟨rfl, rfl, rfl, rfl, rfl, rfl⟩) _
theorem written_retagged : Retagged JsonWriteTags prog written := Retagged_map (fun _ => ⟨rfl, rfl, rfl, rfl, rfl⟩) _
end Demo

example : marshalBare Demo.named Demo.codecFoo 5 (.base Demo.msgT) Demo.msg = .ok Demo.msgBytes := by
  rw [(C95_json_tags Demo.named_retagged 5 _).1, Demo.msg_marshal]

/-- `write_empty` is visible in the bytes, and they are read by the program without it. -/
example : marshalBare Demo.prog Demo.codecFoo 5 (.base Demo.subT) (.struct [.int 0, .bool false]) = .ok [] ∧
    marshalBare Demo.written Demo.codecFoo 5 (.base Demo.subT) (.struct [.int 0, .bool false]) = .ok [8, 0, 16, 0] ∧
    unmarshalBare Demo.prog Demo.codecFoo 5 (.base Demo.subT) (Demo.prog.zero Demo.subT) [8, 0, 16, 0] =
      .ok (.struct [.int 0, .bool false]) := by decide +kernel

/-- The reader has `write_empty`, the writer not. -/
example : unmarshalBare Demo.written Demo.codecFoo 10 (.ptr (.base Demo.msgT)) .nil Demo.msgBytes = .ok (.ptr Demo.msgBack) := by
  obtain ⟨w, hw, hu⟩ := C95_cross Demo.written_retagged Demo.univ_foo Demo.prog_zero Demo.prog_typed Demo.user_total
    Demo.prefix4_foo (t' := .ptr (.base Demo.msgT)) rfl Demo.S_msg Demo.msg_typed Demo.msg_marshal (by decide) (g := 10)
    (by omega) rfl
  have : roundTrip Demo.prog Demo.codecFoo 5 (.base Demo.msgT) Demo.msg = some Demo.msgBack := by decide +kernel
  rw [this] at hw
  cases hw
  exact hu

/-- The JSON of a program with `fixed32` etc. on all fields is the same. -/
example (f : Nat) (o : Option (Ty × Val)) :
    marshalJSON (JDemo.prog.mapOpts fun fo => { fo with fixed32 := true, fixed64 := true, writeEmpty := true, emptyElements := true })
      JDemo.codec JDemo.lib f o = marshalJSON JDemo.prog JDemo.codec JDemo.lib f o :=
  (C95_binary_tags (Retagged_map (fun _ => ⟨rfl, rfl, rfl⟩) _) f).1 o

/-- The full property fails for `binary:"fixed32"`: the old bytes are rejected. -/
theorem C95_fixed_refuted : marshalBare Demo.prog Demo.codecFoo 5 (.base Demo.uT) (.struct [.int 5]) = .ok [8, 5] ∧
    unmarshalBare Demo.fixed Demo.codecFoo 5 (.base Demo.uT) (Demo.prog.zero Demo.uT) [8, 5] = .err .fieldTyp ∧
    marshalBare Demo.fixed Demo.codecFoo 5 (.base Demo.uT) (.struct [.int 5]) = .ok [13, 5, 0, 0, 0] ∧
    unmarshalBare Demo.prog Demo.codecFoo 5 (.base Demo.uT) (Demo.prog.zero Demo.uT) [13, 5, 0, 0, 0] = .err .fieldTyp := by
  decide +kernel

/-- `type L struct { X []uint32 }`. -/
def Demo.counts : Prog where
  shape
    | 0 => .int .uint8
    | 1 => .int .uint32
    | 2 => .slice (.base 1)
    | 3 => .struct [{ ty := .base 2 }]
    | _ => .bool
  zero
    | 0 | 1 => .int 0
    | 2 => .nil
    | 3 => .struct [.nil]
    | _ => .bool false
  marsh _ := none
  unmarsh _ := none
  implements _ _ := false
  byteId := 0

/-- For a list the change is not even noticed: `[]uint32{1, 2, 3, 4}` is read as `[]uint32{0x04030201}` after adding
`binary:"fixed32"` to the field, and conversely. -/
theorem C95_fixed_list_refuted :
    let Γ' := Demo.counts.mapOpts fun fo => { fo with fixed32 := true }
    marshalBare Demo.counts {} 5 (.base 3) (.struct [.list [.int 1, .int 2, .int 3, .int 4]]) = .ok [10, 4, 1, 2, 3, 4] ∧
    unmarshalBare Γ' {} 5 (.base 3) (.struct [.nil]) [10, 4, 1, 2, 3, 4] = .ok (.struct [.list [.int 0x04030201]]) ∧
    marshalBare Γ' {} 5 (.base 3) (.struct [.list [.int 0x04030201]]) = .ok [10, 4, 1, 2, 3, 4] ∧
    unmarshalBare Demo.counts {} 5 (.base 3) (.struct [.nil]) [10, 4, 1, 2, 3, 4] =
      .ok (.struct [.list [.int 1, .int 2, .int 3, .int 4]]) := by
  decide +kernel

/-- `empty_elements` changes what is read from the same bytes: a pointer to an empty struct instead of nil. -/
theorem C95_empty_elements_refuted :
    unmarshalBare Demo.prog Demo.codecFoo 5 (.base Demo.listsT) (Demo.prog.zero Demo.listsT) [34, 0] =
      .ok (.struct [.nil, .nil, .nil, .list [.nil]]) ∧
    unmarshalBare Demo.emptied Demo.codecFoo 5 (.base Demo.listsT) (Demo.prog.zero Demo.listsT) [34, 0] =
      .ok (.struct [.nil, .nil, .nil, .list [.ptr (.struct [.int 0, .bool false])]]) := by
  decide +kernel

/-- Renaming a JSON member loses its data without an error: `{"N":"5"}` is read as the zero value. -/
theorem C95_rename_refuted :
    let Γ' := JDemo.prog.mapOpts fun fo => { fo with jsonName := fo.jsonName ++ [0x78] }
    jdec JDemo.prog JDemo.codec JDemo.lib 5 (.base JDemo.fooT) (.struct [.int 0]) {} (ascii "{\"N\":\"5\"}") = .ok (.struct [.int 5]) ∧
    jdec Γ' JDemo.codec JDemo.lib 5 (.base JDemo.fooT) (.struct [.int 0]) {} (ascii "{\"N\":\"5\"}") = .ok (.struct [.int 0]) := by
  decide +kernel

end Amino
