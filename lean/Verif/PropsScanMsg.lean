import Verif.PropsCmd
import Verif.PropsWire

/-!
# C121: aminoscan on what MarshalBinaryBare wrote
-/

namespace Amino

open Spec

section
variable {Γ : Prog} {c : Codec} {S : TId → FOpts → Prop} (H : Bytes → Bytes)

/-- C121: the digits of a struct message, without those of the prefix bytes if the type is registered, make aminoscan list the
fields of the message, and then all of its bytes without an error.  Missing for the full statement: with the prefix bytes, see
`C121_registered_refuted`. -/
theorem C121_struct_partial (hU : Universe Γ c S) (hT : Γ.Typed) (hM : SameWire Γ S) {f : Nat} {t : Ty} {v : Val} {bz : Bytes}
    {fs : List Field} (hs : Γ.shape t.deref = .struct fs) (hm : Γ.marsh t.deref = none) (hS : S t.deref { fnum := 1 })
    (ht : HasTy Γ t v) (h : marshalBare Γ c f t v = .ok bz) (hl : bz.length < 2 ^ 63) {s : Bytes}
    (hx : capital s = hexOf (bz.drop (prefixOf c t.deref).length)) (args : List Bytes) :
    ∃ ws b, bz = prefixOf c t.deref ++ b ∧ Wire ws b ∧ (∀ w ∈ ws, 1 ≤ w.num ∧ w.num ≤ fieldCount fs) ∧
      ∃ fuel text, aminoscan H fuel (s :: args) = .printed text ∧
        uncolor false text = ascii "## Root Struct (assumed)\n" ++ listing ws ++ ascii "## Root Struct END\n" ++
          hexOf b ++ ascii " " ++ decimal b.length ++ ascii " <nil>\n" := by
  obtain ⟨ws, b, rfl, h1, _, h2⟩ := C41_wire hU hT hM hs hm hS ht h hl
  rw [List.drop_left] at hx
  obtain ⟨text, h3, h4⟩ := C96_listing h1
  refine ⟨ws, b, rfl, h1, h2, ws.length + 1, text, ?_, h4⟩
  rw [(C119_scan_partial H _ s args).1 b hx, scanBytes, h3]

/-- C121 is false for registered types: the prefix bytes are taken for fields.  If the first of them, say, is a key of one of
the wire types 3, 4, 6, 7, aminoscan panics on every message of the type. -/
theorem C121_registered_refuted {ops : List Op} (hr : ({} : Codec).run Γ H ops = some c) {t : Ty} {name d q : Bytes} {x : UInt8}
    (ht : .conc t name ∈ ops) (hn : nameToDisfix H name = .ok (d, x :: q)) (h1 : x.toNat < 128)
    (h2 : x.toNat % 8 = 3 ∨ x.toNat % 8 = 4 ∨ x.toNat % 8 = 6 ∨ x.toNat % 8 = 7) {f : Nat} {v : Val} {bz : Bytes}
    (h : marshalBare Γ c f t v = .ok bz) {s : Bytes} (hx : capital s = hexOf bz) (args : List Bytes) (fuel : Nat) (text : Bytes) :
    aminoscan H fuel (s :: args) ≠ .printed text := by
  intro hp
  have hb : ∃ r, bz = [x] ++ r := by
    obtain ⟨ci, h3, _, _, _, _, _, h4⟩ := C29_found hr ht
    rw [hn] at h4
    unfold marshalBare at h
    split at h
    · cases h
    · obtain ⟨_, _, h⟩ := Res.bind_eq_ok h
      obtain ⟨y, _, h⟩ := Res.bind_eq_ok h
      simp only [h3] at h
      have e : x :: q = ci.prefx := (Prod.mk.inj (Res.ok.inj h4)).2
      cases h
      exact ⟨q ++ y, by rw [← e]; rfl⟩
  obtain ⟨r, rfl⟩ := hb
  obtain ⟨g, hg⟩ := (C58_exact_partial ([x] ++ r)).2.2.1.2 ⟨[], [x] ++ r, rfl, .nil, .typ (number_digit h1) h2⟩
  rw [(C119_scan_partial H fuel s args).1 _ hx] at hp
  unfold scanBytes at hp
  split at hp
  · rename_i out ho
    obtain ⟨n, e, hs⟩ := (scanMain_isSome fuel _).1 ⟨out, ho⟩
    cases scan_once hs hg (by simp) (by simp)
  · cases hp

end

/-- The message of `C41_wire`, whose type is not registered. -/
example : ∃ ws b, Demo.msgBytes = b ∧ Wire ws b ∧ (∀ w ∈ ws, 1 ≤ w.num ∧ w.num ≤ 7) ∧
    ∃ fuel text, aminoscan Demo.hash fuel [hexOf Demo.msgBytes] = .printed text ∧
      uncolor false text = ascii "## Root Struct (assumed)\n" ++ listing ws ++ ascii "## Root Struct END\n" ++
        hexOf b ++ ascii " " ++ decimal b.length ++ ascii " <nil>\n" :=
  C121_struct_partial Demo.hash Demo.univ_foo Demo.prog_typed Demo.sameWire (fs := Demo.msgFields) rfl rfl Demo.S_msg Demo.msg_typed
    Demo.msg_marshal (by decide) (by decide +kernel) []

/-- A registered type with the prefix `0b 0c 0d 0e`. -/
example : ({} : Codec).run Demo.prog Demo.hash Demo.ops = some Demo.codec ∧ .conc (.base Demo.strT) [115] ∈ Demo.ops ∧
    nameToDisfix Demo.hash [115] = .ok ([6, 6, 6], [11, 12, 13, 14]) ∧
    marshalBare Demo.prog Demo.codec 5 (.base Demo.strT) (.str [65]) = .ok [11, 12, 13, 14, 10, 1, 65] :=
  ⟨Demo.run_ops, by decide, by decide +kernel, by decide +kernel⟩

end Amino
