import Verif.DocUnique
import Verif.PropsEnd

/-!
# Property C80: the JSON that is written
-/

namespace Amino
open Spec

variable {Γ : Prog} {c : Codec} {J : JLib}

/-- C80: MarshalJSON writes a JSON notation for the document the value stands for, inside `{"type": …, "value": …}` if the
type is registered. -/
theorem C80_document (hp : PlainNames c) {f : Nat} {t : Ty} {v : Val} {b : Bytes}
    (h : marshalJSON Γ c J f (some (t, v)) = .ok b) :
    ∃ d, Stands Γ c J false t {} v d ∧
      ((c.conc? t.deref = none ∧ Notation d b) ∨
       ∃ ci name, c.conc? t.deref = some ci ∧ Decodes ci.name name ∧ Notation (disfixed name d) b) := by
  obtain ⟨_, b', hb, e⟩ := marshalJSON_inv h
  obtain ⟨d, hs, hn⟩ := jenc_doc hp f _ _ _ _ _ hb
  refine ⟨d, hs, ?_⟩
  cases hc : c.conc? t.deref with
  | none =>
    rw [hc] at e
    exact .inl ⟨rfl, e ▸ hn⟩
  | some ci =>
    rw [hc] at e
    obtain ⟨name, hd, hw⟩ := notation_wrap (hp _ _ hc) hn
    exact .inr ⟨ci, name, rfl, hd, e ▸ hw⟩

/-- C80: the nil interface is written as `null`. -/
theorem C80_nil {f : Nat} {b : Bytes} (h : marshalJSON Γ c J f none = .ok b) : Notation .null b := by
  cases h
  exact .null

/-- C80: a value stands for at most one document. -/
theorem C80_unique {a : Bool} {t : Ty} {fo : FOpts} {v : Val} {d d' : JDoc} (h : Stands Γ c J a t fo v d)
    (h' : Stands Γ c J a t fo v d') : d = d' := stands_unique h h'

/-- C80: plain names follow from the registration calls having succeeded with such names. -/
theorem C80_program {H : Bytes → Bytes} {ops : List Op} (hr : ({} : Codec).run Γ H ops = some c)
    (hn : ∀ t name, Op.conc t name ∈ ops → PlainName name) : PlainNames c := by
  intro id ci hc
  have hi := run_inv hr
  obtain ⟨hm, _⟩ := hi.conc_iff.1 hc
  obtain ⟨t', ho, _⟩ := mem_concs_op hi hm
  exact hn t' _ ho

namespace JDemo

theorem plainNames : PlainNames codec := by
  intro id ci h
  rw [(conc_foo h).1]
  exact plain_f

/-- The hypotheses are met by a struct with every construct. -/
example : ∃ d, Stands prog codec lib false (.base recT) {} rec1 d ∧
    ((codec.conc? recT = none ∧ Notation d rec1Text) ∨
       ∃ ci name, codec.conc? recT = some ci ∧ Decodes ci.name name ∧ Notation (disfixed name d) rec1Text) :=
  C80_document plainNames rec1_marshals

/-- `[]byte{0xfb, 0xff}` is `"+/8="`. -/
example : base64 [0xfb, 0xff] = "+/8=".toList := by decide +kernel
example : base64 [0x4d, 0x61, 0x6e] = "TWFu".toList := by decide +kernel
example : base64 [0x4d] = "TQ==".toList := by decide +kernel

/-- `"<\xff"` is written as `"<�"` and stands for `<` and U+FFFD. -/
example : Decodes [0x3c, 0xff] ['<', '�'] ∧ quoteStr [0x3c, 0xff] = "\"\\u003c\\ufffd\"".toList.map (UInt8.ofNat ·.toNat) := by
  refine ⟨?_, by decide +kernel⟩
  have hb : Decodes [0xff] ['�'] := by
    refine .bad (fun ch s h => ?_) .nil
    have h1 := utf8Char_char ch
    rcases char_cases h1 with ⟨a, ha, hlt⟩ | ⟨hl, _⟩
    · rw [ha] at h
      cases h
      exact absurd hlt (by decide)
    · have := congrArg List.length h
      rw [List.length_append, show ([0xff] : Bytes).length = 1 from rfl] at this
      omega
  exact Decodes.char (ch := '<') hb

end JDemo
end Amino
