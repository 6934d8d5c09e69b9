import Verif.TogEnc
import Verif.TogJson
import Verif.JDemo

/-!
# C90: Marshal and Unmarshal while other goroutines register types
-/

namespace Amino
open Spec

variable {Γ : Prog} {H : Bytes → Bytes}

/-- A call made in pieces (`run`, from `s`) and in one go (`call`).  The pieces end with a codec reached by successful calls
from that at the start; their outcome is that of the whole call on the codec at the end; if it is a result, also that of the
whole call any time later.  All of this for codecs with `P`. -/
def Spec.Serial (Γ : Prog) (H : Bytes → Bytes) (P : Codec → Prop) {α : Type} (s : Sim) (run : Sim → Res α × Sim)
    (call : Codec → Res α) : Prop :=
  (∃ ops, s.c.run Γ H ops = some (run s).2.c) ∧
  (P (run s).2.c → call (run s).2.c = (run s).1) ∧
  ∀ a, (run s).1 = .ok a → ∀ ops c, (run s).2.c.run Γ H ops = some c → P c → call c = .ok a

theorem serial_of {P : Codec → Prop} {α : Type} {m : Run (Res α)} {f : Codec → Res α} (h : m.Lin Γ H P f) {s : Sim}
    (hs : ({} : Codec).Later Γ H s.c) : Serial Γ H P s m f :=
  ⟨h.later s hs, h.exact s hs, fun a ha ops c hc hp => (h.final s hs ⟨a, ha⟩ c ⟨ops, hc⟩ hp).trans ha⟩

/-- C90: whatever other goroutines register or use between the look-ups of a binary Marshal or Unmarshal, as long as no two
registered types share their prefix bytes, the outcome is that of the same call made alone at the end; a result is also that
of the same call made alone at any later time.
Missing for the full statement: types with the same prefix bytes, see `C90_mixed_refuted`. -/
theorem C90_binary_partial {ops : List Op} {s : Sim} (hr : ({} : Codec).run Γ H ops = some s.c) (f : Nat) (t : Ty) :
    (∀ v, Serial Γ H (fun c => ∀ a ∈ c.concs, ∀ b ∈ c.concs, a.prefx = b.prefx → a = b) s
      (marshalBareS Γ H f t v) fun c => marshalBare Γ c f t v) ∧
    (∀ v, Serial Γ H (fun c => ∀ a ∈ c.concs, ∀ b ∈ c.concs, a.prefx = b.prefx → a = b) s
      (marshalLPS Γ H f t v) fun c => marshalLP Γ c f t v) ∧
    (∀ p bz, Serial Γ H (fun c => ∀ a ∈ c.concs, ∀ b ∈ c.concs, a.prefx = b.prefx → a = b) s
      (unmarshalBareS Γ H f t p bz) fun c => unmarshalBare Γ c f t p bz) ∧
    (∀ p bz, Serial Γ H (fun c => ∀ a ∈ c.concs, ∀ b ∈ c.concs, a.prefx = b.prefx → a = b) s
      (unmarshalLPS Γ H f t p bz) fun c => unmarshalLP Γ c f t p bz) :=
  ⟨fun v => serial_of (marshalBare_lin f t v) ⟨ops, hr⟩, fun v => serial_of (marshalLP_lin f t v) ⟨ops, hr⟩,
    fun p bz => serial_of (unmarshalBare_lin f t p bz) ⟨ops, hr⟩, fun p bz => serial_of (unmarshalLP_lin f t p bz) ⟨ops, hr⟩⟩

/-- C90 for JSON, where nothing has to be assumed about prefix bytes. -/
theorem C90_json {ops : List Op} {s : Sim} (hr : ({} : Codec).run Γ H ops = some s.c) (J : JLib) (f : Nat) :
    (∀ o, Serial Γ H (fun _ => True) s (marshalJSONS Γ H J f o) fun c => marshalJSON Γ c J f o) ∧
    (∀ t p bz, Serial Γ H (fun _ => True) s (unmarshalJSONS Γ H J f t p bz) fun c => unmarshalJSON Γ c J f t p bz) :=
  ⟨fun o => serial_of (marshalJSON_lin f o) ⟨ops, hr⟩, fun t p bz => serial_of (unmarshalJSON_lin f t p bz) ⟨ops, hr⟩⟩

/-- The calls in pieces are those of the rest of the model: if nobody else does anything, they have the same outcome on
every codec, whatever it is. -/
theorem C90_alone (J : JLib) (c : Codec) (f : Nat) (t : Ty) :
    (∀ v, (marshalBareS Γ H f t v { c := c }).1 = marshalBare Γ c f t v) ∧
    (∀ v, (marshalLPS Γ H f t v { c := c }).1 = marshalLP Γ c f t v) ∧
    (∀ p bz, (unmarshalBareS Γ H f t p bz { c := c }).1 = unmarshalBare Γ c f t p bz) ∧
    (∀ p bz, (unmarshalLPS Γ H f t p bz { c := c }).1 = unmarshalLP Γ c f t p bz) ∧
    (∀ o, (marshalJSONS Γ H J f o { c := c }).1 = marshalJSON Γ c J f o) ∧
    (∀ p bz, (unmarshalJSONS Γ H J f t p bz { c := c }).1 = unmarshalJSON Γ c J f t p bz) :=
  ⟨fun v => (((marshalBare_lin f t v).alone { c := c } rfl).2.2 c (.refl c)).symm,
    fun v => (((marshalLP_lin f t v).alone { c := c } rfl).2.2 c (.refl c)).symm,
    fun p bz => (((unmarshalBare_lin f t p bz).alone { c := c } rfl).2.2 c (.refl c)).symm,
    fun p bz => (((unmarshalLP_lin f t p bz).alone { c := c } rfl).2.2 c (.refl c)).symm,
    fun o => (((marshalJSON_lin (P := fun _ => True) f o).alone { c := c } rfl).2.2 c (.refl c)).symm,
    fun p bz => (((unmarshalJSON_lin (P := fun _ => True) f t p bz).alone { c := c } rfl).2.2 c (.refl c)).symm⟩

/-! ## Concrete cases -/

namespace Demo

/-- Two values of the interface, both a `Foo`. -/
def twoFoos : Val := .list [.iface (.base fooT) (.struct [.int 7]), .iface (.base fooT) (.struct [.int 7])]

def ifaceFoo : Codec :=
  (({} : Codec).run prog hash [.iface ifaceT [[1], [2]] false, .conc (.base fooT) [1]]).getD {}

end Demo

/-- The interface and `Foo` are registered while a slice with two of them is being encoded.  Had `Foo` been registered later,
the call would have failed, as it does alone on the codec of that moment. -/
example :
    (marshalBareS Demo.prog Demo.hash 9 (.base 21) Demo.twoFoos
      { c := {}, todo := [[.iface Demo.ifaceT [] false], [.conc (.base Demo.fooT) [102]], []] }).1 =
      .ok [10, 16, 2, 6, 1, 2, 3, 4, 8, 7, 2, 6, 1, 2, 3, 4, 8, 7] ∧
    (marshalBareS Demo.prog Demo.hash 9 (.base 21) Demo.twoFoos
      { c := {}, todo := [[.iface Demo.ifaceT [] false], [], [], [.conc (.base Demo.fooT) [102]]] }).1 =
      .err .unregisteredConcrete ∧
    (let c := (marshalBareS Demo.prog Demo.hash 9 (.base 21) Demo.twoFoos
        { c := {}, todo := [[.iface Demo.ifaceT [] false], [.conc (.base Demo.fooT) [102]], []] }).2.c
     c.concs.map (·.prefx) = [[1, 2, 3, 4]] ∧
     marshalBare Demo.prog c 9 (.base 21) Demo.twoFoos =
      .ok [10, 16, 2, 6, 1, 2, 3, 4, 8, 7, 2, 6, 1, 2, 3, 4, 8, 7]) := by
  decide +kernel

/-- C90 does not hold if a type with the same prefix bytes is registered meanwhile: of two equal values in one message the
first is written without disambiguation bytes and the second with them, which the call made alone does neither before the
registration nor after it. -/
theorem C90_mixed_refuted :
    (∃ ops, ({} : Codec).run Demo.prog Demo.hash ops = some Demo.ifaceFoo) ∧
    (marshalBareS Demo.prog Demo.hash 9 (.base 21) Demo.twoFoos
      { c := Demo.ifaceFoo, todo := [[], [], [], [], [.conc (.base Demo.strT) [2]]] }).1 =
      .ok [10, 20, 2, 6, 1, 2, 3, 4, 8, 7, 2, 10, 0, 200, 1, 5, 1, 2, 3, 4, 8, 7] ∧
    marshalBare Demo.prog Demo.ifaceFoo 9 (.base 21) Demo.twoFoos =
      .ok [10, 16, 2, 6, 1, 2, 3, 4, 8, 7, 2, 6, 1, 2, 3, 4, 8, 7] ∧
    marshalBare Demo.prog (marshalBareS Demo.prog Demo.hash 9 (.base 21) Demo.twoFoos
        { c := Demo.ifaceFoo, todo := [[], [], [], [], [.conc (.base Demo.strT) [2]]] }).2.c 9 (.base 21) Demo.twoFoos =
      .ok [10, 24, 2, 10, 0, 200, 1, 5, 1, 2, 3, 4, 8, 7, 2, 10, 0, 200, 1, 5, 1, 2, 3, 4, 8, 7] := by
  refine ⟨⟨[.iface Demo.ifaceT [[1], [2]] false, .conc (.base Demo.fooT) [1]], ?_⟩, ?_⟩ <;> decide +kernel

end Amino
