import Verif.PropsReg

/-!
# C33: failed registrations

A panic that is recovered leaves the codec in the state `(c.step Γ H op).1`.
-/

namespace Amino
open Spec

variable {Γ : Prog} {H : Bytes → Bytes}

/-- C33 for `RegisterInterface`: if it panics, for whatever reason, the codec is unchanged.  Missing for the full
statement: `RegisterConcrete`, see the `_refuted` theorems. -/
theorem C33_interface_partial {c c' : Codec} {id : TId} {prio : List Bytes} {always : Bool} {p : Pan}
    (h : c.step Γ H (.iface id prio always) = (c', some p)) : c' = c := by
  simp only [Codec.step] at h
  unfold registerInterface at h
  split at h
  · cases h; rfl
  unfold addInterface at h
  split at h
  · cases h; rfl
  split at h
  · simp only at h
    split at h
    · unfold Codec.setIface at h
      split at h
      · cases h; rfl
      · cases h
    · cases h; rfl
  · cases h; rfl
  · cases h; rfl

theorem addToIfaces_first {ci : ConcInfo} {is : List IfaceInfo} (h : (addToIfaces Γ ci is).2 = false)
    (hone : (is.filter fun i => Γ.implements (.ptr (.base ci.tid)) i.tid).length ≤ 1) :
    (addToIfaces Γ ci is).1 = is := by
  induction is with
  | nil => simp [addToIfaces] at h
  | cons i is ih =>
    rw [addToIfaces] at h ⊢
    by_cases hi : Γ.implements (.ptr (.base ci.tid)) i.tid
    · rw [List.filter_cons, if_pos hi, List.length_cons] at hone
      have hnil : is.filter (fun i => Γ.implements (.ptr (.base ci.tid)) i.tid) = [] :=
        List.eq_nil_of_length_eq_zero (by omega)
      have hrest : (addToIfaces Γ ci is).2 = true := by
        refine addToIfaces_of' ?_
        intro j hj
        have := List.filter_eq_nil_iff.1 hnil j hj
        simpa using this
      simp only [hi, if_true] at h ⊢
      split at h
      · simp [hrest] at h
      · rename_i hp; simp [hp]
    · rw [List.filter_cons, if_neg hi] at hone
      simp only [hi] at h ⊢
      simp [ih h hone]
where
  addToIfaces_of' {is : List IfaceInfo} (h : ∀ i ∈ is, Γ.implements (.ptr (.base ci.tid)) i.tid = false) :
      (addToIfaces Γ ci is).2 = true := by
    induction is with
    | nil => rfl
    | cons i is ih =>
      rw [addToIfaces]
      simp [h i (by simp), ih fun j hj => h j (by simp [hj])]

/-- C33 for `RegisterConcrete`: if the type is not known to the codec yet, the name and its disfix are free, and it
implements at most one registered interface, then a panic leaves the codec unchanged. -/
theorem C33_concrete_partial {c c' : Codec} {t : Ty} {name : Bytes} {p : Pan}
    (hk : c.known t.deref = false) (hn : c.name? name = none)
    (hd : ∀ d q, nameToDisfix H name = .ok (d, q) → c.disfix? (d ++ q) = none)
    (hone : (c.ifaces.filter fun i => Γ.implements (.ptr (.base t.deref)) i.tid).length ≤ 1)
    (h : c.step Γ H (.conc t name) = (c', some p)) : c' = c := by
  simp only [Codec.step] at h
  unfold registerConcrete at h
  split at h
  · cases h; rfl
  unfold addConcrete at h
  split at h
  · cases h; rfl
  split at h
  · cases h; rfl
  split at h
  case h_2 => cases h; rfl
  case h_3 => cases h; rfl
  split at h
  case h_2 => cases h; rfl
  case h_3 => cases h; rfl
  rename_i dp hdp
  simp only at h
  split at h
  · rename_i hadd
    exfalso
    obtain ⟨ha1, _⟩ := addToIfaces_ok hadd
    have hk' : ∀ ci : ConcInfo, (addToIfaces Γ ci c.ifaces).1 = c.ifaces.map (addImpl Γ ci) →
        ({ c with ifaces := (addToIfaces Γ ci c.ifaces).1 } : Codec).known t.deref = false := by
      intro ci ha1
      simp only [Codec.known, Codec.iface?, Codec.conc?, ha1] at hk ⊢
      rw [List.find?_map]
      simpa [addImpl, Function.comp_def] using hk
    have hd' := hd _ _ hdp
    have h1 : ∀ x y, ({ c with ifaces := x, concs := y } : Codec).disfix? (dp.1 ++ dp.2) = none := fun _ _ => hd'
    have h2 : ∀ x y, ({ c with ifaces := x, concs := y } : Codec).name? name = none := fun _ _ => hn
    unfold Codec.setConc at h
    simp only [hk' _ ha1, ConcInfo.disfix, h1, h2] at h
    simp at h
  · rename_i hadd
    cases h
    rw [addToIfaces_first (by simpa using hadd) hone]

/-- C33 for `RegisterConcrete`: any panic leaves names, disfixes and the seal as they were, and nothing that was
registered is lost or changed for lookups by type. -/
theorem C33_kept_partial {c c' : Codec} {t : Ty} {name : Bytes} {p : Pan}
    (h : c.step Γ H (.conc t name) = (c', some p)) :
    c'.byName = c.byName ∧ c'.byDisfix = c.byDisfix ∧ c'.sealed = c.sealed ∧ c'.plain = c.plain ∧
      (∀ id ci, c.conc? id = some ci → c'.conc? id = some ci) := by
  simp only [Codec.step] at h
  unfold registerConcrete at h
  split at h
  · cases h; exact ⟨rfl, rfl, rfl, rfl, fun _ _ h => h⟩
  unfold addConcrete at h
  split at h
  · cases h; exact ⟨rfl, rfl, rfl, rfl, fun _ _ h => h⟩
  split at h
  · cases h; exact ⟨rfl, rfl, rfl, rfl, fun _ _ h => h⟩
  split at h
  case h_2 => cases h; exact ⟨rfl, rfl, rfl, rfl, fun _ _ h => h⟩
  case h_3 => cases h; exact ⟨rfl, rfl, rfl, rfl, fun _ _ h => h⟩
  split at h
  case h_2 => cases h; exact ⟨rfl, rfl, rfl, rfl, fun _ _ h => h⟩
  case h_3 => cases h; exact ⟨rfl, rfl, rfl, rfl, fun _ _ h => h⟩
  simp only at h
  have happ : ∀ {l : List ConcInfo} {x : ConcInfo} {id : TId} {ci : ConcInfo},
      l.find? (fun i => i.tid == id) = some ci → (l ++ [x]).find? (fun i => i.tid == id) = some ci := by
    intro l x id ci hf; rw [List.find?_append, hf]; rfl
  split at h
  · unfold Codec.setConc at h
    split at h
    · cases h; exact ⟨rfl, rfl, rfl, rfl, fun _ _ h => h⟩
    simp only at h
    split at h
    · cases h; exact ⟨rfl, rfl, rfl, rfl, fun _ _ h => happ h⟩
    split at h
    · cases h; exact ⟨rfl, rfl, rfl, rfl, fun _ _ h => happ h⟩
    · cases h
  · cases h; exact ⟨rfl, rfl, rfl, rfl, fun _ _ h => h⟩

namespace Demo

/-- `Foo` is registered as `f`. -/
def c1 : Codec := ({} : Codec).runAll prog hash [.iface ifaceT [] false, .conc (.base fooT) [102]]

end Demo

/-- C33 does not hold for a duplicate name: `RegisterConcrete(Bar, "f")` panics, but from then on `Bar` is a
registered type: it is encoded behind the prefix bytes of `Foo`. -/
theorem C33_dupName_refuted : ∃ c' : Codec,
    Demo.c1.step Demo.prog Demo.hash (.conc (.base Demo.barT) [102]) = (c', some .dupDisfix) ∧
    marshalBare Demo.prog Demo.c1 5 (.base Demo.barT) (.struct [.str [65]]) = .ok [10, 1, 65] ∧
    marshalBare Demo.prog c' 5 (.base Demo.barT) (.struct [.str [65]]) = .ok [1, 2, 3, 4, 10, 1, 65] ∧
    (c'.step Demo.prog Demo.hash (.conc (.base Demo.barT) [98])).2 = some .dupType := by
  refine ⟨(Demo.c1.step Demo.prog Demo.hash (.conc (.base Demo.barT) [102])).1, ?_⟩
  decide +kernel

/-- C33 does not hold for a duplicate type: registering `Foo` once more under another name panics, but the interface
now has `Foo` under the new prefix bytes too. -/
theorem C33_dupType_refuted : ∃ c' : Codec,
    Demo.c1.step Demo.prog Demo.hash (.conc (.base Demo.fooT) [98]) = (c', some .dupType) ∧
    unmarshalBare Demo.prog Demo.c1 5 (.base Demo.ifaceT) .nil [5, 6, 7, 8, 8, 7] = .err .unknownPrefix ∧
    unmarshalBare Demo.prog c' 5 (.base Demo.ifaceT) .nil [5, 6, 7, 8, 8, 7] =
      .ok (.iface (.base Demo.fooT) (.struct [.int 7])) := by
  refine ⟨(Demo.c1.step Demo.prog Demo.hash (.conc (.base Demo.fooT) [98])).1, ?_⟩
  decide +kernel

/-- C33 does not hold if the type was used before it is registered: the registration panics, but the interface has
got the implementer. -/
theorem C33_used_refuted : ∃ c c' : Codec,
    ({} : Codec).run Demo.prog Demo.hash [.iface Demo.ifaceT [] false, .use Demo.fooT] = some c ∧
    c.step Demo.prog Demo.hash (.conc (.base Demo.fooT) [102]) = (c', some .dupType) ∧
    unmarshalBare Demo.prog c 5 (.base Demo.ifaceT) .nil [1, 2, 3, 4, 8, 7] = .err .unknownPrefix ∧
    unmarshalBare Demo.prog c' 5 (.base Demo.ifaceT) .nil [1, 2, 3, 4, 8, 7] =
      .ok (.iface (.base Demo.fooT) (.struct [.int 7])) := by
  refine ⟨(({} : Codec).run Demo.prog Demo.hash [.iface Demo.ifaceT [] false, .use Demo.fooT]).get
    (by decide +kernel), ((({} : Codec).run Demo.prog Demo.hash [.iface Demo.ifaceT [] false, .use Demo.fooT]).get
    (by decide +kernel)).step Demo.prog Demo.hash (.conc (.base Demo.fooT) [102]) |>.1, ?_⟩
  decide +kernel

/-- A second interface `sub2T` that `Foo` and `Str` implement too (the number is only a name here). -/
def Demo.prog2 : Prog :=
  { Demo.prog with
    shape := fun id => if id = Demo.sub2T then .iface else Demo.shape id
    implements := fun t i => (i == Demo.ifaceT || i == Demo.sub2T) && (t.deref == Demo.fooT || t.deref == Demo.strT) }

/-- C33 does not hold if the conflict is with the second interface: the first keeps the new implementer. -/
theorem C33_conflict_refuted : ∃ c c' : Codec,
    ({} : Codec).run Demo.prog2 Demo.hash [.iface Demo.ifaceT [[1], [2]] false, .iface Demo.sub2T [] false,
      .conc (.base Demo.fooT) [1]] = some c ∧
    c.step Demo.prog2 Demo.hash (.conc (.base Demo.strT) [2]) = (c', some .conflict) ∧
    unmarshalBare Demo.prog2 c 5 (.base Demo.ifaceT) .nil [1, 2, 3, 4, 8, 7] =
      .ok (.iface (.base Demo.fooT) (.struct [.int 7])) ∧
    unmarshalBare Demo.prog2 c' 5 (.base Demo.ifaceT) .nil [1, 2, 3, 4, 8, 7] = .err .conflictingPrefix := by
  refine ⟨(({} : Codec).run Demo.prog2 Demo.hash [.iface Demo.ifaceT [[1], [2]] false, .iface Demo.sub2T [] false,
      .conc (.base Demo.fooT) [1]]).get (by decide +kernel),
    ((({} : Codec).run Demo.prog2 Demo.hash [.iface Demo.ifaceT [[1], [2]] false, .iface Demo.sub2T [] false,
      .conc (.base Demo.fooT) [1]]).get (by decide +kernel)).step Demo.prog2 Demo.hash
        (.conc (.base Demo.strT) [2]) |>.1, ?_⟩
  decide +kernel

example : (Demo.c1.step Demo.prog Demo.hash (.iface Demo.ifaceT [] true)).2 = some .dupType ∧
    (Demo.c1.step Demo.prog Demo.hash (.conc (.base Demo.strT) [3])).2 = some .conflict ∧
    Demo.c1.known Demo.strT = false ∧ Demo.c1.name? [3] = none ∧
    nameToDisfix Demo.hash [3] = .ok ([200, 3, 5], [1, 2, 3, 4]) ∧
    Demo.c1.disfix? [200, 3, 5, 1, 2, 3, 4] = none ∧ Demo.c1.ifaces.length = 1 := by decide +kernel

end Amino
