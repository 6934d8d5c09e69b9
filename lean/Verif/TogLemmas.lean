import Verif.Together
import Verif.PropsReg

/-! # What a look-up answered stays true while others register -/

namespace Amino
open Spec

variable {Γ : Prog} {H : Bytes → Bytes}

/-- Some successful calls later. -/
def Codec.Later (Γ : Prog) (H : Bytes → Bytes) (c c' : Codec) : Prop := ∃ ops, c.run Γ H ops = some c'

/-- No two registered types share their prefix bytes. -/
def Codec.Clear (c : Codec) : Prop := ∀ a ∈ c.concs, ∀ b ∈ c.concs, a.prefx = b.prefx → a = b

theorem run_append {c : Codec} (a b : List Op) : c.run Γ H (a ++ b) = (c.run Γ H a).bind fun c' => c'.run Γ H b := by
  induction a generalizing c with
  | nil => rfl
  | cons op a ih =>
    rw [List.cons_append, Codec.run, Codec.run]
    split
    · exact ih
    · rfl

theorem Codec.Later.refl (c : Codec) : c.Later Γ H c := ⟨[], rfl⟩

theorem Codec.Later.trans {a b c : Codec} (h : a.Later Γ H b) (h' : b.Later Γ H c) : a.Later Γ H c := by
  obtain ⟨o, h⟩ := h; obtain ⟨o', h'⟩ := h'
  exact ⟨o ++ o', by rw [run_append, h]; exact h'⟩

theorem Codec.Later.next (s : Sim) : s.c.Later Γ H (s.next Γ H).c := by
  unfold Sim.next
  split
  · exact .refl _
  · rename_i ops todo _
    cases h : s.c.run Γ H ops with
    | none => exact .refl _
    | some c => exact ⟨ops, h⟩

theorem find_tids {l l' : List IfaceInfo} (h : l.map (·.tid) = l'.map (·.tid)) (id : TId) :
    (l.find? fun i => i.tid == id).isSome = (l'.find? fun i => i.tid == id).isSome := by
  have key : ∀ l : List IfaceInfo, (l.find? fun i => i.tid == id).isSome = (l.map (·.tid)).any (· == id) := by
    intro l
    rw [Bool.eq_iff_iff]; simp [List.find?_isSome]
  rw [key, key, h]

theorem addToIfaces_tids (ci : ConcInfo) (is : List IfaceInfo) :
    (addToIfaces Γ ci is).1.map (·.tid) = is.map (·.tid) := by
  induction is with
  | nil => rfl
  | cons i is ih =>
    rw [addToIfaces]
    split
    · dsimp only
      split
      · simp [ih]
      · rfl
    · simp [ih]

theorem find_append_isSome {α : Type} (p : α → Bool) (l l' : List α) (h : (l.find? p).isSome = true) :
    ((l ++ l').find? p).isSome = true := by
  rw [List.find?_append]; cases hh : l.find? p with
  | none => rw [hh] at h; cases h
  | some a => rfl

/-- A type once known stays known, and with the same registration. -/
theorem step_known {c c' : Codec} {op : Op} {id : TId} (hs : c.step Γ H op = (c', none)) (hk : c.known id = true) :
    c'.known id = true ∧ c'.conc? id = c.conc? id := by
  cases op with
  | iface i prio always =>
    simp only [Codec.step, registerInterface, addInterface, Codec.setIface] at hs
    split at hs
    · cases hs
    · split at hs
      · cases hs
      · split at hs
        · split at hs
          · split at hs
            · cases hs
            · cases hs
              refine ⟨?_, rfl⟩
              simp only [Codec.known, Bool.or_eq_true] at hk ⊢
              rcases hk with (hk | hk) | hk
              · exact .inl (.inl (find_append_isSome _ _ _ hk))
              · exact .inl (.inr hk)
              · exact .inr hk
          · cases hs
        · cases hs
        · cases hs
  | conc t name =>
    simp only [Codec.step, registerConcrete] at hs
    split at hs
    · cases hs
    · unfold addConcrete at hs
      split at hs
      · cases hs
      · split at hs
        · cases hs
        · split at hs
          · split at hs
            · rename_i dp _
              dsimp only at hs
              split at hs
              · unfold Codec.setConc at hs
                split at hs
                · cases hs
                · rename_i hnk
                  have hki : ∀ (is : List IfaceInfo), is.map (·.tid) = c.ifaces.map (·.tid) → ∀ j,
                      ({ c with ifaces := is } : Codec).known j = c.known j := by
                    intro is he j
                    unfold Codec.known Codec.iface?
                    simp only [find_tids he]; rfl
                  have hne : t.deref ≠ id := by
                    intro he
                    rw [hki _ (addToIfaces_tids _ _)] at hnk
                    exact hnk (by rw [he]; exact hk)
                  dsimp only at hs
                  split at hs
                  · cases hs
                  · split at hs
                    · cases hs
                    · cases hs
                      have hc : ∀ ci : ConcInfo, ci.tid = t.deref →
                          (c.concs ++ [ci]).find? (fun x => x.tid == id) = c.concs.find? (fun x => x.tid == id) := by
                        intro ci hci
                        have hb : (ci.tid == id) = false := by rw [hci]; simpa using hne
                        rw [List.find?_append]
                        cases c.concs.find? (fun x => x.tid == id) with
                        | none => simp [hb]
                        | some a => rfl
                      refine ⟨?_, hc _ rfl⟩
                      rw [← hki _ (addToIfaces_tids _ _)] at hk
                      simp only [Codec.known, Codec.conc?, Codec.iface?] at hk ⊢
                      rw [hc _ rfl]
                      exact hk
              · cases hs
            · cases hs
            · cases hs
          · cases hs
          · cases hs
  | use i =>
    simp only [Codec.step, useType] at hs
    split at hs
    · cases hs; exact ⟨hk, rfl⟩
    · split at hs
      · cases hs
      · cases hs
        refine ⟨?_, rfl⟩
        simp only [Codec.known, Bool.or_eq_true] at hk ⊢
        rcases hk with (hk | hk) | hk
        · exact .inl (.inl hk)
        · exact .inl (.inr hk)
        · exact .inr (by simp only [List.contains_cons, hk, Bool.or_true])
  | doSeal => cases hs; exact ⟨hk, rfl⟩

theorem later_known {c c' : Codec} {id : TId} (h : c.Later Γ H c') (hk : c.known id = true) :
    c'.known id = true ∧ c'.conc? id = c.conc? id := by
  obtain ⟨ops, h⟩ := h
  induction ops generalizing c with
  | nil => cases h; exact ⟨hk, rfl⟩
  | cons op ops ih =>
    rw [Codec.run] at h
    split at h
    · rename_i c1 hs
      obtain ⟨a, b⟩ := step_known hs hk
      obtain ⟨a', b'⟩ := ih a h
      exact ⟨a', b'.trans b⟩
    · cases h

theorem later_inv {c : Codec} (h : ({} : Codec).Later Γ H c) : ∃ ops, RegInv Γ H ops c := by
  obtain ⟨ops, h⟩ := h
  exact ⟨ops, run_inv h⟩

/-- Before the registrations that end without a shared prefix, look-ups agree with those afterwards. -/
theorem later_agree {c c' : Codec} (h0 : ({} : Codec).Later Γ H c) (h : c.Later Γ H c') (hc : c'.Clear) :
    c.Agree False c' := by
  obtain ⟨ops, h0⟩ := h0
  obtain ⟨rest, h⟩ := h
  have hi := run_inv h0
  have hi' := run_inv_from hi h
  refine agree_extend hi hi' fun a ha b hb he => ?_
  have hcc : c'.concs = c.concs ++ concsOf H rest := by rw [hi.concs, hi'.concs]; simp [concsOf]
  have hp := concs_pairwise hi'.valid.compatible
  rw [← hi'.concs, hcc, List.pairwise_append] at hp
  have := hc a (by rw [hcc]; simp [ha]) b (by rw [hcc]; simp [hb]) he
  exact (hp.2.2 b hb a ha).1 (by rw [this])

theorem later_mono {c c' : Codec} (h0 : ({} : Codec).Later Γ H c) (h : c.Later Γ H c') :
    (∀ ci ∈ c.concs, ci ∈ c'.concs) ∧ (∀ n ci, c.name? n = some ci → c'.name? n = some ci) ∧
    (∀ id, (c.iface? id).isSome = true → (c'.iface? id).isSome = true) := by
  obtain ⟨ops, h0⟩ := h0
  obtain ⟨rest, h⟩ := h
  have hi := run_inv h0
  have hi' := run_inv_from hi h
  have hm : ∀ ci ∈ c.concs, ci ∈ c'.concs := by
    intro ci hc
    rw [hi'.concs]; rw [hi.concs] at hc; simp [concsOf] at hc ⊢; exact .inl hc
  refine ⟨hm, fun n ci hn => ?_, fun id hs => ?_⟩
  · obtain ⟨a, b⟩ := hi.name_iff.1 hn
    exact hi'.name_iff.2 ⟨hm _ a, b⟩
  · obtain ⟨ii, hii⟩ := Option.isSome_iff_exists.1 hs
    obtain ⟨op, ho, hop, ht⟩ := hi.iface_iff.1 hii
    obtain ⟨h1, _⟩ := ifaceOf_change (ops' := ops ++ rest) hop
    rw [hi'.iface_iff.2 ⟨op, by simp [ho], h1, ht⟩]
    rfl

theorem Codec.Clear.before {c c' : Codec} (h0 : ({} : Codec).Later Γ H c) (h : c.Later Γ H c') (hc : c'.Clear) :
    c.Clear := fun a ha b hb he => hc a ((later_mono h0 h).1 a ha) b ((later_mono h0 h).1 b hb) he

/-- Without shared prefixes at most one implementer has a given prefix. -/
theorem clear_withPrefix {c : Codec} (h0 : ({} : Codec).Later Γ H c) (hc : c.Clear) {id : TId} {ii : IfaceInfo}
    (hi : c.iface? id = some ii) (p : Bytes) : ¬ (ii.withPrefix p).length > 1 := by
  obtain ⟨ops, h0⟩ := h0
  have inv := run_inv h0
  have hp : ii.impls.Pairwise fun a b => a.tid ≠ b.tid := by
    rw [inv.impls hi, inv.concs]
    exact ((concs_pairwise inv.valid.compatible).imp fun h => h.1).filter _
  have hm : ∀ a ∈ ii.impls, a ∈ c.concs := by
    intro a ha; rw [inv.impls hi] at ha; exact (List.mem_filter.1 ha).1
  unfold IfaceInfo.withPrefix
  match hw : ii.impls.filter (fun ci => ci.prefx == p) with
  | [] => simp [hw]
  | [_] => simp [hw]
  | a :: b :: l =>
    exfalso
    have hp' := hp.filter (fun ci => ci.prefx == p)
    rw [hw, List.pairwise_cons] at hp'
    have ha : a ∈ ii.impls.filter (fun ci => ci.prefx == p) := by rw [hw]; simp
    have hb : b ∈ ii.impls.filter (fun ci => ci.prefx == p) := by rw [hw]; simp
    obtain ⟨ha, ha'⟩ := List.mem_filter.1 ha
    obtain ⟨hb, hb'⟩ := List.mem_filter.1 hb
    have := hc a (hm a ha) b (hm b hb) (by rw [eq_of_beq ha', eq_of_beq hb'])
    exact hp'.1 b (by simp) (by rw [this])

end Amino
