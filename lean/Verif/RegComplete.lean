import Verif.RegLookup

/-! # Histories without conflicts succeed -/

namespace Amino
open Spec

variable {Γ : Prog} {H : Bytes → Bytes}

theorem compatible_symm {a b : Op} (h : Compatible H a b) : Compatible H b a :=
  ⟨fun i hb ha => h.1 i ha hb, fun ca cb ha hb => ⟨(h.2 cb ca hb ha).1.symm, (h.2 cb ca hb ha).2.symm⟩⟩

theorem ifaceOf_change {ops ops' : List Op} {op : Op} {i : IfaceInfo} (h : ifaceOf Γ H ops op = some i) :
    ifaceOf Γ H ops' op = some { i with impls := implsOf Γ H ops' i.tid } ∧ i.impls = implsOf Γ H ops i.tid := by
  cases op with
  | iface id prio always =>
    simp only [ifaceOf] at h ⊢
    split at h
    · rename_i ds hds; cases h; simp
    · cases h
  | _ => simp [ifaceOf] at h

theorem valid_perm {ops ops' : List Op} (hp : ops.Perm ops') (h : Valid Γ H ops) : Valid Γ H ops' := by
  refine ⟨fun op ho => h.each op (hp.mem_iff.2 ho), (hp.pairwise_iff fun hh => compatible_symm hh).1 h.compatible, ?_⟩
  intro i hi
  obtain ⟨op, ho, hop⟩ := List.mem_filterMap.1 hi
  obtain ⟨h1, h2⟩ := ifaceOf_change (ops' := ops) hop
  have hq := h.prio _ (List.mem_filterMap.2 ⟨op, hp.mem_iff.2 ho, h1⟩)
  have hpi : (implsOf Γ H ops i.tid).Perm i.impls := by rw [h2]; exact (hp.filterMap _).filter _
  unfold PrioOk at hq ⊢
  exact (hpi.pairwise_iff fun {a b} (hh : a.prefx = b.prefx → a.disfix ∈ i.priority ∧ b.disfix ∈ i.priority) he =>
    (hh he.symm).symm).1 hq

theorem valid_prefix {ops rest : List Op} (h : Valid Γ H (ops ++ rest)) : Valid Γ H ops := by
  refine ⟨fun op ho => h.each op (by simp [ho]), (List.pairwise_append.1 h.compatible).1, ?_⟩
  intro i hi
  obtain ⟨op, ho, hop⟩ := List.mem_filterMap.1 hi
  obtain ⟨h1, h2⟩ := ifaceOf_change (ops' := ops ++ rest) hop
  have hq := h.prio _ (List.mem_filterMap.2 ⟨op, by simp [ho], h1⟩)
  unfold PrioOk at hq ⊢
  refine hq.sublist ?_
  simp only [h2]
  unfold implsOf concsOf
  rw [List.filterMap_append]
  exact (List.sublist_append_left _ _).filter _

theorem RegInv.known_reg {ops : List Op} {c : Codec} (h : RegInv Γ H ops c) (hpl : c.plain = []) {id : TId}
    (hn : ∀ op ∈ ops, regTid op ≠ some id) : c.known id = false := by
  unfold Codec.known
  have h1 : c.iface? id = none := by
    cases hi : c.iface? id with
    | none => rfl
    | some ii =>
      obtain ⟨op, ho, hop, ht⟩ := h.iface_iff.1 hi
      exact absurd (by rw [ifaceOf_tid hop, ht]) (hn op ho)
  have h2 : c.conc? id = none := by
    cases hi : c.conc? id with
    | none => rfl
    | some ci =>
      obtain ⟨hm, ht⟩ := h.conc_iff.1 hi
      obtain ⟨op, ho, hop⟩ := h.mem_conc.1 hm
      exact absurd (by rw [concOf_tid hop, ht]) (hn op ho)
  simp [h1, h2, hpl]

theorem step_complete {ops : List Op} {c : Codec} {op : Op} (h : RegInv Γ H ops c) (hs : c.sealed = false)
    (hpl : c.plain = []) (hreg : (regTid op).isSome) (hv : Valid Γ H (ops ++ [op])) :
    ∃ c', c.step Γ H op = (c', none) ∧ c'.sealed = false ∧ c'.plain = [] := by
  obtain ⟨_, hok, _, hcomp, hprio⟩ := valid_snoc.1 hv
  cases op with
  | use id => simp [regTid] at hreg
  | doSeal => simp [regTid] at hreg
  | iface id prio always =>
    obtain ⟨hif, ds, hds⟩ := hok
    have hk : c.known id = false := h.known_reg hpl fun o ho ht => (hcomp o ho).1 id ht rfl
    have hi : ifaceOf Γ H ops (.iface id prio always) =
        some { tid := id, priority := ds, always := always, impls := collect Γ c id } := by
      simp only [ifaceOf, hds, implsOf, collect, h.concs]
    have hp := hprio { tid := id, priority := ds, always := always, impls := collect Γ c id } (by
      rw [ifacesOf_snoc_none rfl, hi]; simp)
    refine ⟨{ c with ifaces := c.ifaces ++ [{ tid := id, priority := ds, always := always, impls := collect Γ c id }] },
      ?_, hs, hpl⟩
    simp only [Codec.step, registerInterface, addInterface, hs, hif, hds, (prioOk_iff _).2 hp, Codec.setIface, hk]
    simp
  | conc t name =>
    obtain ⟨hpp, hif, hfl, dp, hdp⟩ := hok
    have hco : concOf H (.conc t name) =
        some { tid := t.deref, ptrPref := t.isPtr, name := name, disamb := dp.1, prefx := dp.2 } := by
      simp only [concOf, hdp]
    have hk : c.known t.deref = false := h.known_reg hpl fun o ho ht => (hcomp o ho).1 _ ht rfl
    have hg : getInfo Γ c t.deref = .ok () := by
      unfold getInfo
      split
      · rename_i hsh; simp [Prog.isIface, hsh] at hif
      · rename_i fs hsh; simp [hfl fs hsh]
      · rfl
    have hadd := addToIfaces_of (Γ := Γ)
      (ci := { tid := t.deref, ptrPref := t.isPtr, name := name, disamb := dp.1, prefx := dp.2 }) (is := c.ifaces) (by
        intro i hi
        refine hprio _ ?_
        rw [ifacesOf_snoc_some hco, ← h.ifaces]
        exact List.mem_map_of_mem hi)
    obtain ⟨ha1, _⟩ := addToIfaces_ok hadd
    generalize hci : ({ tid := t.deref, ptrPref := t.isPtr, name := name, disamb := dp.1, prefx := dp.2 } : ConcInfo)
      = ci at *
    have htid : ci.tid = t.deref := by rw [← hci]
    have hk' : ({ c with ifaces := (addToIfaces Γ ci c.ifaces).1 } : Codec).known ci.tid = false := by
      rw [htid]
      simp only [Codec.known, Codec.iface?, Codec.conc?, ha1] at hk ⊢
      rw [List.find?_map]
      simpa [addImpl, Function.comp_def] using hk
    have hd : c.disfix? ci.disfix = none := by
      cases hx : c.disfix? ci.disfix with
      | none => rfl
      | some cj =>
        obtain ⟨hm, he⟩ := h.disfix_iff.1 hx
        obtain ⟨o, ho, hoc⟩ := h.mem_conc.1 hm
        exact absurd he ((hcomp o ho).2 cj ci hoc hco).2
    have hn : c.name? ci.name = none := by
      cases hx : c.name? ci.name with
      | none => rfl
      | some cj =>
        obtain ⟨hm, he⟩ := h.name_iff.1 hx
        obtain ⟨o, ho, hoc⟩ := h.mem_conc.1 hm
        exact absurd he ((hcomp o ho).2 cj ci hoc hco).1
    have hd' : ∀ x y, ({ c with ifaces := x, concs := y } : Codec).disfix? ci.disfix = none := fun _ _ => hd
    have hn' : ∀ x y, ({ c with ifaces := x, concs := y } : Codec).name? ci.name = none := fun _ _ => hn
    have hset : ∃ c', ({ c with ifaces := (addToIfaces Γ ci c.ifaces).1 } : Codec).setConc ci = (c', none) ∧
        c'.sealed = false ∧ c'.plain = [] := by
      unfold Codec.setConc
      rw [hk']
      simp only [hd', hn']
      exact ⟨_, rfl, hs, hpl⟩
    obtain ⟨c', hc', hh⟩ := hset
    refine ⟨c', ?_, hh⟩
    rw [← hc']
    simp only [Codec.step]
    unfold registerConcrete addConcrete
    rw [hs]
    cases t with
    | base id => simp [hif, hg, hdp, hci, hadd]
    | ptr t' =>
      cases t' with
      | base id => simp [hif, hg, hdp, hci, hadd]
      | ptr u => exact absurd rfl (hpp u)

theorem run_complete {ops rest : List Op} {c : Codec} (h : RegInv Γ H ops c) (hs : c.sealed = false)
    (hpl : c.plain = []) (hreg : ∀ op ∈ rest, (regTid op).isSome) (hv : Valid Γ H (ops ++ rest)) :
    ∃ c', c.run Γ H rest = some c' := by
  induction rest generalizing ops c with
  | nil => exact ⟨c, rfl⟩
  | cons op rest ih =>
    have hv' : Valid Γ H ((ops ++ [op]) ++ rest) := by simpa using hv
    obtain ⟨c₁, h1, h2, h3⟩ := step_complete h hs hpl (hreg op (by simp)) (valid_prefix hv')
    obtain ⟨c', hc'⟩ := ih (step_inv h h1) h2 h3 (fun o ho => hreg o (by simp [ho])) hv'
    exact ⟨c', by rw [Codec.run, h1]; exact hc'⟩

/-- Registrations succeed exactly if they do not conflict. -/
theorem run_iff {ops : List Op} (hreg : ∀ op ∈ ops, (regTid op).isSome) :
    (∃ c, ({} : Codec).run Γ H ops = some c) ↔ Valid Γ H ops :=
  ⟨fun ⟨_, h⟩ => (run_inv h).valid, fun h => run_complete regInv_nil rfl rfl hreg (by simpa using h)⟩

end Amino
