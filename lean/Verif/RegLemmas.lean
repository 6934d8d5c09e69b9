import Verif.SpecRegistry

/-! # Invariants of the registry over histories -/

namespace Amino
open Spec

/-! ## Conflicts -/

theorem prioOk_pairwise {α β : Type} [DecidableEq β] (f : α → β) (P : α → Prop) (l : List α) :
    (∀ a ∈ l, (l.filter fun b => decide (f b = f a)).length < 2 ∨ P a) ↔
      l.Pairwise fun a b => f a = f b → P a ∧ P b := by
  constructor
  · intro h
    rw [List.pairwise_iff_forall_sublist]
    intro a b hs hab
    have key : ∀ x, f x = f b → ¬ (l.filter fun y => decide (f y = f x)).length < 2 := by
      intro x hx
      have := (hs.filter fun y => decide (f y = f x)).length_le
      simp [hab, hx] at this ⊢
      exact this
    have ha : a ∈ l := hs.subset (by simp)
    have hb : b ∈ l := hs.subset (by simp)
    exact ⟨(h a ha).resolve_left (key a hab), (h b hb).resolve_left (key b rfl)⟩
  · intro h a ha
    by_cases hl : (l.filter fun b => decide (f b = f a)).length < 2
    · exact .inl hl
    · right
      have hp := h.sublist (List.filter_sublist (p := fun b => decide (f b = f a)))
      have hm : a ∈ l.filter fun b => decide (f b = f a) := by simp [ha]
      have hall : ∀ x ∈ l.filter fun b => decide (f b = f a), f x = f a := by
        intro x hx; simpa using (List.mem_filter.1 hx).2
      generalize l.filter (fun b => decide (f b = f a)) = F at *
      match F, hl, hp, hm, hall with
      | x :: y :: r, _, hp, hm, hall =>
        rw [List.pairwise_cons] at hp
        rcases List.mem_cons.1 hm with rfl | hm'
        · exact (hp.1 y (by simp) (hall y (by simp)).symm).1
        · exact (hp.1 a hm' (hall x (by simp))).2
      | [_], hl, _, _, _ => simp at hl
      | [], hl, _, _, _ => simp at hl

theorem prioOk_iff (i : IfaceInfo) : i.prioOk = true ↔ PrioOk i := by
  unfold PrioOk
  rw [← prioOk_pairwise (fun c : ConcInfo => c.prefx) (fun c => c.disfix ∈ i.priority)]
  have hb : ∀ x y : Bytes, (x == y) = decide (x = y) := fun x y => by
    by_cases h : x = y <;> simp [h]
  simp only [IfaceInfo.prioOk, List.all_eq_true, Bool.or_eq_true, List.contains_iff_mem, IfaceInfo.withPrefix, hb]
  constructor <;> intro h a ha <;> have := h a ha <;> simpa using this

/-! ## One registration -/

variable {Γ : Prog} {H : Bytes → Bytes}

/-- An interface after `ci` was added. -/
def addImpl (Γ : Prog) (ci : ConcInfo) (i : IfaceInfo) : IfaceInfo :=
  { i with impls := i.impls ++ [ci].filter fun c => Γ.implements (.ptr (.base c.tid)) i.tid }

theorem addToIfaces_ok {ci : ConcInfo} {is : List IfaceInfo} (h : (addToIfaces Γ ci is).2 = true) :
    (addToIfaces Γ ci is).1 = is.map (addImpl Γ ci) ∧
      ∀ i ∈ is, PrioOk i → PrioOk (addImpl Γ ci i) := by
  induction is with
  | nil => simp [addToIfaces]
  | cons i is ih =>
    rw [addToIfaces] at h ⊢
    by_cases hi : Γ.implements (.ptr (.base ci.tid)) i.tid
    · simp only [hi, if_true] at h ⊢
      have ha : addImpl Γ ci i = { i with impls := i.impls ++ [ci] } := by simp [addImpl, hi]
      by_cases hp : ({ i with impls := i.impls ++ [ci] } : IfaceInfo).prioOk
      · simp only [hp, if_true] at h ⊢
        obtain ⟨h1, h2⟩ := ih h
        refine ⟨by simp [h1, ha], fun j hj hq => ?_⟩
        rcases List.mem_cons.1 hj with rfl | hj
        · rw [ha]; exact (prioOk_iff _).1 hp
        · exact h2 j hj hq
      · simp [hp] at h
    · simp only [hi] at h ⊢
      have ha : addImpl Γ ci i = i := by simp [addImpl, hi]
      obtain ⟨h1, h2⟩ := ih h
      refine ⟨by simp [h1, ha], fun j hj hq => ?_⟩
      rcases List.mem_cons.1 hj with rfl | hj
      · rw [ha]; exact hq
      · exact h2 j hj hq

theorem addToIfaces_of {ci : ConcInfo} {is : List IfaceInfo} (h : ∀ i ∈ is, PrioOk (addImpl Γ ci i)) :
    (addToIfaces Γ ci is).2 = true := by
  induction is with
  | nil => simp [addToIfaces]
  | cons i is ih =>
    rw [addToIfaces]
    have ih := ih fun j hj => h j (List.mem_cons_of_mem _ hj)
    by_cases hi : Γ.implements (.ptr (.base ci.tid)) i.tid
    · have ha : addImpl Γ ci i = { i with impls := i.impls ++ [ci] } := by simp [addImpl, hi]
      have hp := (prioOk_iff _).2 (h i (by simp))
      rw [ha] at hp
      simp [hi, hp, ih]
    · simp [hi, ih]

theorem lookup_map {α : Type} (f : α → Bytes) (l : List α) (k : Bytes) :
    (l.map fun a => (f a, a)).lookup k = l.find? fun a => k == f a := by
  induction l with
  | nil => rfl
  | cons a l ih =>
    simp only [List.map_cons, List.lookup_cons, List.find?_cons, ih]

/-! ## The invariant -/

/-- The codec after the history `ops` of successful calls. -/
structure RegInv (Γ : Prog) (H : Bytes → Bytes) (ops : List Op) (c : Codec) : Prop where
  concs : c.concs = concsOf H ops
  ifaces : c.ifaces = ifacesOf Γ H ops
  byDisfix : c.byDisfix = (concsOf H ops).map fun ci => (ci.disfix, ci)
  byName : c.byName = (concsOf H ops).map fun ci => (ci.name, ci)
  valid : Valid Γ H ops

theorem mem_concs_of {ops : List Op} {op : Op} {ci : ConcInfo} (h : op ∈ ops) (hc : concOf H op = some ci) :
    ci ∈ concsOf H ops := List.mem_filterMap.2 ⟨op, h, hc⟩

theorem concOf_tid {op : Op} {ci : ConcInfo} (h : concOf H op = some ci) : regTid op = some ci.tid := by
  cases op with
  | conc t name =>
    simp only [concOf] at h
    split at h
    · cases h; rfl
    · cases h
  | _ => simp [concOf] at h

theorem ifaceOf_tid {ops : List Op} {op : Op} {i : IfaceInfo} (h : ifaceOf Γ H ops op = some i) :
    regTid op = some i.tid := by
  cases op with
  | iface id prio always =>
    simp only [ifaceOf] at h
    split at h
    · cases h; rfl
    · cases h
  | _ => simp [ifaceOf] at h

theorem find_isSome_tid {α : Type} {f : α → Nat} {l : List α} {id : Nat} :
    (l.find? fun a => f a == id).isSome = true ↔ ∃ a ∈ l, f a = id := by
  simp [List.find?_isSome]

/-- A type not yet known to the codec is registered by no earlier call. -/
theorem RegInv.fresh {ops : List Op} {c : Codec} (h : RegInv Γ H ops c) {id : TId} (hk : c.known id = false) :
    ∀ op ∈ ops, regTid op ≠ some id := by
  intro op hop ht
  have hok := h.valid.each op hop
  simp only [Codec.known, Bool.or_eq_false_iff, Codec.iface?, Codec.conc?, h.concs, h.ifaces] at hk
  cases op with
  | iface id' prio always =>
    simp only [regTid, Option.some.injEq] at ht; subst ht
    obtain ⟨_, ds, hds⟩ := hok
    have : (ifacesOf Γ H ops).find? (fun i => i.tid == id') |>.isSome := find_isSome_tid.2
      ⟨_, List.mem_filterMap.2 ⟨_, hop, by simp only [ifaceOf, hds]; rfl⟩, rfl⟩
    rw [hk.1.1] at this; cases this
  | conc t name =>
    simp only [regTid, Option.some.injEq] at ht; subst ht
    obtain ⟨_, _, _, dp, hdp⟩ := hok
    have : (concsOf H ops).find? (fun i => i.tid == t.deref) |>.isSome := find_isSome_tid.2
      ⟨_, List.mem_filterMap.2 ⟨_, hop, by simp only [concOf, hdp]; rfl⟩, rfl⟩
    rw [hk.1.2] at this; cases this
  | use _ => cases ht
  | doSeal => cases ht

theorem concsOf_snoc (ops : List Op) (op : Op) :
    concsOf H (ops ++ [op]) = concsOf H ops ++ (concOf H op).toList := by
  simp only [concsOf, List.filterMap_append, List.filterMap_cons, List.filterMap_nil]
  cases concOf H op <;> rfl

theorem ifaceOf_snoc_none {ops : List Op} {op : Op} (h : concOf H op = none) (o : Op) :
    ifaceOf Γ H (ops ++ [op]) o = ifaceOf Γ H ops o := by
  cases o with
  | iface id prio always => simp only [ifaceOf, implsOf, concsOf_snoc, h, Option.toList, List.append_nil]
  | _ => rfl

theorem ifaceOf_snoc_some {ops : List Op} {op : Op} {ci : ConcInfo} (h : concOf H op = some ci) (o : Op) :
    ifaceOf Γ H (ops ++ [op]) o = (ifaceOf Γ H ops o).map (addImpl Γ ci) := by
  cases o with
  | iface id prio always =>
    simp only [ifaceOf, implsOf, concsOf_snoc, h, Option.toList, List.filter_append]
    cases prioDisfixes H prio <;> rfl
  | _ => rfl

theorem ifacesOf_snoc_none {ops : List Op} {op : Op} (h : concOf H op = none) :
    ifacesOf Γ H (ops ++ [op]) = ifacesOf Γ H ops ++ (ifaceOf Γ H ops op).toList := by
  simp only [ifacesOf, List.filterMap_append, List.filterMap_cons, List.filterMap_nil, ifaceOf_snoc_none h]
  congr 1
  · exact congrArg (fun f => ops.filterMap f) (funext (ifaceOf_snoc_none h))

theorem ifacesOf_snoc_some {ops : List Op} {op : Op} {ci : ConcInfo} (h : concOf H op = some ci) :
    ifacesOf Γ H (ops ++ [op]) = (ifacesOf Γ H ops).map (addImpl Γ ci) := by
  have ho : ifaceOf Γ H ops op = none := by
    cases op with
    | conc t name => rfl
    | _ => simp [concOf] at h
  simp only [ifacesOf, List.filterMap_append, List.filterMap_cons, List.filterMap_nil]
  rw [ifaceOf_snoc_some h, ho]
  simp only [Option.map_none, List.append_nil, List.map_filterMap]
  exact congrArg (fun f => ops.filterMap f) (funext (ifaceOf_snoc_some h))

theorem valid_snoc {ops : List Op} {op : Op} :
    Valid Γ H (ops ++ [op]) ↔ (∀ o ∈ ops, OpOk Γ H o) ∧ OpOk Γ H op ∧ ops.Pairwise (Compatible H) ∧
      (∀ o ∈ ops, Compatible H o op) ∧ ∀ i ∈ ifacesOf Γ H (ops ++ [op]), PrioOk i := by
  constructor
  · rintro ⟨h1, h2, h3⟩
    rw [List.pairwise_append] at h2
    exact ⟨fun o ho => h1 o (by simp [ho]), h1 op (by simp), h2.1, fun o ho => h2.2.2 o ho op (by simp), h3⟩
  · rintro ⟨h1, h2, h3, h4, h5⟩
    refine ⟨fun o ho => ?_, ?_, h5⟩
    · rcases List.mem_append.1 ho with ho | ho
      · exact h1 o ho
      · rw [List.mem_singleton.1 ho]; exact h2
    · rw [List.pairwise_append]
      exact ⟨h3, by simp, fun o ho b hb => by rw [List.mem_singleton.1 hb]; exact h4 o ho⟩

theorem compatible_of_plain {o op : Op} (h : regTid op = none) (hc : concOf H op = none) : Compatible H o op := by
  refine ⟨fun i _ => by rw [h]; simp, fun ca cb _ hb => by rw [hc] at hb; cases hb⟩

/-- Adding a call that registers nothing. -/
theorem RegInv.plain {ops : List Op} {c c' : Codec} {op : Op} (h : RegInv Γ H ops c) (ht : regTid op = none)
    (h1 : c'.concs = c.concs) (h2 : c'.ifaces = c.ifaces) (h3 : c'.byDisfix = c.byDisfix)
    (h4 : c'.byName = c.byName) : RegInv Γ H (ops ++ [op]) c' := by
  have hc : concOf H op = none := by cases op <;> first | rfl | cases ht
  have hi : ifaceOf Γ H ops op = none := by cases op <;> first | rfl | cases ht
  have hok : OpOk Γ H op := by cases op <;> first | trivial | cases ht
  have hcs : concsOf H (ops ++ [op]) = concsOf H ops := by rw [concsOf_snoc, hc]; simp
  have his : ifacesOf Γ H (ops ++ [op]) = ifacesOf Γ H ops := by rw [ifacesOf_snoc_none hc, hi]; simp
  refine ⟨by rw [h1, hcs, h.concs], by rw [h2, his, h.ifaces], by rw [h3, hcs, h.byDisfix],
    by rw [h4, hcs, h.byName], valid_snoc.2 ⟨h.valid.each, hok, h.valid.compatible,
      fun o _ => compatible_of_plain ht hc, by rw [his]; exact h.valid.prio⟩⟩

theorem known_false {c : Codec} {id : TId} (h : ¬ c.known id = true) : c.known id = false := by
  cases hk : c.known id
  · rfl
  · exact absurd hk h

theorem regIface_inv {ops : List Op} {c c' : Codec} {id : TId} {prio : List Bytes} {always : Bool}
    (h : RegInv Γ H ops c) (hs : registerInterface Γ H c id prio always = (c', none)) :
    RegInv Γ H (ops ++ [.iface id prio always]) c' := by
  unfold registerInterface at hs
  split at hs
  · cases hs
  unfold addInterface at hs
  split at hs
  · cases hs
  rename_i hif
  split at hs
  case h_2 => cases hs
  case h_3 => cases hs
  rename_i ds hds
  simp only at hs
  split at hs
  case isFalse => cases hs
  rename_i hp
  unfold Codec.setIface at hs
  split at hs
  · cases hs
  rename_i hk
  simp only [Prod.mk.injEq, and_true] at hs
  subst hs
  have hi : ifaceOf Γ H ops (.iface id prio always) =
      some { tid := id, priority := ds, always := always, impls := collect Γ c id } := by
    simp only [ifaceOf, hds, implsOf, collect, h.concs]
  have his := ifacesOf_snoc_none (Γ := Γ) (H := H) (ops := ops) (op := .iface id prio always) rfl
  rw [hi] at his
  have hcs : concsOf H (ops ++ [.iface id prio always]) = concsOf H ops := by
    rw [concsOf_snoc]; simp [concOf]
  refine ⟨by rw [hcs, ← h.concs], by rw [his, ← h.ifaces]; rfl, by rw [hcs, ← h.byDisfix], by rw [hcs, ← h.byName],
    valid_snoc.2 ⟨h.valid.each, ⟨by simpa using hif, ds, hds⟩, h.valid.compatible, fun o ho => ⟨?_, ?_⟩, ?_⟩⟩
  · intro i hoi hi'
    simp only [regTid, Option.some.injEq] at hi'
    exact h.fresh (known_false hk) o ho (by rw [hoi]; exact congrArg _ hi'.symm)
  · intro ca cb _ hcb; cases hcb
  · intro i hi
    rw [his] at hi
    rcases List.mem_append.1 hi with hi | hi
    · exact h.valid.prio i hi
    · simp only [Option.toList, List.mem_singleton] at hi
      rw [hi]
      exact (prioOk_iff _).1 hp

theorem regConc_inv {ops : List Op} {c c' : Codec} {t : Ty} {name : Bytes}
    (h : RegInv Γ H ops c) (hs : registerConcrete Γ H c t name = (c', none)) :
    RegInv Γ H (ops ++ [.conc t name]) c' := by
  unfold registerConcrete at hs
  split at hs
  · cases hs
  unfold addConcrete at hs
  split at hs
  · cases hs
  rename_i hpp
  split at hs
  · cases hs
  rename_i hif
  split at hs
  case h_2 => cases hs
  case h_3 => cases hs
  rename_i hg
  split at hs
  case h_2 => cases hs
  case h_3 => cases hs
  rename_i dp hdp
  simp only at hs
  have hco : concOf H (.conc t name) =
      some { tid := t.deref, ptrPref := t.isPtr, name := name, disamb := dp.1, prefx := dp.2 } := by
    simp only [concOf, hdp]
  generalize hci : ({ tid := t.deref, ptrPref := t.isPtr, name := name, disamb := dp.1, prefx := dp.2 } : ConcInfo)
    = ci at hs hco
  split at hs
  case isFalse => cases hs
  rename_i hadd
  obtain ⟨ha1, ha2⟩ := addToIfaces_ok hadd
  unfold Codec.setConc at hs
  split at hs
  · cases hs
  rename_i hk
  simp only at hs
  split at hs
  · cases hs
  rename_i hd
  split at hs
  · cases hs
  rename_i hn
  simp only [Prod.mk.injEq, and_true] at hs
  subst hs
  have hcs := concsOf_snoc (H := H) ops (.conc t name)
  have his := ifacesOf_snoc_some (Γ := Γ) (ops := ops) hco
  rw [hco] at hcs
  simp only [Option.toList] at hcs
  have hk' : c.known ci.tid = false := by
    have hk := known_false hk
    simp only [Codec.known, Codec.iface?, Codec.conc?, ha1] at hk ⊢
    rw [List.find?_map] at hk
    simpa [addImpl, Function.comp_def] using hk
  refine ⟨by simp only [hcs, ← h.concs], by simp only [his, ha1, ← h.ifaces],
    by simp only [hcs, List.map_append, ← h.byDisfix]; rfl, by simp only [hcs, List.map_append, ← h.byName]; rfl,
    valid_snoc.2 ⟨h.valid.each, ⟨fun u hu => hpp u hu, by simpa using hif, ?_, dp, hdp⟩, h.valid.compatible,
      fun o ho => ⟨?_, ?_⟩, ?_⟩⟩
  · intro fs hfs
    simp only [getInfo, hfs] at hg
    cases hb : fs.any Γ.badFloat
    · rfl
    · simp [hb] at hg
  · intro i hoi hi'
    have : regTid (.conc t name) = some ci.tid := concOf_tid hco
    rw [this, Option.some.injEq] at hi'
    exact h.fresh hk' o ho (by rw [hoi, hi'])
  · intro ca cb hca hcb
    rw [hco] at hcb; cases hcb
    have hm := mem_concs_of ho hca
    constructor
    · intro he
      apply hn
      simp only [Codec.name?, h.byName, lookup_map, List.find?_isSome]
      exact ⟨ca, hm, by simp [he]⟩
    · intro he
      apply hd
      simp only [Codec.disfix?, h.byDisfix, lookup_map, List.find?_isSome]
      exact ⟨ca, hm, by simp [he]⟩
  · intro i hi
    rw [his, List.mem_map] at hi
    obtain ⟨j, hj, rfl⟩ := hi
    exact ha2 j (by rw [h.ifaces]; exact hj) (h.valid.prio j hj)

theorem step_inv {ops : List Op} {c c' : Codec} {op : Op} (h : RegInv Γ H ops c)
    (hs : c.step Γ H op = (c', none)) : RegInv Γ H (ops ++ [op]) c' := by
  cases op with
  | iface id prio always => exact regIface_inv h hs
  | conc t name => exact regConc_inv h hs
  | use id =>
    simp only [Codec.step, useType] at hs
    split at hs
    · cases hs; exact h.plain rfl rfl rfl rfl rfl
    · split at hs
      · cases hs
      · cases hs; exact h.plain rfl rfl rfl rfl rfl
  | doSeal => cases hs; exact h.plain rfl rfl rfl rfl rfl

theorem run_inv_from {ops rest : List Op} {c c' : Codec} (h : RegInv Γ H ops c)
    (hr : c.run Γ H rest = some c') : RegInv Γ H (ops ++ rest) c' := by
  induction rest generalizing ops c with
  | nil => cases hr; simpa using h
  | cons op rest ih =>
    rw [Codec.run] at hr
    split at hr
    · rename_i c₁ hs
      have := ih (step_inv h hs) hr
      simpa using this
    · cases hr

theorem regInv_nil : RegInv Γ H [] {} :=
  ⟨rfl, rfl, rfl, rfl, ⟨by simp, by simp, by intro i hi; simp [ifacesOf] at hi⟩⟩

/-- Every codec reached by successful calls. -/
theorem run_inv {ops : List Op} {c : Codec} (hr : ({} : Codec).run Γ H ops = some c) : RegInv Γ H ops c := by
  simpa using run_inv_from regInv_nil hr

end Amino
