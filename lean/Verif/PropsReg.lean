import Verif.RegComplete
import Verif.SpecUniv
import Verif.Demo

/-!
# C27, C29, C30, C31, C39: names, prefixes and the registry

`H` is any function from names to digests, so every possible hash collision is covered.
-/

namespace Amino
open Spec

variable {Γ : Prog} {H : Bytes → Bytes}

/-! ## A concrete history -/

namespace Demo

/-- Digests of the names `f`, `b`, `s` giving the bytes of `Demo.foo`, `bar`, `str`; any other name has the prefix
of `f` and its own first byte in the disambiguation bytes. -/
def hash (name : Bytes) : Bytes :=
  if name = [102] then [0, 7, 7, 7, 0, 0, 1, 2, 3, 4] ++ List.replicate 22 9
  else if name = [98] then [9, 9, 9, 5, 6, 7, 8] ++ List.replicate 25 9
  else if name = [115] then [6, 6, 6, 0, 11, 12, 13, 14] ++ List.replicate 24 9
  else [200] ++ name.take 2 ++ List.replicate (2 - name.length) 5 ++ [1, 2, 3, 4] ++ List.replicate 25 9

def ops : List Op :=
  [.iface ifaceT [] false, .conc (.ptr (.base fooT)) [102], .conc (.base barT) [98], .conc (.base strT) [115]]

theorem run_ops : ({} : Codec).run prog hash ops = some codec := by decide +kernel

end Demo

/-! ## C27 -/

/-- C27: whatever `NameToDisfix` returns is three and four bytes, neither beginning with a zero byte, and
`DecodeDisambPrefixBytes` reads back both the short and the long form, consuming exactly 4 or 8 bytes, whatever
follows. -/
theorem C27_unambiguous {name d p : Bytes} (h : nameToDisfix H name = .ok (d, p)) (rest : Bytes) :
    d.length = 3 ∧ p.length = 4 ∧ d.head? ≠ some 0 ∧ p.head? ≠ some 0 ∧
    decodeDisambPrefix (p ++ rest) = .ok 4 (none, p) ∧
    decodeDisambPrefix (0 :: d ++ p ++ rest) = .ok 8 (some d, p) := by
  obtain ⟨h1, h2, h3, h4⟩ := nameToDisfix_ok h
  simp only at h1 h2 h3 h4
  refine ⟨h1, h3, h2, h4, ?_, ?_⟩
  · unfold decodeDisambPrefix
    rw [if_neg (by simp only [List.length_append]; omega)]
    have hh : ¬ (p ++ rest).head? = some 0 := by
      cases p with
      | nil => simp at h3
      | cons b p => simpa using h4
    rw [if_neg hh, ← h3, List.take_left]
  · unfold decodeDisambPrefix
    rw [if_neg (by simp only [List.length_append, List.length_cons]; omega), if_pos (by simp),
      if_neg (by simp only [List.length_append, List.length_cons]; omega)]
    have e1 : (0 :: d ++ p ++ rest).drop 1 = d ++ (p ++ rest) := by simp
    have e2 : (0 :: d ++ p ++ rest).drop 4 = p ++ rest := by
      have : (0 :: d ++ p ++ rest).drop 4 = (d ++ (p ++ rest)).drop 3 := by simp
      rw [this, ← h1, List.drop_left]
    rw [e1, e2, ← h1, List.take_left, ← h3, List.take_left]

theorem skipZeros_total {bz : Bytes} (h : bz.count 0 < bz.length) :
    ∃ r, skipZeros bz = .ok r ∧ r.length + bz.count 0 = bz.length + r.count 0 := by
  induction bz with
  | nil => simp at h
  | cons b bz ih =>
    rw [skipZeros]
    by_cases hb : b = 0
    · rw [if_pos hb]
      subst hb
      simp only [List.count_cons_self, List.length_cons] at h ⊢
      obtain ⟨r, hr, hl⟩ := ih (by omega)
      exact ⟨r, hr, by omega⟩
    · rw [if_neg hb]
      exact ⟨_, rfl, rfl⟩

/-- C27, existence: `NameToDisfix` returns for every name whose 32 byte digest has at most 25 zero bytes.
Missing for the full statement: the other digests, see `C27_total_refuted`. -/
theorem C27_total_partial {name : Bytes} (hl : (H name).length = 32) (hz : (H name).count 0 ≤ 25) :
    ∃ d p, nameToDisfix H name = .ok (d, p) := by
  obtain ⟨r, hr, h1⟩ := skipZeros_total (bz := H name) (by omega)
  have hcr : (r.drop 3).count 0 ≤ r.count 0 := (List.drop_sublist 3 r).count_le 0
  have hcb : r.count 0 ≤ (H name).count 0 := by
    obtain ⟨⟨k, hk⟩, _⟩ := skipZeros_ok hr
    rw [hk, List.count_append]; omega
  obtain ⟨r', hr', h2⟩ := skipZeros_total (bz := r.drop 3) (by rw [List.length_drop]; omega)
  rw [List.length_drop] at h2
  refine ⟨r.take 3, r'.take 4, ?_⟩
  unfold nameToDisfix
  rw [hr, Res.bind_ok, if_neg (by omega), hr', Res.bind_ok, if_neg (by omega)]

/-- C27 does not hold for digests of nearly only zero bytes: `NameToDisfix` panics. -/
theorem C27_total_refuted :
    nameToDisfix (fun _ => List.replicate 31 0 ++ [1]) [97] = .panic .index := by decide +kernel

example : nameToDisfix Demo.hash [102] = .ok ([7, 7, 7], [1, 2, 3, 4]) ∧ (Demo.hash [102]).length = 32 ∧
    (Demo.hash [102]).count 0 ≤ 25 := by decide +kernel

/-! ## C29 -/

/-- C29: two concrete registrations in a history without panics are of different types, under different names with
different disfix bytes. -/
theorem C29_unique {ops : List Op} {c : Codec} (hr : ({} : Codec).run Γ H ops = some c) {i j : Nat} (hij : i ≠ j)
    {t t' : Ty} {n n' : Bytes} (hi : ops[i]? = some (.conc t n)) (hj : ops[j]? = some (.conc t' n')) :
    t.deref ≠ t'.deref ∧ n ≠ n' ∧ nameToDisfix H n ≠ nameToDisfix H n' := by
  have h := run_inv hr
  have key : ∀ {i j : Nat} {t t' : Ty} {n n' : Bytes}, i < j → ops[i]? = some (.conc t n) →
      ops[j]? = some (.conc t' n') → t.deref ≠ t'.deref ∧ n ≠ n' ∧ nameToDisfix H n ≠ nameToDisfix H n' := by
    intro i j t t' n n' hlt hi hj
    obtain ⟨hi', hi⟩ := List.getElem?_eq_some_iff.1 hi
    obtain ⟨hj', hj⟩ := List.getElem?_eq_some_iff.1 hj
    have hc := List.pairwise_iff_getElem.1 h.valid.compatible i j hi' hj' hlt
    rw [hi, hj] at hc
    obtain ⟨_, _, _, dp, hdp⟩ : OpOk Γ H (.conc t n) := h.valid.each _ (hi ▸ List.getElem_mem hi')
    obtain ⟨_, _, _, dp', hdp'⟩ : OpOk Γ H (.conc t' n') := h.valid.each _ (hj ▸ List.getElem_mem hj')
    have hc2 := hc.2 _ _ (by simp only [concOf, hdp]; rfl) (by simp only [concOf, hdp']; rfl)
    refine ⟨fun he => hc.1 t.deref rfl (by simp [regTid, he]), hc2.1, ?_⟩
    intro he
    rw [hdp, hdp'] at he
    cases he
    exact hc2.2 rfl
  rcases Nat.lt_or_gt_of_ne hij with hlt | hgt
  · exact key hlt hi hj
  · obtain ⟨a, b, c⟩ := key hgt hj hi
    exact ⟨a.symm, b.symm, c.symm⟩

/-- C29: what was registered is found by its type, by its name and by its disfix bytes. -/
theorem C29_found {ops : List Op} {c : Codec} (hr : ({} : Codec).run Γ H ops = some c) {t : Ty} {n : Bytes}
    (hop : .conc t n ∈ ops) :
    ∃ ci, c.conc? t.deref = some ci ∧ c.name? n = some ci ∧ c.disfix? (ci.disamb ++ ci.prefx) = some ci ∧
      ci.tid = t.deref ∧ ci.ptrPref = t.isPtr ∧ ci.name = n ∧ nameToDisfix H n = .ok (ci.disamb, ci.prefx) := by
  have h := run_inv hr
  obtain ⟨_, _, _, dp, hdp⟩ : OpOk Γ H (.conc t n) := h.valid.each _ hop
  let ci : ConcInfo := { tid := t.deref, ptrPref := t.isPtr, name := n, disamb := dp.1, prefx := dp.2 }
  have hm : ci ∈ c.concs := h.mem_conc.2 ⟨_, hop, by simp only [concOf, hdp]; rfl⟩
  exact ⟨ci, h.conc_iff.2 ⟨hm, rfl⟩, h.name_iff.2 ⟨hm, rfl⟩, h.disfix_iff.2 ⟨hm, rfl⟩, rfl, rfl, rfl, hdp⟩

/-- C29: nothing else is found: a type, name or disfix is known only because it was registered. -/
theorem C29_only {ops : List Op} {c : Codec} (hr : ({} : Codec).run Γ H ops = some c) {ci : ConcInfo}
    (hf : (∃ id, c.conc? id = some ci) ∨ (∃ n, c.name? n = some ci) ∨ ∃ d, c.disfix? d = some ci) :
    ∃ t, .conc t ci.name ∈ ops ∧ ci.tid = t.deref ∧ ci.ptrPref = t.isPtr ∧
      nameToDisfix H ci.name = .ok (ci.disamb, ci.prefx) := by
  have h := run_inv hr
  have hm : ci ∈ c.concs := by
    rcases hf with ⟨_, hf⟩ | ⟨_, hf⟩ | ⟨_, hf⟩
    · exact (h.conc_iff.1 hf).1
    · exact (h.name_iff.1 hf).1
    · exact (h.disfix_iff.1 hf).1
  obtain ⟨op, ho, hc⟩ := h.mem_conc.1 hm
  obtain ⟨t, n, rfl, h1, h2, rfl, h4⟩ := concOf_some hc
  exact ⟨t, ho, h1, h2, h4⟩

example : Demo.codec.name? [115] = some Demo.str ∧ Demo.codec.disfix? [9, 9, 9, 5, 6, 7, 8] = some Demo.bar := by
  decide

/-! ## C30 -/

/-- C30: after a history without panics the implementers of an interface are the registered concrete types whose
pointer type implements it, each once; its options are those given. -/
theorem C30_implementers {ops : List Op} {c : Codec} (hr : ({} : Codec).run Γ H ops = some c) {id : TId}
    {ii : IfaceInfo} (hi : c.iface? id = some ii) :
    (∃ prio, .iface id prio ii.always ∈ ops ∧ prioDisfixes H prio = .ok ii.priority) ∧
    (∀ ci, ci ∈ ii.impls ↔ c.conc? ci.tid = some ci ∧ Γ.implements (.ptr (.base ci.tid)) id = true) ∧
    ii.impls.Nodup := by
  have h := run_inv hr
  refine ⟨?_, ?_, ?_⟩
  · obtain ⟨op, ho, hop, rfl⟩ := h.iface_iff.1 hi
    cases op with
    | iface id prio always =>
      simp only [ifaceOf] at hop
      split at hop
      · rename_i ds hds; cases hop; exact ⟨prio, ho, hds⟩
      · cases hop
    | _ => simp [ifaceOf] at hop
  · intro ci
    rw [h.impls hi, List.mem_filter, h.conc_iff]
    simp
  · rw [h.impls hi]
    refine List.Pairwise.filter _ ?_
    rw [h.concs]
    exact (concs_pairwise h.valid.compatible).imp fun hh he => hh.1 (by rw [he])

theorem perm_concs {ops ops' : List Op} (h : ops.Perm ops') : (concsOf H ops).Perm (concsOf H ops') :=
  h.filterMap _

theorem lookup_perm {ops ops' : List Op} {c c' : Codec} (hp : ops.Perm ops') (h : RegInv Γ H ops c)
    (h' : RegInv Γ H ops' c') :
    (∀ id, c'.conc? id = c.conc? id) ∧ (∀ n, c'.name? n = c.name? n) ∧ (∀ d, c'.disfix? d = c.disfix? d) ∧
    ∀ id, (c.iface? id = none ∧ c'.iface? id = none) ∨ ∃ ii ii', c.iface? id = some ii ∧ c'.iface? id = some ii' ∧
      ii'.tid = ii.tid ∧ ii'.priority = ii.priority ∧ ii'.always = ii.always ∧ ii'.impls.Perm ii.impls := by
  have hm : ∀ ci, ci ∈ c'.concs ↔ ci ∈ c.concs := by
    intro ci; rw [h.concs, h'.concs]; exact (perm_concs hp).mem_iff.symm
  refine ⟨fun id => Option.ext fun ci => ?_, fun n => Option.ext fun ci => ?_, fun d => Option.ext fun ci => ?_, ?_⟩
  · rw [h.conc_iff, h'.conc_iff, hm]
  · rw [h.name_iff, h'.name_iff, hm]
  · rw [h.disfix_iff, h'.disfix_iff, hm]
  · have tr : ∀ {ops ops' : List Op} {c c' : Codec}, ops.Perm ops' → RegInv Γ H ops c → RegInv Γ H ops' c' →
        ∀ {id ii}, c.iface? id = some ii → ∃ ii', c'.iface? id = some ii' ∧ ii'.tid = ii.tid ∧
          ii'.priority = ii.priority ∧ ii'.always = ii.always ∧ ii'.impls.Perm ii.impls := by
      intro ops ops' c c' hp h h' id ii hi
      obtain ⟨op, ho, hop, rfl⟩ := h.iface_iff.1 hi
      cases op with
      | iface id prio always =>
        simp only [ifaceOf] at hop
        split at hop
        · rename_i ds hds
          cases hop
          refine ⟨{ tid := id, priority := ds, always := always, impls := implsOf Γ H ops' id }, ?_, rfl, rfl, rfl, ?_⟩
          · exact h'.iface_iff.2 ⟨_, hp.mem_iff.1 ho, by simp only [ifaceOf, hds], rfl⟩
          · exact (perm_concs hp).symm.filter _
        · cases hop
      | _ => simp [ifaceOf] at hop
    intro id
    cases hi : c.iface? id with
    | none =>
      left
      refine ⟨rfl, ?_⟩
      cases hi' : c'.iface? id with
      | none => rfl
      | some ii' =>
        obtain ⟨ii, hii, _⟩ := tr hp.symm h' h hi'
        rw [hi] at hii; cases hii
    | some ii =>
      right
      obtain ⟨ii', h1, h2⟩ := tr hp h h' hi
      exact ⟨ii, ii', rfl, h1, h2⟩

theorem lookupConc_perm {c c' : Codec} {ii ii' : IfaceInfo} (hd : ∀ d, c'.disfix? d = c.disfix? d)
    (hp : ii'.impls.Perm ii.impls) (dp : Option Bytes × Bytes) : lookupConc c' ii' dp = lookupConc c ii dp := by
  unfold lookupConc
  have hw : (ii'.withPrefix dp.2).Perm (ii.withPrefix dp.2) := hp.filter _
  cases dp.1 with
  | some d => simp only [hd]
  | none =>
    simp only
    generalize ii'.withPrefix dp.2 = l' at hw
    generalize ii.withPrefix dp.2 = l at hw
    match l, l', hw with
    | [], l', hw => rw [hw.eq_nil]
    | [a], l', hw => rw [List.perm_singleton.1 hw]
    | a :: b :: r, l', hw =>
      have hl := hw.length_eq
      match l', hl with
      | x :: y :: r', _ => rfl

/-- Registries of permuted histories answer alike. -/
theorem agree_perm {ops ops' : List Op} {c c' : Codec} (hp : ops.Perm ops') (h : RegInv Γ H ops c)
    (h' : RegInv Γ H ops' c') : c.Agree True c' := by
  obtain ⟨h1, h2, h3, h4⟩ := lookup_perm hp h h'
  refine ⟨fun id => .inr (h1 id), fun id => ?_⟩
  rcases h4 id with ⟨a, b⟩ | ⟨ii, ii', a, b, _, _, e, f⟩
  · exact .inl ⟨a, fun _ => b⟩
  · refine .inr ⟨ii, ii', a, b, e, ?_, fun dp => .inr (lookupConc_perm h3 f dp)⟩
    intro _ ci _
    have hw : (ii'.withPrefix ci.prefx).Perm (ii.withPrefix ci.prefx) := f.filter _
    rw [hw.length_eq]

/-- C30: two histories without panics with the same calls in any order: every type, name, disfix and interface is
resolved alike, and Marshal and Unmarshal give the same results, errors included. -/
theorem C30_order {ops ops' : List Op} {c c' : Codec} (hp : ops.Perm ops')
    (hr : ({} : Codec).run Γ H ops = some c) (hr' : ({} : Codec).run Γ H ops' = some c') :
    (∀ id, c'.conc? id = c.conc? id) ∧ (∀ n, c'.name? n = c.name? n) ∧ (∀ d, c'.disfix? d = c.disfix? d) ∧
    (∀ f t v, marshalBare Γ c' f t v = marshalBare Γ c f t v) ∧
    (∀ f t p bz, unmarshalBare Γ c' f t p bz = unmarshalBare Γ c f t p bz) := by
  have h := run_inv hr
  have h' := run_inv hr'
  obtain ⟨h1, h2, h3, _⟩ := lookup_perm hp h h'
  have ha := agree_perm hp h h'
  refine ⟨h1, h2, h3, fun f t v => ?_, fun f t p bz => ?_⟩
  · exact (marshalBare_ext ha f t v (h1 _)).resolve_left fun hn => hn.1 trivial
  · exact (unmarshalBare_ext ha f t p bz (h1 _)).resolve_left fun hn => hn.1 trivial

/-- C30: registrations that succeed in one order succeed in every order. -/
theorem C30_anyOrder {ops ops' : List Op} {c : Codec} (hreg : ∀ op ∈ ops, (regTid op).isSome) (hp : ops.Perm ops')
    (hr : ({} : Codec).run Γ H ops = some c) : ∃ c', ({} : Codec).run Γ H ops' = some c' :=
  (run_iff fun op ho => hreg op (hp.mem_iff.2 ho)).2 (valid_perm hp (run_inv hr).valid)

example : (∀ op ∈ Demo.ops, (regTid op).isSome) ∧ Demo.ops.Perm Demo.ops.reverse ∧
    ({} : Codec).run Demo.prog Demo.hash Demo.ops = some Demo.codec ∧
    ({} : Codec).run Demo.prog Demo.hash Demo.ops.reverse ≠ some Demo.codec ∧
    (Demo.codec.iface? Demo.ifaceT).map (·.impls) = some [Demo.foo, Demo.str] :=
  ⟨by decide +kernel, (List.reverse_perm _).symm, Demo.run_ops, by decide +kernel, by decide +kernel⟩

/-! ## C31 -/

theorem pairwise_mem {α : Type} {R : α → α → Prop} (hs : ∀ a b, R a b → R b a) {l : List α} (h : l.Pairwise R)
    {a b : α} (ha : a ∈ l) (hb : b ∈ l) (hab : a ≠ b) : R a b := by
  induction l with
  | nil => cases ha
  | cons x l ih =>
    rw [List.pairwise_cons] at h
    rcases List.mem_cons.1 ha with ha' | ha' <;> rcases List.mem_cons.1 hb with hb' | hb'
    · exact absurd (ha'.trans hb'.symm) hab
    · rw [ha']; exact h.1 _ hb'
    · rw [hb']; exact hs _ _ (h.1 _ ha')
    · exact ih h.2 ha' hb'

/-- C31: if two implementers of an interface share prefix bytes, both are in its priority list. -/
theorem C31_prioritised {ops : List Op} {c : Codec} (hr : ({} : Codec).run Γ H ops = some c) {id : TId}
    {ii : IfaceInfo} (hi : c.iface? id = some ii) {a b : ConcInfo} (ha : a ∈ ii.impls) (hb : b ∈ ii.impls)
    (hab : a ≠ b) (hp : a.prefx = b.prefx) :
    ∃ prio, .iface id prio ii.always ∈ ops ∧ (∃ n ∈ prio, nameToDisfix H n = .ok (a.disamb, a.prefx)) ∧
      ∃ n ∈ prio, nameToDisfix H n = .ok (b.disamb, b.prefx) := by
  have h := run_inv hr
  obtain ⟨⟨prio, ho, hd⟩, _, _⟩ := C30_implementers hr hi
  have hmem : ii ∈ ifacesOf Γ H ops := by
    obtain ⟨op, ho, hop, _⟩ := h.iface_iff.1 hi
    exact List.mem_filterMap.2 ⟨op, ho, hop⟩
  have hq := h.valid.prio ii hmem
  have hboth : a.disfix ∈ ii.priority ∧ b.disfix ∈ ii.priority := by
    unfold PrioOk at hq
    exact pairwise_mem (fun _ _ hh he => (hh he.symm).symm) hq ha hb hab hp
  have hlen : ∀ {ci : ConcInfo}, ci ∈ ii.impls → ci.disamb.length = 3 := by
    intro ci hci
    rw [h.impls hi] at hci
    obtain ⟨op, _, hop⟩ := h.mem_conc.1 (List.mem_filter.1 hci).1
    exact (concOf_len hop).1
  have key : ∀ {prio : List Bytes} {ds : List Bytes} {ci : ConcInfo}, prioDisfixes H prio = .ok ds →
      ci.disamb.length = 3 → ci.disfix ∈ ds → ∃ n ∈ prio, nameToDisfix H n = .ok (ci.disamb, ci.prefx) := by
    intro prio
    induction prio with
    | nil => intro ds ci hd _ hm; simp [prioDisfixes] at hd; subst hd; cases hm
    | cons n ns ih =>
      intro ds ci hd hl hm
      rw [prioDisfixes] at hd
      obtain ⟨dp, hdp, hd⟩ := Res.bind_eq_ok hd
      obtain ⟨ds', hds, hd⟩ := Res.bind_eq_ok hd
      cases hd
      rcases List.mem_cons.1 hm with he | hm
      · refine ⟨n, by simp, ?_⟩
        have h3 := (nameToDisfix_ok hdp).1
        obtain ⟨e1, e2⟩ := List.append_inj (show ci.disamb ++ ci.prefx = dp.1 ++ dp.2 from he) (by omega)
        rw [hdp, e1, e2]
      · obtain ⟨n', hn', hh⟩ := ih hds hl hm
        exact ⟨n', by simp [hn'], hh⟩
  exact ⟨prio, ho, key hd (hlen ha) hboth.1, key hd (hlen hb) hboth.2⟩

/-- The header of an interface value: disambiguation bytes only if they are needed. -/
def Spec.header (ii : IfaceInfo) (ci : ConcInfo) (b : Bytes) : Prop :=
  b = 0 :: ci.disamb ++ ci.prefx ∨ (b = ci.prefx ∧ ∀ cj ∈ ii.impls, cj.prefx = ci.prefx → cj = ci)

/-- C31: a value in an interface is written behind the header of its registered type; the header has disambiguation
bytes whenever another implementer has the same prefix. -/
theorem C31_encoded {ops : List Op} {c : Codec} (hr : ({} : Codec).run Γ H ops = some c) {id : TId}
    {ii : IfaceInfo} (hi : c.iface? id = some ii) (hs : Γ.shape id = .iface) (hm : Γ.marsh id = none)
    {t : Ty} {cv : Val} {fo : FOpts} {f : Nat} {bz : Bytes}
    (hfull : ∀ t, Γ.implements t id = true → Γ.implements (.ptr (.base t.deref)) id = true)
    (himp : Γ.implements t id = true) (he : enc Γ c f id (.iface t cv) fo true = .ok bz) :
    ∃ ci hd rest, c.conc? t.deref = some ci ∧ bz = hd ++ rest ∧ header ii ci hd := by
  have h := run_inv hr
  cases f with
  | zero => simp [enc] at he
  | succ f =>
    simp only [enc, encBody, hm, encShape, hs, encIface] at he
    split at he
    · cases he
    split at he
    · cases he
    obtain ⟨_, _, he⟩ := Res.bind_eq_ok he
    cases hc : c.conc? t.deref with
    | none => simp [hc] at he
    | some ci =>
      simp only [hc, hi] at he
      obtain ⟨b, _, he⟩ := Res.bind_eq_ok he
      simp only [framed, if_true, Res.ok.injEq] at he
      refine ⟨ci, _, b, rfl, he.symm, ?_⟩
      split
      · exact .inl rfl
      · rename_i hn
        right
        refine ⟨rfl, fun cj hcj hp => ?_⟩
        simp only [Bool.or_eq_true, decide_eq_true_eq, not_or] at hn
        have hcin : ci ∈ ii.impls := by
          obtain ⟨hcm, ht⟩ := h.conc_iff.1 hc
          rw [h.impls hi, List.mem_filter]
          exact ⟨hcm, by rw [ht]; exact hfull t himp⟩
        have hl := hn.2
        have m1 : ci ∈ ii.withPrefix ci.prefx := List.mem_filter.2 ⟨hcin, by simp⟩
        have m2 : cj ∈ ii.withPrefix ci.prefx := List.mem_filter.2 ⟨hcj, by simp [hp]⟩
        match hw : ii.withPrefix ci.prefx, m1, m2 with
        | [x], m1, m2 => rw [List.mem_singleton.1 m1, List.mem_singleton.1 m2]
        | x :: y :: r, _, _ => rw [hw] at hl; simp at hl

/-- C31: whatever follows, a header of an implementer is resolved to that implementer, and exactly the header is
consumed. -/
theorem C31_resolved {ops : List Op} {c : Codec} (hr : ({} : Codec).run Γ H ops = some c) {id : TId}
    {ii : IfaceInfo} (hi : c.iface? id = some ii) {ci : ConcInfo} (hci : ci ∈ ii.impls) {hd : Bytes}
    (hh : header ii ci hd) (rest : Bytes) :
    ∃ dp, decodeDisambPrefix (hd ++ rest) = .ok hd.length dp ∧ lookupConc c ii dp = .ok ci := by
  have h := run_inv hr
  have himp := h.impls hi
  have hm : ci ∈ c.concs := by rw [himp] at hci; exact (List.mem_filter.1 hci).1
  obtain ⟨op, _, hop⟩ := h.mem_conc.1 hm
  obtain ⟨_, _, _, _, _, _, hn⟩ := concOf_some hop
  obtain ⟨l1, l2, _, _, e1, e2⟩ := C27_unambiguous hn rest
  rcases hh with rfl | ⟨rfl, hu⟩
  · refine ⟨(some ci.disamb, ci.prefx), by rw [e2]; simp [l1, l2], ?_⟩
    have : c.disfix? (ci.disamb ++ ci.prefx) = some ci := h.disfix_iff.2 ⟨hm, rfl⟩
    simp only [lookupConc, this]
  · refine ⟨(none, ci.prefx), by rw [e1, l2], ?_⟩
    have hnd := (C30_implementers hr hi).2.2
    have hw : ii.withPrefix ci.prefx = [ci] := by
      have m1 : ci ∈ ii.withPrefix ci.prefx := List.mem_filter.2 ⟨hci, by simp⟩
      have hall : ∀ x ∈ ii.withPrefix ci.prefx, x = ci := by
        intro x hx
        obtain ⟨hx1, hx2⟩ := List.mem_filter.1 hx
        exact hu x hx1 (by simpa using hx2)
      have hnd' : (ii.withPrefix ci.prefx).Nodup := hnd.filter _
      match hw : ii.withPrefix ci.prefx with
      | [] => rw [hw] at m1; cases m1
      | [x] => rw [hw] at hall; rw [hall x (by simp)]
      | x :: y :: r =>
        rw [hw] at hall hnd'
        rw [hall x (by simp), hall y (by simp)] at hnd'
        simp at hnd'
    simp only [lookupConc, hw]

/-- C31: a value decoded from the header of an implementer has that implementer's type, a pointer to it if it was
registered by a pointer. -/
theorem C31_decoded {ops : List Op} {c : Codec} (hr : ({} : Codec).run Γ H ops = some c) {id : TId}
    {ii : IfaceInfo} (hi : c.iface? id = some ii) (hs : Γ.shape id = .iface) (hm : Γ.unmarsh id = none)
    {ci : ConcInfo} (hci : ci ∈ ii.impls) {hd : Bytes} (hh : header ii ci hd) {rest : Bytes} {fo : FOpts} {f n : Nat}
    {w : Val} (hdec : dec Γ c f (.base id) .nil fo true (hd ++ rest) = .ok n w) :
    ∃ v, w = if ci.ptrPref then .iface (.ptr (.base ci.tid)) (.ptr v) else .iface (.base ci.tid) v := by
  obtain ⟨dp, h1, h2⟩ := C31_resolved hr hi hci hh rest
  cases f with
  | zero => simp [dec] at hdec
  | succ f =>
    simp only [dec, decBody, Ty.isPtr, Bool.false_and, Ty.deref, hm, decShape, hs, Prog.derefPrior, decIface, hi,
      unframe, if_true, h1, DRes.andSlide, h2, List.length_append, Nat.le_add_right, List.drop_left] at hdec
    simp only [wrapTy, DRes.map, Bool.false_eq_true, if_false] at hdec
    have key : ∀ {bz : Bytes} {k m : Nat} {v : Val}, (match dec Γ c f (.base ci.tid) (Γ.zero ci.tid) fo true bz with
        | .ok m v =>
          if m ≤ bz.length then
            if (bz.drop m).length > 0 then .err (k + m) .leftover
            else if Γ.implements ci.dynTy id then .ok (k + m) (.iface ci.dynTy (wrapTy ci.dynTy v))
            else .panic .notAssignable
          else .panic .slide
        | .err m e =>
          if m ≤ bz.length then
            if Γ.implements ci.dynTy id then .err (k + m) e else .panic .notAssignable
          else .panic .slide
        | .panic p => .panic p
        | .oof => .oof) = DRes.ok m v → ∃ u, v = .iface ci.dynTy (wrapTy ci.dynTy u) := by
      intro bz k m v hx
      split at hx
      · split at hx
        · split at hx
          · cases hx
          · split at hx
            · cases hx; exact ⟨_, rfl⟩
            · cases hx
        · cases hx
      · split at hx
        · split at hx <;> cases hx
        · cases hx
      · cases hx
      · cases hx
    have hfin : ∃ u, w = .iface ci.dynTy (wrapTy ci.dynTy u) := by
      revert hdec
      unfold concKey
      intro hdec
      split at hdec
      · rename_i m v hx
        cases hdec
        split at hx
        · split at hx
          · cases hx
          · cases hx
          · cases hx
          · split at hx
            · cases hx
            split at hx
            · cases hx
            unfold slideThen at hx
            split at hx
            · exact key hx
            · cases hx
        · exact key hx
      all_goals cases hdec
    obtain ⟨u, rfl⟩ := hfin
    refine ⟨u, ?_⟩
    cases hp : ci.ptrPref <;> simp [ConcInfo.dynTy, hp, wrapTy]

/-- The conditions the round trip theorems (`Universe.iface`, `ImplOk`) put on the registry hold after every history
without panics. -/
theorem C31_registry {ops : List Op} {c : Codec} (hr : ({} : Codec).run Γ H ops = some c) {id : TId}
    {ii : IfaceInfo} (hi : c.iface? id = some ii)
    (hfull : ∀ t, Γ.implements t id = true → Γ.implements (.ptr (.base t.deref)) id = true) :
    (∀ t ci, Γ.implements t id = true → c.conc? t.deref = some ci → ci ∈ ii.impls) ∧
    ∀ ci ∈ ii.impls, ci.prefx.length = 4 ∧ ci.prefx.head? ≠ some 0 ∧ ci.disamb.length = 3 ∧
      c.disfix? (ci.disamb ++ ci.prefx) = some ci := by
  have h := run_inv hr
  obtain ⟨_, himp, _⟩ := C30_implementers hr hi
  refine ⟨fun t ci ht hc => ?_, fun ci hci => ?_⟩
  · have he := (h.conc_iff.1 hc).2
    exact (himp ci).2 ⟨by rw [he]; exact hc, by rw [he]; exact hfull t ht⟩
  · have hm := (h.conc_iff.1 ((himp ci).1 hci).1).1
    obtain ⟨op, _, hop⟩ := h.mem_conc.1 hm
    obtain ⟨l1, _, l3, l4⟩ := concOf_len hop
    exact ⟨l3, l4, l1, h.disfix_iff.2 ⟨hm, rfl⟩⟩

/-- Two implementers of `Iface` with the same prefix bytes: both must be given priority. -/
def Demo.clashReg : List Op :=
  [.conc (.base Demo.fooT) [1], .conc (.base Demo.strT) [2], .iface Demo.ifaceT [[2], [1]] false]

example : ∃ c ii a b, ({} : Codec).run Demo.prog Demo.hash Demo.clashReg = some c ∧
    c.iface? Demo.ifaceT = some ii ∧ ii.impls = [a, b] ∧ a ≠ b ∧ a.prefx = b.prefx ∧
    enc Demo.prog c 5 Demo.ifaceT (.iface (.base Demo.fooT) (.struct [.int 7])) {} true =
      .ok [0, 200, 1, 5, 1, 2, 3, 4, 8, 7] ∧
    ({} : Codec).run Demo.prog Demo.hash (Demo.clashReg.take 2 ++ [.iface Demo.ifaceT [[2]] false]) = none := by
  refine ⟨(({} : Codec).run Demo.prog Demo.hash Demo.clashReg).get (by decide +kernel),
    (((({} : Codec).run Demo.prog Demo.hash Demo.clashReg).get (by decide +kernel)).iface? Demo.ifaceT).get
      (by decide +kernel), _, _, ?_, ?_, rfl, ?_⟩ <;> decide +kernel

/-! ## C39 -/

/-- A longer history answers as the shorter one, if the new concrete types have new prefix bytes. -/
theorem agree_extend {ops rest : List Op} {c c' : Codec} (h : RegInv Γ H ops c) (h' : RegInv Γ H (ops ++ rest) c')
    (hnew : ∀ ci ∈ concsOf H rest, ∀ cj ∈ c.concs, ci.prefx ≠ cj.prefx) : c.Agree False c' := by
  have hcc : c'.concs = c.concs ++ concsOf H rest := by
    rw [h.concs, h'.concs]; simp [concsOf]
  have hmono : ∀ ci, ci ∈ c.concs → ci ∈ c'.concs := fun ci hc => by rw [hcc]; simp [hc]
  refine ⟨fun id => ?_, fun id => ?_⟩
  · cases hc : c.conc? id with
    | none => exact .inl ⟨fun hf => hf, rfl⟩
    | some ci =>
      obtain ⟨hm, ht⟩ := h.conc_iff.1 hc
      exact .inr (h'.conc_iff.2 ⟨hmono _ hm, ht⟩)
  · cases hi : c.iface? id with
    | none => exact .inl ⟨rfl, fun hf => hf.elim⟩
    | some ii =>
      right
      obtain ⟨op, ho, hop, ht⟩ := h.iface_iff.1 hi
      obtain ⟨h1, h2⟩ := ifaceOf_change (ops' := ops ++ rest) hop
      have hi' : c'.iface? id = some { ii with impls := implsOf Γ H (ops ++ rest) ii.tid } :=
        h'.iface_iff.2 ⟨op, by simp [ho], h1, ht⟩
      have hw : ∀ cj ∈ c.concs, ({ ii with impls := implsOf Γ H (ops ++ rest) ii.tid } : IfaceInfo).withPrefix cj.prefx
          = ii.withPrefix cj.prefx := by
        intro cj hcj
        unfold IfaceInfo.withPrefix
        rw [h2]
        simp only [implsOf, concsOf, List.filterMap_append, List.filter_append]
        refine (congrArg _ ?_).trans (List.append_nil _)
        rw [List.filter_filter, List.filter_eq_nil_iff]
        intro a ha hb
        simp only [Bool.and_eq_true, beq_iff_eq] at hb
        exact hnew a ha cj hcj hb.1
      refine ⟨ii, _, rfl, hi', rfl, ?_, ?_⟩
      · intro cid ci hc
        rw [hw ci (h.conc_iff.1 hc).1]
      · intro dp
        cases hl : lookupConc c ii dp with
        | error e => exact .inl ⟨fun hf => hf, fun ci hh => by cases hh⟩
        | ok ci =>
          right
          unfold lookupConc at hl ⊢
          cases hdp : dp.1 with
          | some d =>
            simp only [hdp] at hl ⊢
            cases hd : c.disfix? (d ++ dp.2) with
            | none => simp [hd] at hl
            | some cj =>
              simp only [hd, Except.ok.injEq] at hl
              subst hl
              obtain ⟨hm, he⟩ := h.disfix_iff.1 hd
              rw [h'.disfix_iff.2 ⟨hmono _ hm, he⟩]
          | none =>
            simp only [hdp] at hl ⊢
            match hwp : ii.withPrefix dp.2 with
            | [] => simp [hwp] at hl
            | _ :: _ :: _ => simp [hwp] at hl
            | [cj] =>
              simp only [hwp, Except.ok.injEq] at hl
              subst hl
              have hmem : cj ∈ ii.withPrefix dp.2 := by rw [hwp]; simp
              obtain ⟨hci, hp⟩ := List.mem_filter.1 hmem
              have hp : cj.prefx = dp.2 := by simpa using hp
              have hcm : cj ∈ c.concs := by
                rw [h.impls hi] at hci; exact (List.mem_filter.1 hci).1
              have := hw cj hcm
              rw [hp] at this
              rw [this, hwp]

/-- C39: after further successful calls, in which only concrete types with new prefix bytes were registered, every
Marshal and Unmarshal that succeeded before gives the same result, for every type that was not itself registered
meanwhile. -/
theorem C39_preserved {ops rest : List Op} {c c' : Codec} (hr : ({} : Codec).run Γ H ops = some c)
    (hr' : c.run Γ H rest = some c')
    (hnew : ∀ t n d p, .conc t n ∈ rest → nameToDisfix H n = .ok (d, p) → ∀ cj ∈ c.concs, cj.prefx ≠ p)
    {t : Ty} (ht : ∀ t' n, .conc t' n ∈ rest → t'.deref ≠ t.deref) (f : Nat) :
    (∀ v bz, marshalBare Γ c f t v = .ok bz → marshalBare Γ c' f t v = .ok bz) ∧
    (∀ v bz, marshalLP Γ c f t v = .ok bz → marshalLP Γ c' f t v = .ok bz) ∧
    (∀ p bz w, unmarshalBare Γ c f t p bz = .ok w → unmarshalBare Γ c' f t p bz = .ok w) ∧
    (∀ p bz w, unmarshalLP Γ c f t p bz = .ok w → unmarshalLP Γ c' f t p bz = .ok w) := by
  have h := run_inv hr
  have h' := run_inv_from h hr'
  have ha : c.Agree False c' := by
    refine agree_extend h h' ?_
    intro ci hci cj hcj he
    obtain ⟨op, ho, hop⟩ := List.mem_filterMap.1 hci
    obtain ⟨t, n, rfl, _, _, _, hd⟩ := concOf_some hop
    exact hnew t n _ _ ho hd cj hcj he.symm
  have htop : c'.conc? t.deref = c.conc? t.deref := by
    refine Option.ext fun ci => ?_
    rw [h.conc_iff, h'.conc_iff, h'.concs, h.concs]
    simp only [concsOf, List.filterMap_append, List.mem_append]
    constructor
    · rintro ⟨hm | hm, he⟩
      · exact ⟨hm, he⟩
      · obtain ⟨op, ho, hop⟩ := List.mem_filterMap.1 hm
        obtain ⟨t', n, rfl, h1, _⟩ := concOf_some hop
        exact absurd (h1.symm.trans he) (ht t' n ho)
    · rintro ⟨hm, he⟩
      exact ⟨.inl hm, he⟩
  refine ⟨fun v bz hx => ?_, fun v bz hx => ?_, fun p bz w hx => ?_, fun p bz w hx => ?_⟩
  · rcases marshalBare_ext (Γ := Γ) ha f t v htop with hh | hh
    · exact absurd hx (hh.2 bz)
    · rw [hh, hx]
  · rcases marshalLP_ext (Γ := Γ) ha f t v htop with hh | hh
    · exact absurd hx (hh.2 bz)
    · rw [hh, hx]
  · rcases unmarshalBare_ext (Γ := Γ) ha f t p bz htop with hh | hh
    · exact absurd hx (hh.2 w)
    · rw [hh, hx]
  · rcases unmarshalLP_ext (Γ := Γ) ha f t p bz htop with hh | hh
    · exact absurd hx (hh.2 w)
    · rw [hh, hx]

/-- `Msg` with a `Foo` in its interface field, before and after registering `Bar` and `Str`. -/
example : ({} : Codec).run Demo.prog Demo.hash (Demo.ops.take 2) = some Demo.codecFoo ∧
    Demo.codecFoo.run Demo.prog Demo.hash (Demo.ops.drop 2) = some Demo.codec ∧
    nameToDisfix Demo.hash [98] = .ok ([9, 9, 9], [5, 6, 7, 8]) ∧
    nameToDisfix Demo.hash [115] = .ok ([6, 6, 6], [11, 12, 13, 14]) ∧
    Demo.codecFoo.concs.map (·.prefx) = [[1, 2, 3, 4]] ∧
    marshalBare Demo.prog Demo.codecFoo 9 (.base Demo.msgT) (.struct [.int 1, .str [], .nil, .nil, .nil,
      .iface (.ptr (.base Demo.fooT)) (.ptr (.struct [.int 7])), Demo.zeroTime]) =
      .ok [8, 1, 50, 6, 1, 2, 3, 4, 8, 7, 58, 11, 8, 128, 146, 184, 195, 152, 254, 255, 255, 255, 1] := by
  decide +kernel

/-- Outside C39: a later implementer with the same prefix bytes (allowed if both are in the priority list) changes
the encoding, and what was written before cannot be read any more. -/
theorem C39_collision : ∃ c c' : Codec,
    ({} : Codec).run Demo.prog Demo.hash [.iface Demo.ifaceT [[1], [2]] false, .conc (.base Demo.fooT) [1]] = some c ∧
    c.run Demo.prog Demo.hash [.conc (.base Demo.strT) [2]] = some c' ∧
    enc Demo.prog c 5 Demo.ifaceT (.iface (.base Demo.fooT) (.struct [.int 7])) {} true = .ok [1, 2, 3, 4, 8, 7] ∧
    enc Demo.prog c' 5 Demo.ifaceT (.iface (.base Demo.fooT) (.struct [.int 7])) {} true =
      .ok [0, 200, 1, 5, 1, 2, 3, 4, 8, 7] ∧
    unmarshalBare Demo.prog c 5 (.base Demo.ifaceT) .nil [1, 2, 3, 4, 8, 7] =
      .ok (.iface (.base Demo.fooT) (.struct [.int 7])) ∧
    unmarshalBare Demo.prog c' 5 (.base Demo.ifaceT) .nil [1, 2, 3, 4, 8, 7] = .err .conflictingPrefix := by
  refine ⟨(({} : Codec).run Demo.prog Demo.hash
      [.iface Demo.ifaceT [[1], [2]] false, .conc (.base Demo.fooT) [1]]).get (by decide +kernel),
    (({} : Codec).run Demo.prog Demo.hash
      [.iface Demo.ifaceT [[1], [2]] false, .conc (.base Demo.fooT) [1], .conc (.base Demo.strT) [2]]).get
        (by decide +kernel), ?_⟩
  decide +kernel

end Amino
