import Verif.RegLemmas
import Verif.CodecExt

/-! # Lookups in a codec reached by successful calls -/

namespace Amino
open Spec

variable {Γ : Prog} {H : Bytes → Bytes}

/-! ## Disfix bytes -/

theorem skipZeros_ok {bz r : Bytes} (h : skipZeros bz = .ok r) :
    (∃ k, bz = List.replicate k 0 ++ r) ∧ r ≠ [] ∧ r.head? ≠ some 0 := by
  induction bz with
  | nil => simp [skipZeros] at h
  | cons b bz ih =>
    rw [skipZeros] at h
    split at h
    · rename_i hb
      obtain ⟨⟨k, hk⟩, h2⟩ := ih h
      exact ⟨⟨k + 1, by rw [List.replicate_succ, hb, hk, List.cons_append]⟩, h2⟩
    · rename_i hb
      cases h
      exact ⟨⟨0, rfl⟩, by simp, by simpa using hb⟩

theorem take_head {bz : Bytes} {k : Nat} (h : bz.head? ≠ some 0) : (bz.take (k + 1)).head? ≠ some 0 := by
  cases bz with
  | nil => simp
  | cons b bz => simpa using h

/-- What `nameToDisfix` returns. -/
theorem nameToDisfix_ok {name : Bytes} {dp : Bytes × Bytes} (h : nameToDisfix H name = .ok dp) :
    dp.1.length = 3 ∧ dp.1.head? ≠ some 0 ∧ dp.2.length = 4 ∧ dp.2.head? ≠ some 0 := by
  unfold nameToDisfix at h
  cases h1 : skipZeros (H name) with
  | ok bz =>
    simp only [h1, Res.bind_ok] at h
    split at h
    · cases h
    · rename_i hl
      cases h2 : skipZeros (bz.drop 3) with
      | ok bz' =>
        simp only [h2, Res.bind_ok] at h
        split at h
        · cases h
        · rename_i hl'
          cases h
          exact ⟨by simp only [List.length_take]; omega, take_head (skipZeros_ok h1).2.2,
            by simp only [List.length_take]; omega, take_head (skipZeros_ok h2).2.2⟩
      | err e => simp [h2, Res.bind] at h
      | panic p => simp [h2, Res.bind] at h
      | oof => simp [h2, Res.bind] at h
  | err e => simp [h1, Res.bind] at h
  | panic p => simp [h1, Res.bind] at h
  | oof => simp [h1, Res.bind] at h

theorem concOf_some {op : Op} {ci : ConcInfo} (h : concOf H op = some ci) :
    ∃ t name, op = .conc t name ∧ ci.tid = t.deref ∧ ci.ptrPref = t.isPtr ∧ ci.name = name ∧
      nameToDisfix H name = .ok (ci.disamb, ci.prefx) := by
  cases op with
  | conc t name =>
    simp only [concOf] at h
    split at h
    · rename_i dp hdp
      cases h
      exact ⟨t, name, rfl, rfl, rfl, rfl, hdp⟩
    · cases h
  | _ => simp [concOf] at h

theorem concOf_len {op : Op} {ci : ConcInfo} (h : concOf H op = some ci) :
    ci.disamb.length = 3 ∧ ci.disamb.head? ≠ some 0 ∧ ci.prefx.length = 4 ∧ ci.prefx.head? ≠ some 0 := by
  obtain ⟨_, _, _, _, _, _, h⟩ := concOf_some h
  exact nameToDisfix_ok h

/-! ## Finding by a unique key -/

theorem find_unique {α β : Type} [BEq β] [LawfulBEq β] {f : α → β} {l : List α} (h : l.Pairwise fun a b => f a ≠ f b)
    {a : α} (ha : a ∈ l) : (l.find? fun x => f x == f a) = some a := by
  induction l with
  | nil => cases ha
  | cons x l ih =>
    rw [List.pairwise_cons] at h
    rw [List.find?_cons]
    rcases List.mem_cons.1 ha with rfl | ha
    · simp
    · have : (f x == f a) = false := by
        rw [beq_eq_false_iff_ne]; exact h.1 a ha
      rw [this]
      exact ih h.2 ha

theorem find_key {α β : Type} [BEq β] [LawfulBEq β] {f : α → β} {l : List α} {k : β} {a : α}
    (h : (l.find? fun x => f x == k) = some a) : a ∈ l ∧ f a = k :=
  ⟨List.mem_of_find?_eq_some h, by simpa using List.find?_some h⟩

theorem find_key' {α β : Type} [BEq β] [LawfulBEq β] {f : α → β} {l : List α} {k : β} {a : α}
    (h : (l.find? fun x => k == f x) = some a) : a ∈ l ∧ k = f a :=
  ⟨List.mem_of_find?_eq_some h, by simpa using List.find?_some h⟩

theorem find_swap {α β : Type} [BEq β] [LawfulBEq β] (f : α → β) (l : List α) (k : β) :
    (l.find? fun x => k == f x) = l.find? fun x => f x == k := by
  congr 1; funext x; exact Bool.beq_comm

/-! ## The registry of a history -/

theorem concs_pairwise {ops : List Op} (h : ops.Pairwise (Compatible H)) :
    (concsOf H ops).Pairwise fun a b => a.tid ≠ b.tid ∧ a.name ≠ b.name ∧ a.disfix ≠ b.disfix := by
  unfold concsOf
  rw [List.pairwise_filterMap]
  refine h.imp ?_
  intro x y hxy a ha b hb
  refine ⟨?_, hxy.2 a b ha hb⟩
  intro he
  exact hxy.1 a.tid (concOf_tid ha) (by rw [he]; exact concOf_tid hb)

theorem ifaces_pairwise {ops ops' : List Op} (h : ops.Pairwise (Compatible H)) :
    (ops.filterMap (ifaceOf Γ H ops')).Pairwise fun a b => a.tid ≠ b.tid := by
  rw [List.pairwise_filterMap]
  refine h.imp ?_
  intro x y hxy a ha b hb he
  exact hxy.1 a.tid (ifaceOf_tid ha) (by rw [he]; exact ifaceOf_tid hb)

section
variable {ops : List Op} {c : Codec} (h : RegInv Γ H ops c)
include h

theorem RegInv.mem_conc {ci : ConcInfo} : ci ∈ c.concs ↔ ∃ op ∈ ops, concOf H op = some ci := by
  rw [h.concs]; simp [concsOf]

theorem RegInv.conc_iff {id : TId} {ci : ConcInfo} : c.conc? id = some ci ↔ ci ∈ c.concs ∧ ci.tid = id := by
  constructor
  · intro hc; exact find_key hc
  · rintro ⟨hm, rfl⟩
    rw [h.concs] at hm
    unfold Codec.conc?
    rw [h.concs]
    exact find_unique (f := ConcInfo.tid) ((concs_pairwise h.valid.compatible).imp fun h => h.1) hm

theorem RegInv.name_iff {n : Bytes} {ci : ConcInfo} : c.name? n = some ci ↔ ci ∈ c.concs ∧ ci.name = n := by
  unfold Codec.name?
  rw [h.byName, lookup_map, h.concs, find_swap]
  constructor
  · intro hc; exact find_key hc
  · rintro ⟨hm, rfl⟩
    exact find_unique (f := ConcInfo.name) ((concs_pairwise h.valid.compatible).imp fun h => h.2.1) hm

theorem RegInv.disfix_iff {d : Bytes} {ci : ConcInfo} : c.disfix? d = some ci ↔ ci ∈ c.concs ∧ ci.disfix = d := by
  unfold Codec.disfix?
  rw [h.byDisfix, lookup_map, h.concs, find_swap]
  constructor
  · intro hc; exact find_key hc
  · rintro ⟨hm, rfl⟩
    exact find_unique (f := ConcInfo.disfix) ((concs_pairwise h.valid.compatible).imp fun h => h.2.2) hm

theorem RegInv.iface_iff {id : TId} {ii : IfaceInfo} :
    c.iface? id = some ii ↔ ∃ op ∈ ops, ifaceOf Γ H ops op = some ii ∧ ii.tid = id := by
  unfold Codec.iface?
  rw [h.ifaces]
  constructor
  · intro hc
    obtain ⟨hm, ht⟩ := find_key hc
    obtain ⟨op, ho, hi⟩ := List.mem_filterMap.1 hm
    exact ⟨op, ho, hi, ht⟩
  · rintro ⟨op, ho, hi, rfl⟩
    exact find_unique (f := IfaceInfo.tid) (ifaces_pairwise h.valid.compatible)
      (List.mem_filterMap.2 ⟨op, ho, hi⟩)

theorem RegInv.impls {id : TId} {ii : IfaceInfo} (hi : c.iface? id = some ii) :
    ii.impls = c.concs.filter fun ci => Γ.implements (.ptr (.base ci.tid)) id := by
  obtain ⟨op, _, ho, rfl⟩ := h.iface_iff.1 hi
  cases op with
  | iface id prio always =>
    simp only [ifaceOf] at ho
    split at ho
    · cases ho; simp only [implsOf, h.concs]
    · cases ho
  | _ => simp [ifaceOf] at ho

end

end Amino
