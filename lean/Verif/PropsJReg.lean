import Verif.PropsEnd

/-!
# Property C88: registering more types does not change the JSON of the others
-/

set_option linter.unusedSectionVars false

namespace Amino
open Spec

/-- A success stays the same success. -/
def Res.Keeps {α : Type} (r r' : Res α) : Prop := ∀ a, r = .ok a → r' = .ok a

/-- What a codec answers, the other answers alike. -/
structure Codec.Grows (c c' : Codec) : Prop where
  conc : ∀ id ci, c.conc? id = some ci → c'.conc? id = some ci
  iface : ∀ id, (c.iface? id).isSome = true → (c'.iface? id).isSome = true
  name : ∀ n ci, c.name? n = some ci → c'.name? n = some ci

theorem Res.Keeps.rfl {α : Type} {r : Res α} : r.Keeps r := fun _ h => h

theorem Res.Keeps.bind {α β : Type} {r r' : Res α} {k k' : α → Res β} (h : r.Keeps r') (hk : ∀ a, (k a).Keeps (k' a)) :
    (r.bind k).Keeps (r'.bind k') := by
  intro b hb
  cases r with
  | ok a => rw [h a (Eq.refl _)]; exact hk a b hb
  | _ => cases hb

section
variable {Γ : Prog} {c c' : Codec} {J : JLib} (hg : c.Grows c')
include hg

theorem getInfo_keeps (id : TId) : (getInfo Γ c id).Keeps (getInfo Γ c' id) := by
  intro a h
  unfold getInfo at h ⊢
  cases hs : Γ.shape id with
  | iface =>
    simp only [hs] at h ⊢
    split at h
    · rename_i hi; rw [if_pos (hg.iface id hi)]
    · cases h
  | _ => simp only [hs] at h ⊢ <;> exact h

section
variable {rec rec' : Bool → Ty → Val → FOpts → Res Bytes} (h : ∀ a t v fo, (rec a t v fo).Keeps (rec' a t v fo))
include h

theorem jencElems_keeps (a : Bool) (e : Ty) (fo : FOpts) (vs : List Val) :
    (jencElems rec a e fo vs).Keeps (jencElems rec' a e fo vs) := by
  induction vs with
  | nil => exact .rfl
  | cons v vs ih => exact .bind (h _ _ _ _) fun _ => .bind ih fun _ => .rfl

theorem jencFields_keeps (a : Bool) (fs : List Field) (vs : List Val) :
    (jencFields Γ c rec a fs vs).Keeps (jencFields Γ c' rec' a fs vs) := by
  induction fs generalizing vs with
  | nil => cases vs <;> exact .rfl
  | cons f fs ih =>
    cases vs with
    | nil => exact .rfl
    | cons v vs =>
      simp only [jencFields]
      split
      · refine .bind (getInfo_keeps hg _) fun _ => ?_
        split
        · exact ih _
        · exact .bind (h _ _ _ _) fun _ => .bind (ih _) fun _ => .rfl
      · exact ih _

theorem jencEntries_keeps (e : Ty) (fo : FOpts) (kvs : List (Bytes × Val)) :
    (jencEntries Γ c rec e fo kvs).Keeps (jencEntries Γ c' rec' e fo kvs) := by
  induction kvs with
  | nil => exact .rfl
  | cons kv kvs ih =>
    refine .bind ?_ fun _ => .bind ih fun _ => .rfl
    unfold jencEntry
    split
    · exact h _ _ _ _
    · exact .bind (getInfo_keeps hg _) fun _ => h _ _ _ _

theorem jencIface_keeps (t : Ty) (v : Val) (fo : FOpts) : (jencIface Γ c rec t v fo).Keeps (jencIface Γ c' rec' t v fo) := by
  unfold jencIface
  split
  · exact .rfl
  split
  · exact .rfl
  refine .bind (getInfo_keeps hg _) fun _ => ?_
  cases hc : c.conc? t.deref with
  | none => intro a hh; cases hh
  | some ci => rw [hg.conc _ _ hc]; exact .bind (h _ _ _ _) fun _ => .rfl

theorem jencShape_keeps (a : Bool) (id : TId) (v : Val) (fo : FOpts) :
    (jencShape Γ c J rec a id v fo).Keeps (jencShape Γ c' J rec' a id v fo) := by
  unfold jencShape
  split
  case h_2 => exact jencIface_keeps hg h _ _ _
  case h_6 => exact .bind (getInfo_keeps hg _) fun _ => .bind (jencElems_keeps hg h _ _ _ _) fun _ => .rfl
  case h_7 => exact .bind (getInfo_keeps hg _) fun _ => .bind (jencElems_keeps hg h _ _ _ _) fun _ => .rfl
  case h_8 => exact .bind (jencFields_keeps hg h _ _ _) fun _ => .rfl
  case h_10 => exact .bind (jencEntries_keeps hg h _ _ _) fun _ => .rfl
  all_goals exact .rfl

theorem jencBase_keeps (a : Bool) (id : TId) (v : Val) (fo : FOpts) :
    (jencBase Γ c J rec a id v fo).Keeps (jencBase Γ c' J rec' a id v fo) := by
  unfold jencBase
  split
  · exact jencShape_keeps hg h _ _ _ _
  split
  · exact .rfl
  split
  · exact .bind .rfl fun _ => .bind (getInfo_keeps hg _) fun _ => h _ _ _ _
  · exact jencShape_keeps hg h _ _ _ _

end

theorem jenc_keeps (fuel : Nat) (a : Bool) (t : Ty) (v : Val) (fo : FOpts) :
    (jenc Γ c J fuel a t v fo).Keeps (jenc Γ c' J fuel a t v fo) := by
  induction fuel generalizing a t v fo with
  | zero => exact .rfl
  | succ fuel ih =>
    unfold jenc
    split
    · exact .rfl
    · exact jencBase_keeps hg ih _ _ _ _

section
variable {rec rec' : Ty → Val → FOpts → Bytes → Res Val} (h : ∀ t p fo bz, (rec t p fo bz).Keeps (rec' t p fo bz))
include h

theorem jdecArr_keeps (e : Ty) (fo : FOpts) (ps : List Val) (bs : List Bytes) :
    (jdecArr rec e fo ps bs).Keeps (jdecArr rec' e fo ps bs) := by
  induction ps generalizing bs with
  | nil => exact .rfl
  | cons p ps ih =>
    cases bs with
    | nil => exact .rfl
    | cons b bs => exact .bind (h _ _ _ _) fun _ => .bind (ih _) fun _ => .rfl

theorem jdecElems_keeps (e : Ty) (fo : FOpts) (bs : List Bytes) :
    (jdecElems Γ rec e fo bs).Keeps (jdecElems Γ rec' e fo bs) := by
  induction bs with
  | nil => exact .rfl
  | cons b bs ih => exact .bind (h _ _ _ _) fun _ => .bind ih fun _ => .rfl

theorem jdecEntries_keeps (e : Ty) (fo : FOpts) (kvs : List (Bytes × Bytes)) :
    (jdecEntries Γ rec e fo kvs).Keeps (jdecEntries Γ rec' e fo kvs) := by
  induction kvs with
  | nil => exact .rfl
  | cons b bs ih => exact .bind (h _ _ _ _) fun _ => .bind ih fun _ => .rfl

theorem jdecFields_keeps (fo : FOpts) (m : List (Bytes × Bytes)) (fs : List Field) (ps : List Val) :
    (jdecFields Γ c rec fo m fs ps).Keeps (jdecFields Γ c' rec' fo m fs ps) := by
  induction fs generalizing ps with
  | nil => cases ps <;> exact .rfl
  | cons f fs ih =>
    cases ps with
    | nil => exact .rfl
    | cons p ps =>
      simp only [jdecFields]
      split
      · refine .bind (getInfo_keeps hg _) fun _ => .bind ?_ fun _ => .bind (ih _) fun _ => .rfl
        unfold jdecField
        split
        · exact .rfl
        split
        · exact .rfl
        · exact h _ _ _ _
      · exact .bind (ih _) fun _ => .rfl

theorem jdecIface_keeps (id : TId) (fo : FOpts) (bz : Bytes) : (jdecIface Γ c rec id fo bz).Keeps (jdecIface Γ c' rec' id fo bz) := by
  refine .bind .rfl fun nd => ?_
  cases hc : c.name? nd.1 with
  | none => intro a hh; cases hh
  | some ci =>
    rw [hg.name _ _ hc]
    intro a hh
    dsimp only at hh ⊢
    cases hr : rec (.base ci.tid) (Γ.zero ci.tid) fo nd.2 with
    | ok v => rw [hr] at hh; rw [h _ _ _ _ _ hr]; exact hh
    | err e => rw [hr] at hh; dsimp only at hh; split at hh <;> cases hh
    | panic p => rw [hr] at hh; cases hh
    | oof => rw [hr] at hh; cases hh

theorem jdecShape_keeps (id : TId) (p : Val) (fo : FOpts) (bz : Bytes) :
    (jdecShape Γ c J rec id p fo bz).Keeps (jdecShape Γ c' J rec' id p fo bz) := by
  unfold jdecShape
  cases Γ.shape id with
  | iface => exact jdecIface_keeps hg h _ _ _
  | array n e =>
    dsimp only
    split
    · exact .rfl
    refine .bind (getInfo_keeps hg _) fun _ => .bind .rfl fun _ => ?_
    split
    · exact .rfl
    split
    · exact .bind (jdecArr_keeps hg h _ _ _ _) fun _ => .rfl
    · exact .rfl
  | slice e =>
    dsimp only
    split
    · exact .rfl
    refine .bind (getInfo_keeps hg _) fun _ => .bind .rfl fun _ => ?_
    split
    · exact .rfl
    · exact .bind (jdecElems_keeps hg h _ _ _) fun _ => .rfl
  | struct fs =>
    refine .bind .rfl fun _ => ?_
    split
    · exact .bind (jdecFields_keeps hg h _ _ _ _) fun _ => .rfl
    · exact .rfl
  | map e => exact .bind .rfl fun _ => .bind (getInfo_keeps hg _) fun _ => .bind (jdecEntries_keeps hg h _ _ _) fun _ => .rfl
  | _ => exact .rfl

theorem jdecBase_keeps (id : TId) (p : Val) (fo : FOpts) (bz : Bytes) :
    (jdecBase Γ c J rec id p fo bz).Keeps (jdecBase Γ c' J rec' id p fo bz) := by
  unfold jdecBase
  split
  · exact jdecShape_keeps hg h _ _ _ _
  split
  · exact .rfl
  split
  · exact .bind (getInfo_keeps hg _) fun _ => .bind (h _ _ _ _) fun _ => .rfl
  · exact jdecShape_keeps hg h _ _ _ _

end

theorem jdec_keeps (fuel : Nat) (t : Ty) (p : Val) (fo : FOpts) (bz : Bytes) :
    (jdec Γ c J fuel t p fo bz).Keeps (jdec Γ c' J fuel t p fo bz) := by
  induction fuel generalizing t p fo bz with
  | zero => exact .rfl
  | succ fuel ih =>
    unfold jdec
    split
    · exact .rfl
    split
    · exact .rfl
    · exact .bind (jdecBase_keeps hg ih _ _ _ _) fun _ => .rfl

end

variable {Γ : Prog} {H : Bytes → Bytes}

/-- C88: after any further successful calls, every MarshalJSON and UnmarshalJSON that succeeded before gives the same
result, for every type that was not itself registered meanwhile.  Unlike in C39, colliding prefix bytes do not matter. -/
theorem C88_json_preserved {J : JLib} {ops rest : List Op} {c c' : Codec} (hr : ({} : Codec).run Γ H ops = some c)
    (hr' : c.run Γ H rest = some c') {t : Ty} (ht : ∀ t' n, .conc t' n ∈ rest → t'.deref ≠ t.deref) (f : Nat) :
    (∀ v bz, marshalJSON Γ c J f (some (t, v)) = .ok bz → marshalJSON Γ c' J f (some (t, v)) = .ok bz) ∧
    (∀ p bz w, unmarshalJSON Γ c J f t p bz = .ok w → unmarshalJSON Γ c' J f t p bz = .ok w) := by
  have h := run_inv hr
  have h' := run_inv_from h hr'
  have hmono : ∀ ci, ci ∈ c.concs → ci ∈ c'.concs := fun ci hc => by
    rw [h'.concs]; rw [h.concs] at hc; simp only [concsOf, List.filterMap_append, List.mem_append]; exact .inl hc
  have hg : c.Grows c' := by
    refine ⟨fun id ci hc => ?_, fun id hi => ?_, fun n ci hc => ?_⟩
    · obtain ⟨hm, he⟩ := h.conc_iff.1 hc
      exact h'.conc_iff.2 ⟨hmono _ hm, he⟩
    · obtain ⟨ii, hi⟩ := Option.isSome_iff_exists.1 hi
      obtain ⟨op, ho, hop, htid⟩ := h.iface_iff.1 hi
      obtain ⟨h1, _⟩ := ifaceOf_change (ops' := ops ++ rest) hop
      rw [h'.iface_iff.2 ⟨op, by simp [ho], h1, htid⟩]; rfl
    · obtain ⟨hm, he⟩ := h.name_iff.1 hc
      exact h'.name_iff.2 ⟨hmono _ hm, he⟩
  have htop : c'.conc? t.deref = c.conc? t.deref := by
    refine Option.ext fun ci => ?_
    rw [h.conc_iff, h'.conc_iff, h'.concs, h.concs]
    simp only [concsOf, List.filterMap_append, List.mem_append]
    constructor
    · rintro ⟨hm | hm, he⟩
      · exact ⟨hm, he⟩
      · obtain ⟨op, ho, hop⟩ := List.mem_filterMap.1 hm
        obtain ⟨t', n, rfl, h1, _⟩ := concOf_some hop
        exact absurd (h1.symm.trans he) (ht t' n ho)
    · rintro ⟨hm, he⟩
      exact ⟨.inl hm, he⟩
  refine ⟨fun v => ?_, fun p bz => ?_⟩
  · show (marshalJSON Γ c J f (some (t, v))).Keeps (marshalJSON Γ c' J f (some (t, v)))
    simp only [marshalJSON, htop]
    exact .bind (getInfo_keeps hg _) fun _ => .bind (jenc_keeps hg _ _ _ _ _) fun _ => .rfl
  · show (unmarshalJSON Γ c J f t p bz).Keeps (unmarshalJSON Γ c' J f t p bz)
    simp only [unmarshalJSON, htop]
    split
    · exact .rfl
    refine .bind (getInfo_keeps hg _) fun _ => ?_
    split
    · refine .bind .rfl fun _ => ?_
      split
      · exact .rfl
      · exact jdec_keeps hg _ _ _ _ _
    · exact jdec_keeps hg _ _ _ _ _

/-- The codecs of `C39_collision`: the later type has the prefix bytes of the first.  Bytes written before cannot be read any
more, the JSON text can. -/
example : ∃ c c' : Codec,
    ({} : Codec).run Demo.prog Demo.hash [.iface Demo.ifaceT [[1], [2]] false, .conc (.base Demo.fooT) [1]] = some c ∧
    c.run Demo.prog Demo.hash [.conc (.base Demo.strT) [2]] = some c' ∧
    unmarshalBare Demo.prog c' 5 (.base Demo.ifaceT) .nil [1, 2, 3, 4, 8, 7] = .err .conflictingPrefix ∧
    ∃ bz, marshalJSON Demo.prog c JDemo.lib 9 (some (.base Demo.ifaceT, .iface (.base Demo.fooT) (.struct [.int 7]))) = .ok bz ∧
      marshalJSON Demo.prog c' JDemo.lib 9 (some (.base Demo.ifaceT, .iface (.base Demo.fooT) (.struct [.int 7]))) = .ok bz := by
  have hr : ({} : Codec).run Demo.prog Demo.hash [.iface Demo.ifaceT [[1], [2]] false, .conc (.base Demo.fooT) [1]] = some
      ((({} : Codec).run Demo.prog Demo.hash [.iface Demo.ifaceT [[1], [2]] false, .conc (.base Demo.fooT) [1]]).get
        (by decide +kernel)) := by simp
  have hr' : ((({} : Codec).run Demo.prog Demo.hash [.iface Demo.ifaceT [[1], [2]] false, .conc (.base Demo.fooT) [1]]).get
        (by decide +kernel)).run Demo.prog Demo.hash [.conc (.base Demo.strT) [2]] =
      some ((({} : Codec).run Demo.prog Demo.hash [.iface Demo.ifaceT [[1], [2]] false, .conc (.base Demo.fooT) [1],
        .conc (.base Demo.strT) [2]]).get (by decide +kernel)) := by decide +kernel
  refine ⟨_, _, hr, hr', by decide +kernel, wrapText [1] [0x7b, 0x22, 0x22, 0x3a, 0x22, 0x37, 0x22, 0x7d], ?_, ?_⟩
  · decide +kernel
  · refine (C88_json_preserved hr hr' (t := .base Demo.ifaceT) ?_ 9).1 _ _ (by decide +kernel)
    intro t' n ho
    simp only [List.mem_cons, Op.conc.injEq, List.not_mem_nil, or_false] at ho
    rw [ho.1]; decide

/-- Outside C88: registering a type changes its own JSON, and the old text is not accepted any more. -/
theorem C88_own_registration : ∃ c bz, ({} : Codec).run Demo.prog Demo.hash [.conc (.base Demo.fooT) [102]] = some c ∧
    marshalJSON Demo.prog {} JDemo.lib 9 (some (.base Demo.fooT, .struct [.int 7])) = .ok bz ∧
    marshalJSON Demo.prog c JDemo.lib 9 (some (.base Demo.fooT, .struct [.int 7])) = .ok (wrapText [102] bz) ∧
    unmarshalJSON Demo.prog c JDemo.lib 9 (.base Demo.fooT) (.struct [.int 0]) bz = .err .json :=
  ⟨(({} : Codec).run Demo.prog Demo.hash [.conc (.base Demo.fooT) [102]]).get (by decide +kernel),
    [0x7b, 0x22, 0x22, 0x3a, 0x22, 0x37, 0x22, 0x7d], by decide +kernel⟩

end Amino
