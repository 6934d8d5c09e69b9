import Verif.SpecMethods
import Verif.PropsMarsh

/-! # Property C109: which MarshalAmino and UnmarshalAmino are used -/

namespace Amino
open Spec

variable {D : TId → TDecl} {mbn : MethodByName} {T : TId} {p : Bool} {name : Bytes}

theorem Spec.Selected.unique {m m' : MDecl} (h : Selected D T p name m) (h' : Selected D T p name m') : m = m' := by
  obtain ⟨d, q, h1, h2, -⟩ := h
  obtain ⟨d', q', h1', h2', -⟩ := h'
  rcases Nat.lt_trichotomy d d' with hd | rfl | hd
  · rw [h2' d hd] at h1; cases h1
  · rw [h1] at h1'; cases h1'; rfl
  · rw [h2 d' hd] at h1'; cases h1'

/-- There is such a `reflect` for every program. -/
theorem goMethods_exists (D : TId → TDecl) : ∃ mbn, GoMethods D mbn := by
  classical
  refine ⟨fun T p name => if h : ∃ m, Selected D T p name m then some h.choose else none, ?_⟩
  intro T p name m
  by_cases h : ∃ m, Selected D T p name m
  · simp only [dif_pos h]
    constructor
    · intro e; cases e; exact h.choose_spec
    · intro e; rw [h.choose_spec.unique e]
  · simp only [dif_neg h]
    constructor
    · intro e; cases e
    · intro e; exact absurd ⟨m, e⟩ h

theorem Spec.GoMethods.none (hg : GoMethods D mbn) : mbn T p name = none ↔ ¬ ∃ m, Selected D T p name m := by
  cases h : mbn T p name with
  | none =>
    refine ⟨fun _ hm => ?_, fun _ => rfl⟩
    obtain ⟨m, hm⟩ := hm
    rw [(hg T p name m).2 hm] at h; cases h
  | some m =>
    constructor
    · intro e; cases e
    · intro e; exact absurd ⟨m, (hg T p name m).1 h⟩ e

theorem isPointer_iff {r : MTy} : r.isPointer = false ↔ ∀ t, r ≠ .ty (.ptr t) := by
  constructor
  · rintro h t rfl; cases h
  · intro h
    match r with
    | .error | .other | .ty (.base _) => rfl
    | .ty (.ptr t) => exact absurd rfl (h t)

theorem marshalRepr_ok {recv : MTy} {m : MDecl} {r : MTy} :
    marshalAminoReprType recv m = .ok r ↔ MarshalSig m.sig r := by
  obtain ⟨n, b, ⟨ins, outs⟩⟩ := m
  unfold marshalAminoReprType MDecl.allIns MarshalSig
  rw [← isPointer_iff]
  match ins, outs with
  | _ :: _, _ => simp
  | [], [] => simp
  | [], [_] => simp
  | [], _ :: _ :: _ :: _ => simp
  | [], [a, b] =>
    cases hb : decide (b = MTy.error)
    · simp at hb; simp [hb]
    · simp at hb; subst hb
      cases hp : a.isPointer
      · simp [hp]; rintro rfl; exact hp
      · simp [hp]; rintro rfl; exact hp

theorem unmarshalRepr_ok {t : Ty} {m : MDecl} {r : MTy} :
    unmarshalAminoReprType (.ty (.ptr t)) m = .ok r ↔ UnmarshalSig m.sig r := by
  obtain ⟨n, b, ⟨ins, outs⟩⟩ := m
  have hr : (MTy.ty (.ptr t)).isPointer = true := rfl
  unfold unmarshalAminoReprType MDecl.allIns UnmarshalSig
  rw [← isPointer_iff]
  match ins, outs with
  | [], _ => simp
  | _ :: _ :: _, _ => simp
  | [_], [] => simp [hr]
  | [_], _ :: _ :: _ => simp [hr]
  | [a], [b] =>
    cases hb : decide (b = MTy.error)
    · simp at hb; simp [hb, hr]
    · simp at hb; subst hb
      cases hp : a.isPointer
      · simp [hp, hr]; rintro rfl; exact hp
      · simp [hp, hr]; rintro rfl; exact hp

/-- One of the two questions: is there a method, and is `f` satisfied with its signature? -/
def askM (f : MDecl → Except SigPan MTy) : Option MDecl → Except SigPan (Option MTy)
  | none => .ok none
  | some m => (f m).map some

theorem methodInfo_eq (mbn : MethodByName) (id : TId) :
    methodInfo mbn id =
      (askM (marshalAminoReprType (.ty (.base id))) (mbn id false (ascii "MarshalAmino"))).bind fun a =>
      (askM (unmarshalAminoReprType (.ty (.ptr (.base id)))) (mbn id true (ascii "UnmarshalAmino"))).bind fun b =>
      .ok ⟨a, b⟩ := by
  unfold methodInfo
  cases mbn id false (ascii "MarshalAmino") with
  | none =>
    cases mbn id true (ascii "UnmarshalAmino") with
    | none => rfl
    | some u => cases h : unmarshalAminoReprType (.ty (.ptr (.base id))) u <;> simp [askM, h, Except.map, bind, Except.bind]
  | some m =>
    cases h' : marshalAminoReprType (.ty (.base id)) m with
    | error e => simp [askM, h', Except.map, bind, Except.bind]
    | ok r =>
      cases mbn id true (ascii "UnmarshalAmino") with
      | none => simp [askM, h', Except.map, bind, Except.bind]
      | some u =>
        cases h : unmarshalAminoReprType (.ty (.ptr (.base id))) u <;> simp [askM, h, h', Except.map, bind, Except.bind]

theorem ask_ok (hg : GoMethods D mbn) {f : MDecl → Except SigPan MTy} {S : MSig → MTy → Prop}
    (hf : ∀ m r, f m = .ok r ↔ S m.sig r) {x : Option MTy} :
    askM f (mbn T p name) = .ok x ↔
      (x = none ∧ ¬ ∃ m, Selected D T p name m) ∨ (∃ m r, Selected D T p name m ∧ S m.sig r ∧ x = some r) := by
  cases h : mbn T p name with
  | none =>
    have hn := hg.none.1 h
    constructor
    · intro e; cases e; exact .inl ⟨rfl, hn⟩
    · rintro (⟨rfl, -⟩ | ⟨m, r, hm, -⟩)
      · rfl
      · exact absurd ⟨m, hm⟩ hn
  | some m =>
    have hm := (hg T p name m).1 h
    constructor
    · intro e
      cases hr : f m with
      | error _ => simp [askM, hr, Except.map] at e
      | ok r =>
        simp [askM, hr, Except.map] at e
        exact .inr ⟨m, r, hm, (hf m r).1 hr, e.symm⟩
    · rintro (⟨-, hn⟩ | ⟨m', r, hm', hs, rfl⟩)
      · exact absurd ⟨m, hm⟩ hn
      · cases hm.unique hm'
        simp [askM, (hf m r).2 hs, Except.map]

theorem ask_error (hg : GoMethods D mbn) {f : MDecl → Except SigPan MTy} {S : MSig → MTy → Prop}
    (hf : ∀ m r, f m = .ok r ↔ S m.sig r) :
    (∃ e, askM f (mbn T p name) = .error e) ↔ ∃ m, Selected D T p name m ∧ ∀ r, ¬ S m.sig r := by
  cases h : mbn T p name with
  | none =>
    have hn := hg.none.1 h
    constructor
    · rintro ⟨e, e'⟩; cases e'
    · rintro ⟨m, hm, -⟩; exact absurd ⟨m, hm⟩ hn
  | some m =>
    have hm := (hg T p name m).1 h
    constructor
    · rintro ⟨e, e'⟩
      refine ⟨m, hm, fun r hr => ?_⟩
      simp [askM, (hf m r).2 hr, Except.map] at e'
    · rintro ⟨m', hm', hn⟩
      cases hm.unique hm'
      cases hr : f m with
      | error e => exact ⟨e, by simp [askM, hr, Except.map]⟩
      | ok r => exact absurd ((hf m r).1 hr) (hn r)

/-- Property C109: amino uses MarshalAmino of a type, and UnmarshalAmino of the pointer to it, exactly if the rules of
the language select one; it must have the right signature. -/
theorem C109_exact (hg : GoMethods D mbn) (id : TId) (info : MInfo) :
    methodInfo mbn id = .ok info ↔
      ((info.marsh = none ∧ ¬ ∃ m, Selected D id false (ascii "MarshalAmino") m) ∨
        (∃ m r, Selected D id false (ascii "MarshalAmino") m ∧ MarshalSig m.sig r ∧ info.marsh = some r)) ∧
      ((info.unmarsh = none ∧ ¬ ∃ m, Selected D id true (ascii "UnmarshalAmino") m) ∨
        (∃ m r, Selected D id true (ascii "UnmarshalAmino") m ∧ UnmarshalSig m.sig r ∧ info.unmarsh = some r)) := by
  rw [methodInfo_eq, ← ask_ok hg (fun m r => marshalRepr_ok (recv := .ty (.base id))),
    ← ask_ok hg (fun m r => unmarshalRepr_ok (t := .base id))]
  generalize askM _ (mbn id false _) = a
  generalize askM _ (mbn id true _) = b
  cases a <;> cases b <;> simp [Except.bind]
  constructor
  · rintro rfl; exact ⟨rfl, rfl⟩
  · rintro ⟨rfl, rfl⟩; rfl

/-- C109: it panics, when the type is first used, exactly if a selected method has another signature. -/
theorem C109_panics (hg : GoMethods D mbn) (id : TId) :
    (∃ e, methodInfo mbn id = .error e) ↔
      (∃ m, Selected D id false (ascii "MarshalAmino") m ∧ ∀ r, ¬ MarshalSig m.sig r) ∨
      (∃ m, Selected D id true (ascii "UnmarshalAmino") m ∧ ∀ r, ¬ UnmarshalSig m.sig r) := by
  rw [methodInfo_eq, ← ask_error hg (fun m r => marshalRepr_ok (recv := .ty (.base id))),
    ← ask_error hg (fun m r => unmarshalRepr_ok (t := .base id))]
  generalize askM _ (mbn id false _) = a
  generalize askM _ (mbn id true _) = b
  cases a <;> cases b <;> simp [Except.bind]

theorem found_declared {m : MDecl} (h : DeclaresM D T name m) : found D name 0 T p = [some (m, p)] := by
  obtain ⟨-, h1, h2⟩ := h
  have : (D T).fields.filter (fun f => decide (f = name)) = [] := by
    rw [List.filter_eq_nil_iff]
    intro a ha; simp; rintro rfl; exact h2 ha
  simp [found, h1, this]

theorem selected_own {m : MDecl} (h : DeclaresM D T name m) (hp : m.ptrRecv = true → p = true) :
    Selected D T p name m :=
  ⟨0, p, found_declared h, fun _ h => absurd h (Nat.not_lt_zero _), hp⟩

/-- C109: a type that declares MarshalAmino with a value receiver, and UnmarshalAmino (with either receiver), both of
the right form, has these methods used, whatever it embeds. -/
theorem C109_own (hg : GoMethods D mbn) {id : TId} {m u : MDecl} {r r' : MTy}
    (hm : DeclaresM D id (ascii "MarshalAmino") m) (hv : m.ptrRecv = false) (hs : MarshalSig m.sig r)
    (hu : DeclaresM D id (ascii "UnmarshalAmino") u) (hs' : UnmarshalSig u.sig r') :
    methodInfo mbn id = .ok ⟨some r, some r'⟩ :=
  (C109_exact hg id _).2 ⟨.inr ⟨m, r, selected_own hm (by rw [hv]; intro h; cases h), hs, rfl⟩,
    .inr ⟨u, r', selected_own hu (fun _ => rfl), hs', rfl⟩⟩

theorem Spec.Selected.at_found {m : MDecl} (h : Selected D T p name m) {d : Nat}
    (h0 : ∀ d' < d, found D name d' T p = []) (hd : found D name d T p ≠ []) : ∃ q, found D name d T p = [some (m, q)] ∧ (m.ptrRecv = true → q = true) := by
  obtain ⟨e, q, h1, h2, h3⟩ := h
  rcases Nat.lt_trichotomy d e with hl | rfl | hl
  · exact absurd (h2 d hl) hd
  · exact ⟨q, h1, h3⟩
  · rw [h0 e hl] at h1; cases h1

/-- C109: MarshalAmino declared with a pointer receiver is not used; nor is one of an embedded type then. -/
theorem C109_pointer (hg : GoMethods D mbn) {id : TId} {m : MDecl} {info : MInfo}
    (hm : DeclaresM D id (ascii "MarshalAmino") m) (hp : m.ptrRecv = true) (h : methodInfo mbn id = .ok info) :
    info.marsh = none := by
  rcases ((C109_exact hg id info).1 h).1 with ⟨h, -⟩ | ⟨m', r, hs, -⟩
  · exact h
  · obtain ⟨q, e, hq⟩ := hs.at_found (d := 0) (fun _ h => absurd h (Nat.not_lt_zero _))
      (by rw [found_declared hm]; exact List.cons_ne_nil _ _)
    rw [found_declared hm] at e
    cases e
    cases hq hp

theorem found_none (h : ∀ U, Embeds D T U → ∀ m ∈ (D U).methods, m.name ≠ name) :
    ∀ d p m q, some (m, q) ∉ found D name d T p := by
  intro d
  induction d generalizing T with
  | zero =>
    intro p m q hin
    simp [found] at hin
    obtain ⟨a, ⟨h1, h2⟩, rfl, -⟩ := hin
    exact h T .self a h1 h2
  | succ d ih =>
    intro p m q hin
    simp only [found, List.mem_flatMap] at hin
    obtain ⟨e, he, hin⟩ := hin
    exact ih (fun U hU => h U (.step he hU)) _ m q hin

/-- C109: no methods are used for a type if neither it nor a type embedded in it declares any. -/
theorem C109_none (hg : GoMethods D mbn) {id : TId}
    (h : ∀ U, Embeds D id U → ∀ m ∈ (D U).methods, m.name ≠ ascii "MarshalAmino" ∧ m.name ≠ ascii "UnmarshalAmino") :
    methodInfo mbn id = .ok ⟨none, none⟩ := by
  have key : ∀ p name, (∀ U, Embeds D id U → ∀ m ∈ (D U).methods, m.name ≠ name) → ¬ ∃ m, Selected D id p name m := by
    rintro p name hn ⟨m, d, q, h1, -⟩
    exact found_none hn d p m q (by rw [h1]; exact List.mem_singleton.2 rfl)
  exact (C109_exact hg id _).2 ⟨.inl ⟨rfl, key _ _ fun U hU m hm => (h U hU m hm).1⟩,
    .inl ⟨rfl, key _ _ fun U hU m hm => (h U hU m hm).2⟩⟩

theorem Spec.Lacks.found (h : Lacks D T name) : Spec.found D name 0 T p = [] := by
  have h1 : (D T).methods.filter (fun m => decide (m.name = name)) = [] := by
    rw [List.filter_eq_nil_iff]; intro m hm; simp; exact h.1 m hm
  have h2 : (D T).fields.filter (fun f => decide (f = name)) = [] := by
    rw [List.filter_eq_nil_iff]; intro a ha; simp; rintro rfl; exact h.2 ha
  simp [Spec.found, h1, h2]

theorem flatMap_lacks {es : List Embed} (h : ∀ e ∈ es, Lacks D e.target name) :
    es.flatMap (fun e => found D name 0 e.target (p || e.byPtr)) = [] := by
  rw [List.flatMap_eq_nil_iff]
  intro e he; exact (h e he).found

/-- C109: a struct that does not declare MarshalAmino but embeds exactly one type that does is marshalled by the method
of the embedded type, if that has a value receiver or is embedded by pointer. -/
theorem C109_promoted (hg : GoMethods D mbn) {id : TId} {m : MDecl} {r : MTy} {info : MInfo} {es es' : List Embed} {e : Embed}
    (hl : Lacks D id (ascii "MarshalAmino")) (he : (D id).embeds = es ++ e :: es')
    (ho : ∀ x ∈ es ++ es', Lacks D x.target (ascii "MarshalAmino"))
    (hm : DeclaresM D e.target (ascii "MarshalAmino") m) (hp : m.ptrRecv = true → e.byPtr = true) (hs : MarshalSig m.sig r)
    (h : methodInfo mbn id = .ok info) : info.marsh = some r := by
  have hf : found D (ascii "MarshalAmino") 1 id false = [some (m, e.byPtr)] := by
    simp only [found.eq_2, he, List.flatMap_append, List.flatMap_cons]
    rw [flatMap_lacks fun x hx => ho x (List.mem_append_left _ hx), flatMap_lacks fun x hx => ho x (List.mem_append_right _ hx),
      found_declared hm]
    rfl
  have hsel : Selected D id false (ascii "MarshalAmino") m := by
    refine ⟨1, e.byPtr, hf, ?_, hp⟩
    intro d' hd
    obtain rfl : d' = 0 := by omega
    exact hl.found
  rcases ((C109_exact hg id info).1 h).1 with ⟨-, hn⟩ | ⟨m', r', hs', hr, e'⟩
  · exact absurd ⟨m, hsel⟩ hn
  · cases hsel.unique hs'
    rw [e']
    obtain ⟨hr, -⟩ := hr
    rw [hs.1] at hr
    cases hr
    rfl

/-- C109: if it embeds two types that do, none of them is used. -/
theorem C109_ambiguous (hg : GoMethods D mbn) {id : TId} {m m' : MDecl} {info : MInfo} {es es' es'' : List Embed} {e e' : Embed}
    (hl : Lacks D id (ascii "MarshalAmino")) (he : (D id).embeds = es ++ e :: (es' ++ e' :: es''))
    (hm : DeclaresM D e.target (ascii "MarshalAmino") m) (hm' : DeclaresM D e'.target (ascii "MarshalAmino") m')
    (h : methodInfo mbn id = .ok info) : info.marsh = none := by
  rcases ((C109_exact hg id info).1 h).1 with ⟨h, -⟩ | ⟨n, r, hs, -⟩
  · exact h
  · have hlen : 2 ≤ (found D (ascii "MarshalAmino") 1 id false).length := by
      simp only [found.eq_2, he, List.flatMap_append, List.flatMap_cons, found_declared hm, found_declared hm', List.length_append,
        List.length_cons]
      omega
    obtain ⟨q, e, -⟩ := hs.at_found (d := 1) (fun d' hd => by obtain rfl : d' = 0 := by omega
                                                              exact hl.found)
      (by intro h; rw [h] at hlen; cases hlen)
    rw [e] at hlen
    simp at hlen

/-! ### A program

```
type Name struct { S string }              func (Name) MarshalAmino() (string, error);  func (*Name) UnmarshalAmino(string) error
type Ptr struct { S string }               func (*Ptr) MarshalAmino() (string, error);  func (*Ptr) UnmarshalAmino(string) error
type Mixed struct { S string }             func (Mixed) MarshalAmino() (string, error); func (*Mixed) UnmarshalAmino(int64) error
type Person struct { Name; Age int64 }
type Bad struct { S string }               func (Bad) MarshalAmino() string
```
-/

namespace Demo

def mStr : MSig := ⟨[], [.ty (.base stringT), .error]⟩
def uStr : MSig := ⟨[.ty (.base stringT)], [.error]⟩
def uInt : MSig := ⟨[.ty (.base int64T)], [.error]⟩

def mdecls : TId → TDecl
  | 40 => { methods := [⟨ascii "MarshalAmino", false, mStr⟩, ⟨ascii "UnmarshalAmino", true, uStr⟩], fields := [ascii "S"] }
  | 60 => { methods := [⟨ascii "MarshalAmino", true, mStr⟩, ⟨ascii "UnmarshalAmino", true, uStr⟩], fields := [ascii "S"] }
  | 61 => { methods := [⟨ascii "MarshalAmino", false, mStr⟩, ⟨ascii "UnmarshalAmino", true, uInt⟩], fields := [ascii "S"] }
  | 62 => { fields := [ascii "Name", ascii "Age"], embeds := [⟨40, false⟩] }
  | 63 => { methods := [⟨ascii "MarshalAmino", false, ⟨[], [.ty (.base stringT)]⟩⟩], fields := [ascii "S"] }
  | _ => {}

def methProg : Prog := { prog with
  shape := fun id => match id with
    | 40 | 60 | 61 => .struct [{ ty := .base stringT }]
    | 62 => .struct [{ ty := .base 40 }, { ty := .base int64T }]
    | _ => shape id
  zero := fun id => match id with
    | 40 | 60 | 61 => .struct [.str []]
    | 62 => .struct [.struct [.str []], .int 0]
    | _ => zero id
  marsh := fun id => match id with
    | 40 | 61 => some (stringT, fun v => match v with | .struct [.str s] => .ok (.str s) | _ => .panic .illTyped)
    | 62 => some (stringT, fun v => match v with | .struct [.struct [.str s], _] => .ok (.str s) | _ => .panic .illTyped)
    | _ => none
  unmarsh := fun id => match id with
    | 40 | 60 => some (stringT, fun _ r => .ok (.struct [r]))
    | 61 => some (int64T, fun _ _ => .ok (.struct [.str []]))
    | 62 => some (stringT, fun old r => match old with | .struct [_, a] => .ok (.struct [.struct [r], a]) | _ => .panic .illTyped)
    | _ => none }

end Demo

theorem decls_found0 {name : Bytes} {id : TId} (h : id ≠ 40 ∧ id ≠ 60 ∧ id ≠ 61 ∧ id ≠ 62 ∧ id ≠ 63) (p : Bool) (d : Nat) :
    found Demo.mdecls name d id p = [] := by
  have : Demo.mdecls id = {} := by
    unfold Demo.mdecls
    split <;> simp_all
  cases d <;> simp [found, this]

theorem not_selected {x : Option TId} {S : MSig → MTy → Prop} (hx : x = none)
    (h : ∀ m, ¬ Selected D T p name m) (r : TId) :
    x = some r ↔ ∃ m, Selected D T p name m ∧ S m.sig (.ty (.base r)) := by
  subst hx
  constructor
  · intro e; cases e
  · rintro ⟨m, hm, -⟩; exact absurd hm (h m)

theorem is_selected {x : Option TId} {S : MSig → MTy → Prop} {m : MDecl} (hm : Selected D T p name m)
    (h : ∀ r : TId, x = some r ↔ S m.sig (.ty (.base r))) (r : TId) :
    x = some r ↔ ∃ m, Selected D T p name m ∧ S m.sig (.ty (.base r)) := by
  rw [h r]
  constructor
  · intro e; exact ⟨m, hm, e⟩
  · rintro ⟨m', hm', e⟩; cases hm.unique hm'; exact e

theorem marshalSig_str {r : TId} : some Demo.stringT = some r ↔ MarshalSig Demo.mStr (.ty (.base r)) := by
  constructor
  · intro e; cases e; exact ⟨rfl, fun t e => by cases e⟩
  · rintro ⟨e, -⟩; cases e; rfl

theorem unmarshalSig_one {t r : TId} : some t = some r ↔ UnmarshalSig ⟨[.ty (.base t)], [.error]⟩ (.ty (.base r)) := by
  constructor
  · intro e; cases e; exact ⟨rfl, fun t e => by cases e⟩
  · rintro ⟨e, -⟩; cases e; rfl

theorem selected0 {m : MDecl} (h : found D name 0 T p = [some (m, p)]) (hp : m.ptrRecv = true → p = true) :
    Selected D T p name m := ⟨0, p, h, fun _ h => absurd h (Nat.not_lt_zero _), hp⟩

theorem selected1 {m : MDecl} {q : Bool} (h0 : found D name 0 T p = []) (h : found D name 1 T p = [some (m, q)])
    (hp : m.ptrRecv = true → q = true) : Selected D T p name m := by
  refine ⟨1, q, h, fun d' hd => ?_, hp⟩
  obtain rfl : d' = 0 := by omega
  exact h0

theorem person_m : Selected Demo.mdecls 62 false (ascii "MarshalAmino") ⟨ascii "MarshalAmino", false, Demo.mStr⟩ :=
  selected1 (q := false) (by decide +kernel) (by decide +kernel) (by intro h; cases h)

theorem person_u : Selected Demo.mdecls 62 true (ascii "UnmarshalAmino") ⟨ascii "UnmarshalAmino", true, Demo.uStr⟩ :=
  selected1 (q := true) (by decide +kernel) (by decide +kernel) (fun _ => rfl)

theorem ptr_m (m : MDecl) : ¬ Selected Demo.mdecls 60 false (ascii "MarshalAmino") m := by
  intro h
  have h0 : found Demo.mdecls (ascii "MarshalAmino") 0 60 false = [some (⟨ascii "MarshalAmino", true, Demo.mStr⟩, false)] := by
    decide +kernel
  obtain ⟨q, e, hq⟩ := h.at_found (d := 0) (fun _ h => absurd h (Nat.not_lt_zero _)) (by rw [h0]; exact List.cons_ne_nil _ _)
  rw [h0] at e
  cases e
  cases hq rfl

/-- The hypotheses are met: `Name` declares both methods. -/
example {mbn : MethodByName} (hg : GoMethods Demo.mdecls mbn) :
    methodInfo mbn 40 = .ok ⟨some (.ty (.base Demo.stringT)), some (.ty (.base Demo.stringT))⟩ :=
  C109_own (m := ⟨ascii "MarshalAmino", false, Demo.mStr⟩) (u := ⟨ascii "UnmarshalAmino", true, Demo.uStr⟩) hg
    ⟨rfl, by decide +kernel, by decide +kernel⟩ rfl ⟨rfl, fun t e => by cases e⟩
    ⟨rfl, by decide +kernel, by decide +kernel⟩ ⟨rfl, fun t e => by cases e⟩

/-- `Person` has those of `Name`. -/
example {mbn : MethodByName} (hg : GoMethods Demo.mdecls mbn) {info : MInfo} (h : methodInfo mbn 62 = .ok info) :
    info.marsh = some (.ty (.base Demo.stringT)) :=
  C109_promoted (e := ⟨40, false⟩) (es := []) (es' := []) (m := ⟨ascii "MarshalAmino", false, Demo.mStr⟩) hg
    ⟨fun m hm => (by cases hm), by decide +kernel⟩ rfl (fun x hx => by cases hx)
    ⟨rfl, by decide +kernel, by decide +kernel⟩ (by intro h; cases h) ⟨rfl, fun t e => by cases e⟩ h

/-- The one of `Ptr` is ignored. -/
example {mbn : MethodByName} (hg : GoMethods Demo.mdecls mbn) {info : MInfo} (h : methodInfo mbn 60 = .ok info) :
    info.marsh = none :=
  C109_pointer (m := ⟨ascii "MarshalAmino", true, Demo.mStr⟩) hg ⟨rfl, by decide +kernel, by decide +kernel⟩ rfl h

/-- `Bad` makes amino panic. -/
example {mbn : MethodByName} (hg : GoMethods Demo.mdecls mbn) : ∃ e, methodInfo mbn 63 = .error e :=
  (C109_panics hg 63).2 (.inl ⟨⟨ascii "MarshalAmino", false, ⟨[], [.ty (.base Demo.stringT)]⟩⟩,
    selected0 (by decide +kernel) (by intro h; cases h), fun r h => by cases h.1⟩)

/-- Types that declare nothing have none. -/
example {mbn : MethodByName} (hg : GoMethods Demo.mdecls mbn) : methodInfo mbn 4 = .ok ⟨none, none⟩ :=
  C109_none hg fun U hU m hm => by
    cases hU with
    | self => cases hm
    | step h _ => cases h

theorem demo_methods : MethodsOf Demo.methProg Demo.mdecls := by
  intro id
  by_cases h40 : id = 40
  · subst h40
    exact ⟨is_selected (selected0 (m := ⟨ascii "MarshalAmino", false, Demo.mStr⟩) (by decide +kernel) (by intro h; cases h)) fun _ => marshalSig_str,
      is_selected (selected0 (m := ⟨ascii "UnmarshalAmino", true, Demo.uStr⟩) (by decide +kernel) (fun _ => rfl)) fun _ => unmarshalSig_one⟩
  by_cases h60 : id = 60
  · subst h60
    exact ⟨not_selected rfl ptr_m,
      is_selected (selected0 (m := ⟨ascii "UnmarshalAmino", true, Demo.uStr⟩) (by decide +kernel) (fun _ => rfl)) fun _ => unmarshalSig_one⟩
  by_cases h61 : id = 61
  · subst h61
    exact ⟨is_selected (selected0 (m := ⟨ascii "MarshalAmino", false, Demo.mStr⟩) (by decide +kernel) (by intro h; cases h)) fun _ => marshalSig_str,
      is_selected (selected0 (m := ⟨ascii "UnmarshalAmino", true, Demo.uInt⟩) (by decide +kernel) (fun _ => rfl)) fun _ => unmarshalSig_one⟩
  by_cases h62 : id = 62
  · subst h62
    exact ⟨is_selected person_m fun _ => marshalSig_str, is_selected person_u fun _ => unmarshalSig_one⟩
  by_cases h63 : id = 63
  · subst h63
    refine ⟨?_, not_selected rfl ?_⟩
    · intro r
      constructor
      · intro e; cases e
      · rintro ⟨m, hm, hs, -⟩
        cases (selected0 (m := ⟨ascii "MarshalAmino", false, ⟨[], [.ty (.base Demo.stringT)]⟩⟩)
          (by decide +kernel) (by intro h; cases h)).unique hm
        cases hs
    · rintro m ⟨d, q, h1, -⟩
      cases d with
      | zero => exact absurd h1 (by
          have : found Demo.mdecls (ascii "UnmarshalAmino") 0 63 true = [] := by decide +kernel
          rw [this]; intro h; cases h)
      | succ d => cases h1
  · have hn : ∀ p name m, ¬ Selected Demo.mdecls id p name m := by
      rintro p name m ⟨d, q, h1, -⟩
      rw [decls_found0 ⟨h40, h60, h61, h62, h63⟩] at h1
      cases h1
    refine ⟨not_selected ?_ (hn _ _), not_selected ?_ (hn _ _)⟩
    · have : Demo.methProg.marsh id = none := by
        simp only [Demo.methProg]
      rw [this]; rfl
    · have : Demo.methProg.unmarsh id = none := by
        simp only [Demo.methProg]
      rw [this]; rfl

/-- C109 does not make declared methods work: `Ptr{"h"}`, whose MarshalAmino has a pointer receiver, is written as a
struct (even if MarshalBinaryBare is given a pointer), and read by UnmarshalAmino, which fails. -/
theorem C109_pointer_refuted : MethodsOf Demo.methProg Demo.mdecls ∧
    marshalBare Demo.methProg Demo.codecFoo 9 (.base 60) (.struct [.str [104]]) = .ok [10, 1, 104] ∧
    marshalBare Demo.methProg Demo.codecFoo 9 (.ptr (.base 60)) (.ptr (.struct [.str [104]])) = .ok [10, 1, 104] ∧
    unmarshalBare Demo.methProg Demo.codecFoo 9 (.base 60) (.struct [.str []]) [10, 1, 104] = .err .insufficient :=
  ⟨demo_methods, by decide +kernel, by decide +kernel, by decide +kernel⟩

/-- The two methods may have different representation types; nothing panics, but what was written is not read. -/
theorem C109_mixed_refuted : MethodsOf Demo.methProg Demo.mdecls ∧
    (∀ mbn, GoMethods Demo.mdecls mbn → methodInfo mbn 61 = .ok ⟨some (.ty (.base Demo.stringT)), some (.ty (.base Demo.int64T))⟩) ∧
    marshalBare Demo.methProg Demo.codecFoo 9 (.base 61) (.struct [.str [104]]) = .ok [1, 104] ∧
    unmarshalBare Demo.methProg Demo.codecFoo 9 (.base 61) (.struct [.str []]) [1, 104] = .err .leftover :=
  ⟨demo_methods, fun _ hg =>
    C109_own (m := ⟨ascii "MarshalAmino", false, Demo.mStr⟩) (u := ⟨ascii "UnmarshalAmino", true, Demo.uInt⟩) hg
      ⟨rfl, by decide +kernel, by decide +kernel⟩ rfl ⟨rfl, fun t e => by cases e⟩
      ⟨rfl, by decide +kernel, by decide +kernel⟩ ⟨rfl, fun t e => by cases e⟩, by decide +kernel, by decide +kernel⟩

/-- A struct that embeds a type with MarshalAmino loses its other fields. -/
theorem C109_embedded_refuted : MethodsOf Demo.methProg Demo.mdecls ∧
    marshalBare Demo.methProg Demo.codecFoo 9 (.base 62) (.struct [.struct [.str [104]], .int 7]) = .ok [1, 104] ∧
    marshalBare Demo.methProg Demo.codecFoo 9 (.base 62) (.struct [.struct [.str [104]], .int 8]) = .ok [1, 104] ∧
    unmarshalBare Demo.methProg Demo.codecFoo 9 (.base 62) (.struct [.struct [.str []], .int 0]) [1, 104] =
      .ok (.struct [.struct [.str [104]], .int 0]) :=
  ⟨demo_methods, by decide +kernel, by decide +kernel, by decide +kernel⟩

end Amino
