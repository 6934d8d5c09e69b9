import Verif.PropsTop

/-! # Property C43: times inside nested structs -/

namespace Amino
open Spec

variable {Γ : Prog} {c : Codec} {S : TId → FOpts → Prop}

/-- The component of a value reached by a sequence of field and list indices. -/
def Spec.valAt : Val → List Nat → Option Val
  | v, [] => some v
  | .struct vs, i :: p | .list vs, i :: p => (vs[i]?).bind (valAt · p)
  | _, _ :: _ => none

/-- The value `v` of struct type `id` contains the time `s, ns` at the given place: in an encoded field of the
struct, or of a struct nested by value in a field or in a list field. -/
inductive Spec.TimeAt (Γ : Prog) (s ns : Int) : TId → Val → List Nat → Prop
  | here {id j : TId} {fs : List Field} {vs : List Val} {i : Nat} {f : Field} :
      Γ.marsh id = none → Γ.shape id = .struct fs → fs[i]? = some f → f.visible = true → f.ty = .base j →
      Γ.shape j = .time → Γ.marsh j = none → vs[i]? = some (.time s ns) → TimeAt Γ s ns id (.struct vs) [i]
  | field {id j : TId} {fs : List Field} {vs : List Val} {i : Nat} {f : Field} {x : Val} {p : List Nat} :
      Γ.marsh id = none → Γ.shape id = .struct fs → fs[i]? = some f → f.visible = true → f.ty = .base j →
      vs[i]? = some x → TimeAt Γ s ns j x p → TimeAt Γ s ns id (.struct vs) (i :: p)
  | elem {id l j : TId} {fs : List Field} {vs xs : List Val} {i k : Nat} {f : Field} {x : Val} {p : List Nat} :
      Γ.marsh id = none → Γ.shape id = .struct fs → fs[i]? = some f → f.visible = true → f.ty = .base l →
      (Γ.shape l = .slice (.base j) ∨ ∃ n, Γ.shape l = .array n (.base j)) →
      vs[i]? = some (.list xs) → xs[k]? = some x → TimeAt Γ s ns j x p → TimeAt Γ s ns id (.struct vs) (i :: k :: p)

theorem Spec.TimeAt.struct {s ns : Int} {id : TId} {v : Val} {p : List Nat} (h : TimeAt Γ s ns id v p) :
    ∃ fs vs, Γ.shape id = .struct fs ∧ Γ.marsh id = none ∧ v = .struct vs := by
  cases h <;> exact ⟨_, _, by assumption, by assumption, rfl⟩

theorem allOmitted_false {bl : TId → Val → FOpts → Bool} {fs : List Field} {vs : List Val} {num i : Nat} {f : Field}
    {x : Val} (hf : fs[i]? = some f) (hv : f.visible = true) (hx : vs[i]? = some x)
    (ho : ∀ n, omits Γ bl f n x = false) : allOmitted Γ bl num fs vs = false := by
  induction fs generalizing vs num i with
  | nil => simp at hf
  | cons g fs ih =>
    cases vs with
    | nil => simp at hx
    | cons y vs =>
      cases i with
      | zero =>
        simp at hf hx
        subst hf hx
        simp only [allOmitted, hv, if_true, ho, Bool.false_and]
      | succ i =>
        simp at hf hx
        simp only [allOmitted]
        split
        · rw [ih hf hx, Bool.and_false]
        · exact ih hf hx

theorem normFields_at {bl : TId → Val → FOpts → Bool} {nm : TId → Val → FOpts → Option Val} {fs : List Field}
    {vs ws : List Val} {num i : Nat} {f : Field} {x : Val} (h : normFields Γ bl nm num fs vs = some ws)
    (hf : fs[i]? = some f) (hv : f.visible = true) (hx : vs[i]? = some x) :
    ∃ n w, normField Γ bl nm f n x = some w ∧ ws[i]? = some w := by
  induction fs generalizing vs ws num i with
  | nil => simp at hf
  | cons g fs ih =>
    cases vs with
    | nil => simp at hx
    | cons y vs =>
      simp only [normFields] at h
      cases i with
      | zero =>
        simp at hf hx
        subst hf hx
        rw [if_pos hv, Option.bind_eq_some_iff] at h
        obtain ⟨w, hw, h⟩ := h
        rw [Option.map_eq_some_iff] at h
        obtain ⟨ws', _, rfl⟩ := h
        exact ⟨_, w, hw, rfl⟩
      | succ i =>
        simp at hf hx
        split at h
        · rw [Option.bind_eq_some_iff] at h
          obtain ⟨w, _, h⟩ := h
          rw [Option.map_eq_some_iff] at h
          obtain ⟨ws', hws, rfl⟩ := h
          obtain ⟨n, u, h1, h2⟩ := ih hws hf hx
          exact ⟨n, u, h1, by simpa using h2⟩
        · rw [Option.map_eq_some_iff] at h
          obtain ⟨ws', hws, rfl⟩ := h
          obtain ⟨n, u, h1, h2⟩ := ih hws hf hx
          exact ⟨n, u, h1, by simpa using h2⟩

theorem normElems_at {bl : TId → Val → FOpts → Bool} {nm : TId → Val → FOpts → Option Val} {e : Ty} {fo : FOpts}
    {xs ws : List Val} {k : Nat} {x : Val} (hl : lenKind Γ e.deref = true) (h : normElems Γ bl nm e fo xs = some ws)
    (hx : xs[k]? = some x) : ∃ w, normElem Γ bl nm e fo x = some w ∧ ws[k]? = some w := by
  induction xs generalizing ws k with
  | nil => simp at hx
  | cons y xs ih =>
    simp only [normElems, hl, if_true, Option.bind_eq_some_iff, Option.map_eq_some_iff] at h
    obtain ⟨w, hw, ws', hws, rfl⟩ := h
    cases k with
    | zero => simp at hx; subst hx; exact ⟨w, hw, rfl⟩
    | succ k =>
      simp at hx
      obtain ⟨u, h1, h2⟩ := ih hws hx
      exact ⟨u, h1, by simpa using h2⟩

theorem lenKind_struct {id : TId} {fs : List Field} (h : Γ.shape id = .struct fs) : lenKind Γ id = true := by
  unfold lenKind; rw [h]

theorem repeated_struct {f : Field} {j : TId} {fs : List Field} (hf : f.ty = .base j) (h : Γ.shape j = .struct fs) :
    repeated Γ f = false := by
  unfold repeated; rw [hf]; simp only [h]

theorem omits_list {bl : TId → Val → FOpts → Bool} {f : Field} {l : TId} {n : Nat} {xs : List Val} (hf : f.ty = .base l)
    (hr : repeated Γ f = true) (hx : xs ≠ []) : omits Γ bl f n (.list xs) = false := by
  have : (xs.length == 0) = false := by simpa using hx
  unfold omits
  rw [hf]
  simp only [pointee, hr, if_true, Ty.deref, this, Bool.or_false]
  cases hs : Γ.shape l <;> simp [dflt, hx]

/-- A value with a time other than 1970 in it is not blank. -/
theorem blank_timeAt {s ns : Int} {id : TId} {v : Val} {p : List Nat} (h : TimeAt Γ s ns id v p) (hne : ¬(s = 0 ∧ ns = 0)) :
    ∀ fuel fo, blank Γ fuel id v fo = false := by
  induction h with
  | @here id j fs vs i f hm hs hf hv hty hj hmj hx =>
    intro fuel fo
    cases fuel with
    | zero => rfl
    | succ fuel =>
      unfold blank
      rw [hm]
      simp only [blankShape, hs]
      refine allOmitted_false hf hv hx ?_
      intro n
      have hr : repeated Γ f = false := by unfold repeated; rw [hty]; simp only [hj]
      unfold omits
      rw [hty]
      simp only [pointee, Ty.deref, hj, dflt, Bool.false_and, Bool.false_or, hr, Bool.false_eq_true, if_false]
      have : blank Γ fuel j (.time s ns) { f.opts with fnum := n } = false := by
        cases fuel with
        | zero => rfl
        | succ fuel =>
          unfold blank
          rw [hmj]
          simp only [blankShape, hj]
          cases h1 : (s == 0 && ns == 0) with
          | false => rfl
          | true => simp at h1; exact absurd h1 hne
      rw [this, Bool.and_false]
  | @field id j fs vs i f x p hm hs hf hv hty hx ht ih =>
    intro fuel fo
    cases fuel with
    | zero => rfl
    | succ fuel =>
      obtain ⟨gs, us, hj, hmj, rfl⟩ := ht.struct
      unfold blank
      rw [hm]
      simp only [blankShape, hs]
      refine allOmitted_false hf hv hx ?_
      intro n
      unfold omits
      rw [repeated_struct hty hj, hty]
      simp only [pointee, Ty.deref, hj, dflt, Bool.false_and, Bool.false_or, Bool.false_eq_true, if_false]
      rw [ih, Bool.and_false]
  | @elem id l j fs vs xs i k f x p hm hs hf hv hty hl hx hk ht ih =>
    intro fuel fo
    cases fuel with
    | zero => rfl
    | succ fuel =>
      obtain ⟨gs, us, hj, hmj, rfl⟩ := ht.struct
      unfold blank
      rw [hm]
      simp only [blankShape, hs]
      refine allOmitted_false hf hv hx ?_
      intro n
      refine omits_list hty ?_ (by intro h; subst h; simp at hk)
      unfold repeated
      rw [hty]
      rcases hl with hl | ⟨m, hl⟩ <;> simp only [hl] <;> exact lenKind_struct hj

theorem norm_structAt {fuel : Nat} {id : TId} {fs : List Field} {vs : List Val} {fo : FOpts} {w : Val} (hm : Γ.marsh id = none)
    (hs : Γ.shape id = .struct fs) (h : norm Γ c fuel id (.struct vs) fo = some w) :
    ∃ f ws, fuel = f + 1 ∧ normFields Γ (blank Γ f) (norm Γ c f) 0 fs vs = some ws ∧ w = .struct ws := by
  cases fuel with
  | zero => simp [norm] at h
  | succ f =>
    unfold norm at h
    rw [hm] at h
    simp only [normShape, hs, Option.map_eq_some_iff] at h
    obtain ⟨ws, hws, rfl⟩ := h
    exact ⟨f, ws, rfl, hws, rfl⟩

theorem norm_time {fuel : Nat} {j : TId} {v : Val} {fo : FOpts} {w : Val} (hm : Γ.marsh j = none)
    (hs : Γ.shape j = .time) (h : norm Γ c fuel j v fo = some w) : w = v := by
  cases fuel with
  | zero => simp [norm] at h
  | succ f =>
    unfold norm at h
    rw [hm] at h
    simp only [normShape, hs] at h
    exact (Option.some.inj h).symm

/-- A time field of a struct, if the struct is written at all. -/
theorem norm_here {s ns : Int} {id : TId} {v w : Val} {i : Nat} (h : TimeAt Γ s ns id v [i]) {fuel : Nat} {fo : FOpts}
    (hw : norm Γ c fuel id v fo = some w) : valAt w [i] = some (.time s ns) := by
  cases h with
  | @here _ j fs vs _ f hm hs hf hv hty hj hmj hx =>
    obtain ⟨k, ws, rfl, hws, rfl⟩ := norm_structAt hm hs hw
    obtain ⟨n, w, hn, hwi⟩ := normFields_at hws hf hv hx
    simp only [valAt, hwi, Option.bind_some]
    have hr : repeated Γ f = false := by unfold repeated; rw [hty]; simp only [hj]
    unfold normField at hn
    split at hn
    · rename_i ho
      unfold omits at ho
      rw [hty] at ho hn
      simp only [pointee, Ty.deref, hj, dflt, Bool.false_and, Bool.false_or, hr, Bool.false_eq_true, if_false,
        Bool.and_eq_true] at ho
      simp only [absent, Ty.deref, hj, refs] at hn
      cases k with
      | zero => simp [blank] at ho
      | succ k =>
        have hb := ho.2
        unfold blank at hb
        rw [hmj] at hb
        simp only [blankShape, hj, Bool.and_eq_true, beq_iff_eq] at hb
        rw [hb.1, hb.2]
        exact hn.symm
    · rw [hty, hr] at hn
      simp only [pointee, Option.bind_some, Bool.false_eq_true, if_false, Option.map_eq_some_iff, Ty.deref] at hn
      obtain ⟨w', hw', rfl⟩ := hn
      rw [norm_time hmj hj hw']
      rfl
  | @field _ j fs vs i f x p hm hs hf hv hty hx ht => cases ht

theorem norm_timeAt {s ns : Int} {id : TId} {v : Val} {p : List Nat} (h : TimeAt Γ s ns id v p) (hne : ¬(s = 0 ∧ ns = 0)) :
    ∀ fuel fo w, norm Γ c fuel id v fo = some w → valAt w p = some (.time s ns) := by
  induction h with
  | @here id j fs vs i f hm hs hf hv hty hj hmj hx =>
    intro fuel fo w hw
    exact norm_here (.here hm hs hf hv hty hj hmj hx) hw
  | @field id j fs vs i f x p hm hs hf hv hty hx ht ih =>
    intro fuel fo w hw
    obtain ⟨k, ws, rfl, hws, rfl⟩ := norm_structAt hm hs hw
    obtain ⟨n, w, hn, hwi⟩ := normFields_at hws hf hv hx
    obtain ⟨gs, us, hj, hmj, rfl⟩ := ht.struct
    simp only [valAt, hwi, Option.bind_some]
    have ho : omits Γ (blank Γ k) f n (.struct us) = false := by
      unfold omits
      rw [repeated_struct hty hj, hty]
      simp only [pointee, Ty.deref, hj, dflt, Bool.false_and, Bool.false_or, Bool.false_eq_true, if_false]
      rw [blank_timeAt ht hne, Bool.and_false]
    unfold normField at hn
    rw [ho, repeated_struct hty hj, hty] at hn
    simp only [pointee, Option.bind_some, Bool.false_eq_true, if_false, Option.map_eq_some_iff, Ty.deref, refs] at hn
    obtain ⟨w', hw', rfl⟩ := hn
    exact ih _ _ _ hw'
  | @elem id l j fs vs xs i k f x p hm hs hf hv hty hl hx hk ht ih =>
    intro fuel fo w hw
    obtain ⟨m, ws, rfl, hws, rfl⟩ := norm_structAt hm hs hw
    obtain ⟨n, w, hn, hwi⟩ := normFields_at hws hf hv hx
    obtain ⟨gs, us, hj, hmj, rfl⟩ := ht.struct
    simp only [valAt, hwi, Option.bind_some]
    have hr : repeated Γ f = true := by
      unfold repeated
      rw [hty]
      rcases hl with hl | ⟨m, hl⟩ <;> simp only [hl] <;> exact lenKind_struct hj
    have ho := omits_list (bl := blank Γ m) (n := n) hty hr (xs := xs) (by intro h; subst h; simp at hk)
    unfold normField at hn
    rw [ho, hr, hty] at hn
    simp only [pointee, Option.bind_some, Bool.false_eq_true, if_false, if_true, Ty.deref] at hn
    have hel : ∃ ys, normElems Γ (blank Γ m) (norm Γ c m) (.base j) { f.opts with fnum := n } xs = some ys ∧ w = .list ys := by
      unfold normList at hn
      rcases hl with hl | ⟨m, hl⟩ <;> simp only [hl, Option.map_eq_some_iff] at hn <;> obtain ⟨ys, hys, rfl⟩ := hn
      · refine ⟨ys, hys, ?_⟩
        obtain ⟨w, _, hw⟩ := normElems_at (lenKind_struct hj) hys hk
        have : (ys.length == 0) = false := by
          cases ys with
          | nil => simp at hw
          | cons _ _ => rfl
        rw [this]; rfl
      · exact ⟨ys, hys, rfl⟩
    obtain ⟨ys, hys, rfl⟩ := hel
    obtain ⟨w, hn, hwk⟩ := normElems_at (lenKind_struct hj) hys hk
    simp only [valAt, hwk, Option.bind_some]
    unfold normElem at hn
    simp only [pointee, Ty.deref, hj, dflt, Bool.false_or] at hn
    rw [blank_timeAt ht hne] at hn
    simp only [Bool.false_and, Bool.false_eq_true, if_false, Option.map_eq_some_iff, refs] at hn
    obtain ⟨w', hw', rfl⟩ := hn
    exact ih _ _ _ hw'

/-- C43: a time in a message, in a field or at any depth of structs nested by value in fields and lists, comes back
unchanged from a round trip, provided it is not the 1970 epoch or it is a field of the message itself.

Missing for the full statement: the epoch inside nested structs, where it is false if nothing else is in the nested
struct (`C43_refuted`). -/
theorem C43_time_partial (hU : Universe Γ c S) (hZ : ZeroOk Γ) (hT : Γ.Typed) (hum : UserTotal Γ) (hp4 : Prefix4 c)
    {id : TId} {v : Val} {s ns : Int} {p : List Nat} {bz : Bytes} {f g : Nat}
    (hS : S id { fnum := 1 }) (ht : HasTy Γ (.base id) v) (hp : TimeAt Γ s ns id v p)
    (hne : ¬(s = 0 ∧ ns = 0) ∨ p.length = 1)
    (h : marshalBare Γ c f (.base id) v = .ok bz) (hl : bz.length < 2 ^ 63) (hg : 2 * f ≤ g) :
    ∃ w, unmarshalBare Γ c g (.base id) (Γ.zero id) bz = .ok w ∧ valAt w p = some (.time s ns) := by
  have hs : Γ.structOrRep id = true := by
    obtain ⟨fs, _, hs, _, _⟩ := hp.struct
    unfold Prog.structOrRep Prog.isStruct
    simp only [hs]
  obtain ⟨w, hw, _, hu⟩ := C11_roundTrip hU hZ hT hum hp4 (t := .base id) (t' := .base id) hs hS ht h hl hg rfl
  refine ⟨w, hu, ?_⟩
  unfold roundTrip at hw
  simp only [pointee, Option.bind_some, Ty.deref] at hw
  rcases hne with hne | hlen
  · exact norm_timeAt hp hne _ _ _ hw
  · match p, hlen with
    | [i], _ => exact norm_here hp hw

/-- C43 is false for the epoch in a nested struct: `Outer{Inner{1970-01-01}}` comes back as the year 1. -/
theorem C43_refuted :
    marshalBare Demo.prog Demo.codec 12 (.base Demo.outerT) (.struct [.struct [.time 0 0]]) = .ok [] ∧
    unmarshalBare Demo.prog Demo.codec 12 (.base Demo.outerT) (Demo.zero Demo.outerT) [] =
      .ok (.struct [.struct [.time (-62135596800) 0]]) := by
  decide +kernel

/-- The uses of `Outer`, `Inner` and `time.Time`. -/
def Demo.S3 (id : TId) (_ : FOpts) : Prop := id = Demo.outerT ∨ id = Demo.innerT ∨ id = Demo.timeT

theorem Demo.univ_outer : Universe Demo.prog Demo.codecFoo Demo.S3 where
  noMap _ := Demo.shape_map
  registered h hs := by rcases h with rfl | rfl | rfl <;> cases hs
  floats _ h := (Demo.shape_struct h).2.1
  marsh _ h := by simp [Demo.prog] at h
  noMarsh _ _ := rfl
  slice h hs := by rcases h with rfl | rfl | rfl <;> cases hs
  array h hs := by rcases h with rfl | rfl | rfl <;> cases hs
  struct h hs _ := by
    rcases h with rfl | rfl | rfl <;> cases hs
    · exact ⟨⟨by simp [noIfacePtr, Ty.isPtr], by simp [repeated, Demo.prog, Demo.shape, Demo.innerT],
        fun _ => ⟨.inr (.inl rfl), fun _ => rfl⟩⟩, trivial⟩
    · exact ⟨⟨by simp [noIfacePtr, Ty.isPtr], by simp [repeated, Demo.prog, Demo.shape, Demo.timeT],
        fun _ => ⟨.inr (.inr rfl), fun _ => rfl⟩⟩, trivial⟩
  iface h hs := by rcases h with rfl | rfl | rfl <;> cases hs

/-- `Outer{Inner{1970-01-01T00:00:01Z}}`. -/
example : ∃ w, unmarshalBare Demo.prog Demo.codecFoo 10 (.base Demo.outerT) (Demo.prog.zero Demo.outerT) [10, 4, 10, 2, 8, 1] = .ok w ∧
    valAt w [0, 0] = some (.time 1 0) := by
  have hi : HasTy Demo.prog (.base Demo.timeT) (.time 1 0) := .time rfl (by decide) (by decide) (by decide) (by decide)
  refine C43_time_partial Demo.univ_outer Demo.prog_zero Demo.prog_typed Demo.user_total Demo.prefix4_foo (id := Demo.outerT)
    (v := .struct [.struct [.time 1 0]]) (f := 5) (.inl rfl) ?_ ?_ (.inl (by decide)) (by decide +kernel) (by decide) (by omega)
  · refine .struct (fs := _) rfl rfl ?_
    simp
    refine .struct (fs := _) rfl rfl ?_
    simpa using hi
  · exact .field rfl rfl rfl rfl rfl rfl (.here rfl rfl rfl rfl rfl rfl rfl rfl)

end Amino
