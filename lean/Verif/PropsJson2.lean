import Verif.SpecJson2
import Verif.PropsJson
import Verif.PropsStale

/-!
# Further properties of UnmarshalJSON
-/

namespace Amino
open Spec

variable {Γ : Prog} {c : Codec} {J : JLib} {S : TId → Prop}

/-! ## C60: no panic on arbitrary bytes -/

/-- C60: UnmarshalJSON on any bytes but a lone quote terminates with an error or a value of the type. -/
theorem C60_json_no_panic_partial {rank : TId → Nat} {R : Nat} (hU : JSafe Γ c J S rank R) (hL : LibTy J) (hT : Γ.Typed)
    {t : Ty} (hS : JOk Γ S t) {p : Val} (hp : HasTy Γ t p) {bz : Bytes} (hq : bz ≠ [0x22]) {f : Nat}
    (hf : bz.length * (R + 1) + rank t.deref < f) :
    (∃ e, unmarshalJSON Γ c J f t p bz = .err e) ∨ ∃ v, unmarshalJSON Γ c J f t p bz = .ok v ∧ HasTy Γ t v := by
  rw [unmarshalJSON]
  split
  · exact .inl ⟨_, rfl⟩
  rename_i hne
  rw [hU.info hS.1, Res.bind_ok]
  have hfin : ∀ {b : Bytes}, b ≠ [] → b ≠ [0x22] → b.length ≤ bz.length →
      (∃ e, jdec Γ c J f t p {} b = .err e) ∨ ∃ v, jdec Γ c J f t p {} b = .ok v ∧ HasTy Γ t v := by
    intro b h1 h2 h3
    have hle : b.length * (R + 1) ≤ bz.length * (R + 1) := Nat.mul_le_mul_right _ h3
    have := jdec_fine hU hL hT.zero (fo := {}) hS hp h1 h2 (f := f) (by omega)
    cases hd : jdec Γ c J f t p {} b with
    | ok v => rw [hd] at this; exact .inr ⟨v, rfl, this⟩
    | err e => exact .inl ⟨e, rfl⟩
    | panic q => rw [hd] at this; exact this.elim
    | oof => rw [hd] at this; exact this.elim
  split
  · rcases decodeInterfaceJSON_cases bz with ⟨nd, hnd⟩ | ⟨e, he⟩
    · rw [hnd, Res.bind_ok]
      split
      · exact .inl ⟨_, rfl⟩
      · have := decodeInterfaceJSON_inner hnd
        exact hfin this.2.1 this.2.2 (by have := this.1; omega)
    · rw [he]; exact .inl ⟨e, rfl⟩
  · exact hfin hne hq (Nat.le_refl _)

/-- C60 is violated: a lone quote read into an int64 (json-decode.go:104-108: the same byte is taken for the opening
and the closing quote, and `bz[1:0]` panics). -/
theorem C60_refuted (g : Nat) (p : Val) :
    unmarshalJSON JDemo.prog JDemo.codec JDemo.lib (g + 1) (.base JDemo.int64T) p [0x22] = .panic .index := by
  rfl

namespace JDemo
example (bz : Bytes) (hq : bz ≠ [0x22]) :
    (∃ e, unmarshalJSON prog codec lib (bz.length * 2 + 1) (.base recT) (prog.zero recT) bz = .err e) ∨
      ∃ v, unmarshalJSON prog codec lib (bz.length * 2 + 1) (.base recT) (prog.zero recT) bz = .ok v ∧
        HasTy prog (.base recT) v :=
  C60_json_no_panic_partial jsafe libTy typed ⟨trivial, by simp [Ty.isPtr]⟩ (typed.zero recT) hq
    (by simp [Ty.deref, rank, recT, centsT])
end JDemo

/-! ## C61: what is accepted as an integer -/

theorem skipWs_white (bz : Bytes) : ∃ p, bz = p ++ skipWs bz ∧ White p := by
  induction bz with
  | nil => exact ⟨[], rfl, by simp [White]⟩
  | cons c r ih =>
    rw [skipWs]
    split
    · rename_i hc
      obtain ⟨p, hp, hw⟩ := ih
      refine ⟨c :: p, by rw [List.cons_append, ← hp], ?_⟩
      intro x hx
      rcases List.mem_cons.mp hx with rfl | hx
      · simp only [isWs, Bool.or_eq_true, beq_iff_eq] at hc
        rcases hc with ((h | h) | h) | h <;> simp [h]
      · exact hw x hx
    · exact ⟨[], rfl, by simp [White]⟩

theorem isDigit_iff {c : UInt8} : isDigit c = true ↔ Digit c := by simp [isDigit, Digit]

theorem parseDigits_inv {ds : Bytes} {a n : Nat} (h : parseDigits ds a = some n) :
    (∀ x ∈ ds, Digit x) ∧ n = ds.foldl (fun n d => 10 * n + (d.toNat - 48)) a := by
  induction ds generalizing a with
  | nil => cases h; exact ⟨by simp, rfl⟩
  | cons c r ih =>
    rw [parseDigits] at h
    split at h
    · rename_i hc
      obtain ⟨h1, h2⟩ := ih h
      simp only [List.mem_cons, forall_eq_or_imp]
      exact ⟨⟨isDigit_iff.mp hc, h1⟩, by rw [h2, List.foldl_cons, Nat.mul_comm]⟩
    · cases h

theorem digits_skipNumAbs {ds r : Bytes} (h : ∀ x ∈ ds, Digit x) (hne : ds ≠ []) (hs : skipNumAbs (ds ++ r) = some r) :
    IntPart ds := by
  cases ds with
  | nil => exact absurd rfl hne
  | cons d ds =>
    simp only [List.mem_cons, forall_eq_or_imp] at h
    by_cases h0 : d = 0x30
    · subst h0
      cases ds with
      | nil => exact .zero
      | cons x ds =>
        exfalso
        have hx := h.2 x (by simp)
        simp only [List.cons_append, skipNumAbs, if_true, skipFrac] at hs
        rw [if_neg (digit_ne hx (by decide)), skipExp.eq_def] at hs
        simp only at hs
        rw [if_neg] at hs
        · have := congrArg List.length (Option.some.inj hs)
          simp at this
          omega
        · rintro (e | e)
          · exact digit_ne hx (by decide) e
          · exact digit_ne hx (by decide) e
    · refine .pos ?_ h.1.2 h.2
      have := h.1.1
      rw [UInt8.le_iff_toNat_le] at this ⊢
      have hn : d.toNat ≠ 48 := fun e => h0 (UInt8.toNat_inj.mp e)
      have e1 : (0x30 : UInt8).toNat = 48 := rfl
      have e2 : (0x31 : UInt8).toNat = 49 := rfl
      omega

theorem skipVal_digit {n : Nat} {d : UInt8} {b : Bytes} (h : Digit d) : skipVal (n + 1) (d :: b) = skipNumAbs (d :: b) := by
  rw [skipVal, if_neg (digit_ne h (by decide)), if_neg (digit_ne h (by decide)), if_neg (digit_ne h (by decide)),
    if_neg (digit_ne h (by decide)), if_neg (digit_ne h (by decide)), if_neg (digit_ne h (by decide)), skipNum,
    if_neg (digit_ne h (by decide))]

theorem parseNat_inv {ds : Bytes} {n : Nat} (h : parseNat ds = some n) :
    ds ≠ [] ∧ (∀ x ∈ ds, Digit x) ∧ n = decVal ds := by
  unfold parseNat at h
  split at h
  · cases h
  · rename_i hne
    exact ⟨hne, parseDigits_inv h⟩

theorem wholeVal_inv {b raw : Bytes} (h : wholeVal b = some raw) :
    ∃ w1 w2, White w1 ∧ White w2 ∧ b = w1 ++ (raw ++ w2) ∧ skipVal (b.length + 1) (raw ++ w2) = some w2 := by
  unfold wholeVal at h
  cases hs : skipVal (b.length + 1) (skipWs b) with
  | none => rw [hs] at h; cases h
  | some r =>
    rw [hs, Option.bind_some] at h
    split at h
    · rename_i hr
      obtain ⟨p, hp⟩ := takes_skipVal _ _ _ hs
      rw [hp.before] at h
      cases h
      obtain ⟨w1, e1, h1⟩ := skipWs_white b
      obtain ⟨w2, e2, h2⟩ := skipWs_white r
      rw [hr, List.append_nil] at e2
      subst e2
      exact ⟨w1, r, h1, h2, by rw [← hp.eq]; exact e1, by rw [← hp.eq]; exact hs⟩
    · cases h

/-- A JSON number that `strconv.ParseInt` takes. -/
theorem parseInt_inv {n : Nat} {raw r : Bytes} {i : Int} (hs : skipVal (n + 1) (raw ++ r) = some r)
    (h : parseInt raw = some i) : IntText i raw := by
  cases raw with
  | nil => cases h
  | cons c ds =>
    rw [parseInt] at h
    split at h
    · rename_i hc
      subst hc
      cases hm : parseNat ds with
      | none => rw [hm] at h; cases h
      | some m =>
      rw [hm] at h
      cases h
      obtain ⟨hne, hd, rfl⟩ := parseNat_inv hm
      rw [List.cons_append, skipVal] at hs
      simp only [show ¬((0x2d : UInt8) = 0x22) from by decide, show ¬((0x2d : UInt8) = 0x5b) from by decide,
        show ¬((0x2d : UInt8) = 0x7b) from by decide, show ¬((0x2d : UInt8) = 0x6e) from by decide,
        show ¬((0x2d : UInt8) = 0x74) from by decide, show ¬((0x2d : UInt8) = 0x66) from by decide, if_false,
        skipNum, if_true] at hs
      exact .neg (digits_skipNumAbs hd hne hs)
    · cases hm : parseNat (c :: ds) with
      | none => rw [hm] at h; cases h
      | some m =>
      rw [hm] at h
      cases h
      obtain ⟨hne, hd, rfl⟩ := parseNat_inv hm
      rw [List.cons_append, skipVal_digit (hd c (by simp))] at hs
      exact .pos (digits_skipNumAbs hd hne (by rw [List.cons_append]; exact hs))

theorem unmInt_inv {k : IntKind} {old : Int} {b : Bytes} {i : Int} (h : unmInt k old b = some i) :
    ∃ w1 core w2, White w1 ∧ White w2 ∧ b = w1 ++ (core ++ w2) ∧
      ((core = jNull ∧ i = old) ∨ (IntText i core ∧ k.inRange i)) := by
  unfold unmInt at h
  cases hw : wholeVal b with
  | none => rw [hw] at h; cases h
  | some raw =>
    rw [hw, Option.bind_some] at h
    obtain ⟨w1, w2, h1, h2, e, hs⟩ := wholeVal_inv hw
    refine ⟨w1, raw, w2, h1, h2, e, ?_⟩
    split at h
    · rename_i hn; cases h; exact .inl ⟨hn, rfl⟩
    · right
      unfold parseIntKind at h
      split at h
      · cases h
      · obtain ⟨j, hj, h⟩ := Option.bind_eq_some_iff.mp h
        split at h
        · rename_i hr
          cases h
          exact ⟨parseInt_inv hs hj, hr⟩
        · cases h

/-- C61: a 64-bit integer is only ever read from a quoted text: a decimal number, or `null` in quotes, possibly with
white space around it inside the quotes (or from an unquoted `null`).  `null` in quotes
is read as 0. -/
theorem C61_json_int64_accepted_partial {id : TId} {k : IntKind} (hs : Γ.shape id = .int k) (hm : NoMethods Γ J id)
    (h64 : k.bits = 64) {g : Nat} {p : Val} {fo : FOpts} {bz : Bytes} {i : Int} (hn : bz ≠ jNull)
    (h : jdec Γ c J (g + 1) (.base id) p fo bz = .ok (.int i)) :
    ∃ w1 core w2, White w1 ∧ White w2 ∧ bz = 0x22 :: (w1 ++ (core ++ w2) ++ [0x22]) ∧
      ((core = jNull ∧ i = 0) ∨ (IntText i core ∧ k.inRange i)) := by
  rw [jdec_int hs hm _ _ _ _ hn, jdecInt, if_pos h64] at h
  split at h
  · cases h
  split at h
  · cases h
  split at h
  · cases h
  rename_i h0 h1 h2
  obtain ⟨j, hj, e⟩ := Res.bind_eq_ok h
  cases e
  have hj : unmInt k 0 (List.take (bz.length - 2) (List.drop 1 bz)) = some i := by
    cases hq : unmInt k 0 (List.take (bz.length - 2) (List.drop 1 bz)) with
    | none => rw [hq] at hj; cases hj
    | some x => rw [hq] at hj; cases hj; rfl
  obtain ⟨w1, core, w2, a1, a2, e, hc⟩ := unmInt_inv hj
  refine ⟨w1, core, w2, a1, a2, ?_, hc⟩
  rw [← e]
  simp only [not_or, Decidable.not_not] at h1
  cases bz with
  | nil => exact absurd rfl h0
  | cons q bz =>
    have hq : q = 0x22 := by simpa using h1.1
    subst hq
    congr 1
    have hne : bz ≠ [] := by rintro rfl; simp at h2
    have h3 := h1.2
    rw [List.getLast?_cons, Option.some.injEq] at h3
    rw [List.getLast?_eq_some_getLast hne] at h3
    simp only [Option.getD_some] at h3
    have := List.dropLast_concat_getLast hne
    rw [h3, List.dropLast_eq_take] at this
    simpa using this.symm

/-- C61: an integer of fewer bits is read from an unquoted decimal number or `null`, with white space around it; `null`
is read as 0. -/
theorem C61_json_int_accepted {id : TId} {k : IntKind} (hs : Γ.shape id = .int k) (hm : NoMethods Γ J id)
    (h64 : k.bits ≠ 64) {g : Nat} {p : Val} {fo : FOpts} {bz : Bytes} {i : Int} (hn : bz ≠ jNull)
    (h : jdec Γ c J (g + 1) (.base id) p fo bz = .ok (.int i)) :
    ∃ w1 core w2, White w1 ∧ White w2 ∧ bz = w1 ++ (core ++ w2) ∧
      ((core = jNull ∧ i = 0) ∨ (IntText i core ∧ k.inRange i)) := by
  rw [jdec_int hs hm _ _ _ _ hn, jdecInt, if_neg h64] at h
  obtain ⟨j, hj, e⟩ := Res.bind_eq_ok h
  cases e
  have hj : unmInt k 0 bz = some i := by
    cases hq : unmInt k 0 bz with
    | none => rw [hq] at hj; cases hj
    | some x => rw [hq] at hj; cases hj; rfl
  exact unmInt_inv hj

/-- C61 is violated: `"null"` (with the quotes) is accepted for an int64 and gives 0, and `" 5 "` is read as 5. -/
theorem C61_refuted (p : Val) :
    unmarshalJSON JDemo.prog JDemo.codec JDemo.lib 1 (.base JDemo.int64T) p [0x22, 0x6e, 0x75, 0x6c, 0x6c, 0x22] =
      .ok (.int 0) ∧
    unmarshalJSON JDemo.prog JDemo.codec JDemo.lib 1 (.base JDemo.int64T) p [0x22, 0x20, 0x35, 0x20, 0x22] =
      .ok (.int 5) := by
  constructor <;> rfl

namespace JDemo
example : ∃ w1 core w2, White w1 ∧ White w2 ∧ [0x22, 0x20, 0x35, 0x22] = 0x22 :: (w1 ++ (core ++ w2) ++ [0x22]) ∧
    ((core = jNull ∧ (5 : Int) = 0) ∨ (IntText 5 core ∧ IntKind.int64.inRange 5)) :=
  C61_json_int64_accepted_partial (Γ := prog) (c := codec) (J := lib) (id := int64T) (g := 0) (p := .int 7) (fo := {}) rfl
    (noMethods (by decide)) rfl (by decide) rfl
end JDemo

/-! ## C63: order of members, unknown members -/

variable {rec : Ty → Val → FOpts → Bytes → Res Val}

theorem lookup_assocSet {k n : Bytes} {a : Bytes} {l : List (Bytes × Bytes)} :
    (assocSet k a l).lookup n = if n = k then some a else l.lookup n := by
  induction l with
  | nil =>
    by_cases h : n = k
    · simp [assocSet, h]
    · have h' : (n == k) = false := by simpa using h
      simp [assocSet, List.lookup, h, h']
  | cons q l ih =>
    unfold assocSet
    split
    · rename_i hq
      by_cases h : n = k
      · simp [List.lookup, h]
      · have h' : (n == k) = false := by simpa using h
        simp [List.lookup, h, h', hq]
    · rename_i hq
      simp only [List.lookup, ih]
      by_cases h : n = k
      · subst h
        have h' : (n == q.1) = false := by simpa using fun e => hq e.symm
        simp [h']
      · simp [h]

theorem lookup_assocOf (n : Bytes) (l acc : List (Bytes × Bytes)) :
    (assocOf l acc).lookup n = (lastOf l n).or (acc.lookup n) := by
  induction l generalizing acc with
  | nil => rfl
  | cons q l ih =>
    rw [assocOf, ih, lookup_assocSet]
    unfold lastOf
    rw [List.reverse_cons, List.lookup_append]
    cases hh : List.lookup n l.reverse with
    | some x => simp
    | none =>
      by_cases h : n = q.1
      · simp [List.lookup, h]
      · have h' : (n == q.1) = false := by simpa using h
        simp [List.lookup, h, h']

theorem jdecFields_lookup (fo : FOpts) {m m' : List (Bytes × Bytes)} : ∀ (fs : List Field) (ps : List Val),
    (∀ f ∈ fs, f.visible = true → m.lookup f.opts.jsonName = m'.lookup f.opts.jsonName) →
    jdecFields Γ c rec fo m fs ps = jdecFields Γ c rec fo m' fs ps
  | [], [], _ => rfl
  | [], _ :: _, _ => rfl
  | _ :: _, [], _ => rfl
  | f :: fs, p :: ps, h => by
    have ih := jdecFields_lookup fo fs ps fun f hf => h f (by simp [hf])
    rw [jdecFields, jdecFields, ih]
    split
    · rename_i hv
      have : jdecField Γ rec fo m f p = jdecField Γ rec fo m' f p := by
        unfold jdecField
        rw [h f (by simp) hv]
      rw [this]
    · rfl

/-- C63: two object texts that give the same (last) value to every field of a struct are read alike: the order of the
members, and members that are no fields, do not matter. -/
theorem C63_json_members {id : TId} {fs : List Field} (hs : Γ.shape id = .struct fs) (hm : NoMethods Γ J id)
    {ms ms' : List (Bytes × Bytes)} (hu : ∀ m ∈ ms ++ ms', Utf8 m.1) (hj : ∀ m ∈ ms ++ ms', JText m.2)
    (hl : ∀ f ∈ fs, f.visible = true → lastOf ms f.opts.jsonName = lastOf ms' f.opts.jsonName)
    (t : Ty) (ht : t.deref = id) (g : Nat) (p : Val) (fo : FOpts) :
    jdec Γ c J (g + 1) t p fo (0x7b :: (commas (ms.map fun m => quoteStr m.1 ++ 0x3a :: m.2) ++ [0x7d])) =
      jdec Γ c J (g + 1) t p fo (0x7b :: (commas (ms'.map fun m => quoteStr m.1 ++ 0x3a :: m.2) ++ [0x7d])) := by
  have hsan : ∀ l : List (Bytes × Bytes), (∀ m ∈ l, Utf8 m.1) → (l.map fun m => (sanitize m.1, m.2)) = l := by
    intro l hl
    conv => rhs; rw [← List.map_id l]
    refine List.map_congr_left fun m hm => ?_
    rw [sanitize_utf8 (hl m hm)]
    rfl
  subst ht
  have hb : ∀ p, jdecBase Γ c J (jdec Γ c J g) t.deref p fo (0x7b :: (commas (ms.map fun m => quoteStr m.1 ++ 0x3a :: m.2) ++ [0x7d])) =
      jdecBase Γ c J (jdec Γ c J g) t.deref p fo (0x7b :: (commas (ms'.map fun m => quoteStr m.1 ++ 0x3a :: m.2) ++ [0x7d])) := by
    intro p
    unfold jdecBase
    simp only [hm.unjson, hm.unmarsh, ite_self, jdecShape, hs]
    rw [unmRawMap_obj fun m hm => hj m (by simp [hm]), unmRawMap_obj fun m hm => hj m (by simp [hm]),
      hsan _ fun m hm => hu m (by simp [hm]), hsan _ fun m hm => hu m (by simp [hm])]
    simp only [ofOpt, Res.bind_ok]
    cases p <;> try rfl
    simp only
    rw [jdecFields_lookup fo fs _ fun f hf hv => ?_]
    rw [lookup_assocOf, lookup_assocOf, hl f hf hv]
  rw [jdec, jdec, hb, if_neg (show ¬ _ = jNull by simp [jNull]), if_neg (show ¬ _ = jNull by simp [jNull])]

theorem lookup_permJ {n : Bytes} {l l' : List (Bytes × Bytes)} (h : l.Perm l') (hn : (l.map (·.1)).Nodup) :
    l.lookup n = l'.lookup n := by
  induction h with
  | nil => rfl
  | cons q h ih =>
    simp only [List.map_cons, List.nodup_cons] at hn
    simp only [List.lookup, ih hn.2]
  | swap a b l =>
    simp only [List.map_cons, List.nodup_cons, List.mem_cons, not_or] at hn
    simp only [List.lookup]
    by_cases h : n = a.1
    · have : (n == b.1) = false := by rw [h]; simpa using fun e => hn.1.1 e.symm
      simp [this]
    · have : (n == a.1) = false := by simpa using h
      simp [this]
  | trans h1 h2 ih1 ih2 => rw [ih1 hn, ih2 ((h1.map _).nodup_iff.mp hn)]

/-- C63: the order of the members does not matter. -/
theorem C63_json_member_order {id : TId} {fs : List Field} (hs : Γ.shape id = .struct fs) (hm : NoMethods Γ J id)
    {ms ms' : List (Bytes × Bytes)} (hu : ∀ m ∈ ms, Utf8 m.1) (hj : ∀ m ∈ ms, JText m.2) (hn : (ms.map (·.1)).Nodup)
    (hp : ms.Perm ms') (t : Ty) (ht : t.deref = id) (g : Nat) (p : Val) (fo : FOpts) :
    jdec Γ c J (g + 1) t p fo (0x7b :: (commas (ms.map fun m => quoteStr m.1 ++ 0x3a :: m.2) ++ [0x7d])) =
      jdec Γ c J (g + 1) t p fo (0x7b :: (commas (ms'.map fun m => quoteStr m.1 ++ 0x3a :: m.2) ++ [0x7d])) := by
  have hmem : ∀ m ∈ ms ++ ms', m ∈ ms := by
    intro m hm
    rcases List.mem_append.mp hm with h | h
    · exact h
    · exact hp.mem_iff.mpr h
  refine C63_json_members hs hm (fun m h => hu m (hmem m h)) (fun m h => hj m (hmem m h)) (fun f _ _ => ?_) t ht g p fo
  unfold lastOf
  refine lookup_permJ ((List.reverse_perm ms).trans (hp.trans (List.reverse_perm ms').symm)) ?_
  rw [List.map_reverse]
  exact (List.reverse_perm _).nodup_iff.mpr hn

/-- C63: a member that is no field of the struct does not matter. -/
theorem C63_json_unknown_member {id : TId} {fs : List Field} (hs : Γ.shape id = .struct fs) (hm : NoMethods Γ J id)
    {l r : List (Bytes × Bytes)} {x : Bytes × Bytes} (hu : ∀ m ∈ l ++ x :: r, Utf8 m.1) (hj : ∀ m ∈ l ++ x :: r, JText m.2)
    (hx : ∀ f ∈ fs, f.visible = true → f.opts.jsonName ≠ x.1) (t : Ty) (ht : t.deref = id) (g : Nat) (p : Val) (fo : FOpts) :
    jdec Γ c J (g + 1) t p fo (0x7b :: (commas ((l ++ x :: r).map fun m => quoteStr m.1 ++ 0x3a :: m.2) ++ [0x7d])) =
      jdec Γ c J (g + 1) t p fo (0x7b :: (commas ((l ++ r).map fun m => quoteStr m.1 ++ 0x3a :: m.2) ++ [0x7d])) := by
  have hmem : ∀ m ∈ (l ++ x :: r) ++ (l ++ r), m ∈ l ++ x :: r := by
    intro m hm
    simp only [List.mem_append, List.mem_cons] at hm ⊢
    rcases hm with h | h | h
    · exact h
    · exact .inl h
    · exact .inr (.inr h)
  refine C63_json_members hs hm (fun m h => hu m (hmem m h)) (fun m h => hj m (hmem m h)) (fun f hf hv => ?_) t ht g p fo
  have h' : (f.opts.jsonName == x.1) = false := by simpa using hx f hf hv
  unfold lastOf
  simp [List.lookup_append, List.lookup, h']

namespace JDemo
theorem utf8_one {a : UInt8} (h : a < 0x80) : Utf8 [a] := .cons (.one h) .nil

/-- `{"N":"5","x":5}` and `{"x":5,"N":"5"}` -/
example (g : Nat) (p : Val) :
    jdec prog codec lib (g + 1) (.base fooT) p {} (0x7b :: (commas ([([0x4e], [0x22, 0x35, 0x22]), ([0x78], [0x35])].map
        fun m => quoteStr m.1 ++ 0x3a :: m.2) ++ [0x7d])) =
      jdec prog codec lib (g + 1) (.base fooT) p {} (0x7b :: (commas ([([0x78], [0x35]), ([0x4e], [0x22, 0x35, 0x22])].map
        fun m => quoteStr m.1 ++ 0x3a :: m.2) ++ [0x7d])) := by
  refine C63_json_member_order (id := fooT) rfl (noMethods (by decide)) ?_ ?_ (by decide) (List.Perm.swap _ _ _) _ rfl g p {}
  · intro m hm
    simp only [List.mem_cons, List.not_mem_nil, or_false] at hm
    rcases hm with rfl | rfl <;> exact utf8_one (by decide)
  · intro m hm
    simp only [List.mem_cons, List.not_mem_nil, or_false] at hm
    rcases hm with rfl | rfl
    · exact .str (strText_quoteStr [0x35])
    · exact .num (.pos (i := [0x35]) (f := []) (e := []) (.pos (by decide) (by decide) (by simp)) .none .none)
end JDemo

end Amino
