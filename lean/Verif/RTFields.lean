import Verif.RTDec

/-!
# The binary round trip: struct fields, interfaces, and the main induction
-/

namespace Amino
open Spec

section
variable {Γ : Prog} {c : Codec} {S : TId → FOpts → Prop}
  {rec : TId → Val → FOpts → Bool → Res Bytes} {bl : TId → Val → FOpts → Bool}
  {nm : TId → Val → FOpts → Option Val} {rd : Ty → Val → FOpts → Bool → Bytes → DRes Val}

/-- The number of the last encoded field. -/
def lastNum : Nat → List Field → Nat
  | num, [] => num
  | num, f :: fs => lastNum (if f.visible then num + 1 else num) fs

theorem le_lastNum (num : Nat) (fs : List Field) : num ≤ lastNum num fs := by
  induction fs generalizing num with
  | nil => exact Nat.le_refl _
  | cons f fs ih =>
    unfold lastNum
    refine Nat.le_trans ?_ (ih _)
    split <;> omega

/-- Bytes that may follow the fields of a struct: unknown fields with larger numbers. -/
structure TailOk (N : Nat) (tail : Bytes) : Prop where
  starts : Starts N tail
  consume : ∀ last n, last ≤ N → consumeRest tail.length last tail n = .ok (n + tail.length) ()

theorem tailOk_nil (N : Nat) : TailOk N [] where
  starts := .inl rfl
  consume := by intro last n _; simp [consumeRest]

/-- Decoding a repeated list field, followed by later fields. -/
def ListRT (Γ : Prog) (c : Codec) (S : TId → FOpts → Prop) (bl : TId → Val → FOpts → Bool)
    (nm : TId → Val → FOpts → Option Val) (rec : TId → Val → FOpts → Bool → Res Bytes)
    (rd : Ty → Val → FOpts → Bool → Bytes → DRes Val) : Prop :=
  ∀ id e fo v b rest w, (Γ.shape id).elem? = some e → Γ.isByteKind e = false → Γ.unmarsh id = none →
    ElemOk Γ S e fo → lenKind Γ e.deref = true → HasTy Γ (.base id) v →
    encList Γ c rec e v fo true = .ok b → b.length < 2 ^ 63 → Starts fo.fnum rest →
    normList Γ bl nm (Γ.shape id) fo v = some w →
    rd (.base id) (Γ.zero id) fo true (b ++ rest) = .ok b.length w

theorem unpackedList_inv {f : Field} (h : Γ.unpackedList f = true) :
    ∃ id e, f.ty = .base id ∧ (Γ.shape id).elem? = some e ∧ Γ.isByteKind e = false ∧
      lenKind Γ e.deref = true := by
  unfold Prog.unpackedList at h
  split at h
  · cases h
  · rename_i id hid
    have key : ∀ e, (!Γ.isByteKind e && Γ.typ3 e.deref f.opts == typ3ByteLength) = true →
        Γ.isByteKind e = false ∧ lenKind Γ e.deref = true := by
      intro e he
      simp only [Bool.and_eq_true, Bool.not_eq_true', beq_iff_eq] at he
      exact ⟨he.1, by rw [lenKind_eq]; exact isLen_iff.mpr he.2⟩
    split at h
    · rename_i e hs
      exact ⟨id, e, hid, by rw [hs]; rfl, key e h⟩
    · rename_i n e hs
      exact ⟨id, e, hid, by rw [hs]; rfl, key e h⟩
    · cases h

/-- An encoded field is empty or starts with its key. -/
theorem encField_form {f : Field} {num : Nat} {v : Val} {b : Bytes} (h : encField Γ c rec f num v = .ok b) :
    b = [] ∨ ∃ ty b', b = varint (8 * num + ty) ++ b' ∧ ty < 8 ∧ num < 2 ^ 29 := by
  unfold encField at h
  obtain ⟨_, _, h⟩ := Res.bind_eq_ok h
  split at h
  · split at h <;> simp at h
    exact .inl h
  · split at h
    · simp at h; exact .inl h
    · split at h
      · rename_i hu
        obtain ⟨id, e, hid, he, _, hlk⟩ := unpackedList_inv hu
        rw [hid] at h
        simp only [Ty.deref, he] at h
        unfold encList at h
        obtain ⟨_, _, h⟩ := Res.bind_eq_ok h
        split at h
        · simp [framed] at h; exact .inl h
        · rename_i vs _ _ _
          obtain ⟨buf, hb, h⟩ := Res.bind_eq_ok h
          simp [framed] at h
          subst h
          rw [if_neg (by simpa using isLen_iff.mp (by rwa [lenKind_eq] at hlk))] at hb
          cases vs with
          | nil => simp [encUnpacked] at hb; exact .inl hb
          | cons v vs =>
            unfold encUnpacked at hb
            obtain ⟨k, hk, hb⟩ := Res.bind_eq_ok hb
            obtain ⟨b1, _, hb⟩ := Res.bind_eq_ok hb
            obtain ⟨b2, _, hb⟩ := Res.bind_eq_ok hb
            simp at hb
            obtain ⟨hk, hn⟩ := encodeKey_ok hk (by decide)
            exact .inr ⟨typ3ByteLength, b1 ++ b2, by rw [← hb, hk], by decide, hn⟩
        · simp at h
      · unfold writeField at h
        obtain ⟨k, hk, h⟩ := Res.bind_eq_ok h
        obtain ⟨b1, _, h⟩ := Res.bind_eq_ok h
        obtain ⟨hk, hn⟩ := encodeKey_ok hk (typ3_lt _ _ _)
        split at h
        · simp at h; exact .inl h
        · simp at h
          exact .inr ⟨_, b1, by rw [← h, hk], typ3_lt _ _ _, hn⟩

/-- What follows field number `num` starts with a larger number. -/
theorem encFields_starts {num : Nat} {fs : List Field} {vs : List Val} {b tail : Bytes}
    (h : encFields Γ c rec num fs vs = .ok b) (ht : Starts (lastNum num fs) tail) : Starts num (b ++ tail) := by
  induction fs generalizing num vs b with
  | nil =>
    cases vs with
    | nil => simp [encFields] at h; subst h; exact ht
    | cons => simp [encFields] at h
  | cons f fs ih =>
    cases vs with
    | nil => simp [encFields] at h
    | cons v vs =>
      unfold encFields at h
      unfold lastNum at ht
      cases hv : f.visible with
      | false =>
        rw [hv] at h ht
        simp at h ht
        exact ih h ht
      | true =>
        rw [hv] at h ht
        simp at h ht
        obtain ⟨b1, h1, h⟩ := Res.bind_eq_ok h
        obtain ⟨b2, h2, h⟩ := Res.bind_eq_ok h
        simp at h
        subst h
        rcases encField_form h1 with rfl | ⟨ty, b', rfl, hty, hn⟩
        · simpa using (ih h2 ht).mono (Nat.le_succ _)
        · refine .inr ⟨(varint (8 * (num + 1) + ty)).length, num + 1, ty, ?_, by omega⟩
          rw [List.append_assoc, List.append_assoc]
          exact decodeKey_varint _ _ hn hty _

/-- What a repeated list field that is omitted decodes to. -/
theorem omitted_list (hl : ListRT Γ c S bl nm rec rd) (hU : Universe Γ c S) (hZ : ZeroOk Γ) {f : Field} {num : Nat}
    {v : Val} {rest : Bytes} (hf : FieldOk Γ S f num) (ht : HasTy Γ f.ty v) (hu : Γ.unpackedList f = true)
    (ho : omits Γ bl f num v = true) (hs : Starts num rest) :
    rd f.ty (Γ.zeroTy f.ty) { f.opts with fnum := num } true rest = .ok 0 (Γ.defaultValue f.ty) := by
  obtain ⟨id, e, hid, he, hbk, hlk⟩ := unpackedList_inv hu
  obtain ⟨_, hum, hel⟩ := hf.rep (by rw [repeated_eq]; exact hu)
  rw [hid] at ht hum hel ⊢
  have hok := hel e he
  have hinfo := getInfo_ok hU hok.2
  have key : ∃ dv, HasTy Γ (.base id) dv ∧ encList Γ c rec e dv { f.opts with fnum := num } true = .ok [] ∧
      normList Γ bl nm (Γ.shape id) { f.opts with fnum := num } dv = some (Γ.zero id) := by
    cases hsh : Γ.shape id with
    | slice e' =>
      rw [hsh] at he
      simp [Shape.elem?] at he
      subst he
      refine ⟨.nil, .sliceNil hsh, ?_, ?_⟩
      · unfold encList; rw [hinfo]; rfl
      · rw [hZ.slice hsh]; rfl
    | array n e' =>
      rw [hsh] at he
      simp [Shape.elem?] at he
      subst he
      unfold omits at ho
      rw [repeated_eq, hu, hid] at ho
      simp only [pointee, Ty.deref, hsh, if_true] at ho
      cases ht with
      | array hsh' _ hlen hvs =>
        rename_i vs
        rw [hsh] at hsh'; cases hsh'
        simp [dflt] at ho
        subst ho
        simp at hlen
        refine ⟨.list [], .array hsh hbk (by simpa using hlen) (by simp), ?_, ?_⟩
        · unfold encList; rw [hinfo]
          simp only [Res.bind_ok]
          split <;> rfl
        · rw [hZ.array hsh hbk, ← hlen]; rfl
      | arrayBytes hsh' hb' => rw [hsh] at hsh'; cases hsh'; rw [hbk] at hb'; cases hb'
      | _ => simp_all
    | _ => rw [hsh] at he; simp [Shape.elem?] at he
  obtain ⟨dv, hdt, hde, hdn⟩ := key
  have := hl id e { f.opts with fnum := num } dv [] rest _ he hbk hum hok hlk hdt hde (by simp) hs hdn
  simp only [Prog.zeroTy, List.nil_append, List.length_nil] at this ⊢
  rw [this]
  have hnt : Γ.shape id ≠ .time := by intro hh; rw [hh] at he; simp [Shape.elem?] at he
  unfold Prog.defaultValue
  cases hsh : Γ.shape id <;> simp [Ty.deref, hsh, Prog.zeroTy]
  exact absurd hsh hnt

/-- What may follow the fields of a struct, for a reader that knows further fields `gs`: they are read as `us`. -/
structure TailDec (Γ : Prog) (c : Codec) (rd : Ty → Val → FOpts → Bool → Bytes → DRes Val) (gs : List Field)
    (qs us : List Val) (N : Nat) (tail : Bytes) : Prop where
  starts : Starts N tail
  decode : ∀ last n, last ≤ N → decFields Γ c rd gs qs N last tail n = .ok (n + tail.length) us

theorem decFields_rt_app {gs : List Field} {qs us : List Val} (h : RecRT Γ S nm rec rd) (hp : RecPtr Γ rd) (hlead : RecLead Γ S bl rec)
    (hl : ListRT Γ c S bl nm rec rd) (hz : ∀ id, HasTy Γ (.base id) (Γ.zero id)) (hU : Universe Γ c S)
    (hZ : ZeroOk Γ) {num last n : Nat} {fs : List Field} {vs ws : List Val} {buf tail : Bytes}
    (hf : FieldsOk Γ S num fs) (ht : FieldsTy Γ fs vs) (he : encFields Γ c rec num fs vs = .ok buf)
    (hlen : buf.length < 2 ^ 63) (hlast : last ≤ num) (htail : TailDec Γ c rd gs qs us (lastNum num fs) tail)
    (hw : normFields Γ bl nm num fs vs = some ws) :
    decFields Γ c rd (fs ++ gs) ((fs.map fun f => Γ.zeroTy f.ty) ++ qs) num last (buf ++ tail) n =
      .ok (n + buf.length + tail.length) (ws ++ us) := by
  induction fs generalizing num last n vs ws buf with
  | nil =>
    cases vs with
    | nil =>
      simp [encFields] at he; simp [normFields] at hw
      subst he; subst hw
      simp only [List.map_nil, List.nil_append]
      rw [lastNum] at htail
      rw [htail.decode _ _ hlast]
      simp
    | cons => simp [encFields] at he
  | cons f fs ih =>
    cases vs with
    | nil => simp [encFields] at he
    | cons v vs =>
      have ht' := fieldsTy_cons.mp ht
      unfold encFields at he
      unfold normFields at hw
      unfold FieldsOk at hf
      unfold lastNum at htail
      simp only [List.map_cons, List.cons_append, decFields]
      cases hv : f.visible with
      | false =>
        rw [hv] at he hw hf htail
        simp only [Bool.not_false, if_true, Bool.false_eq_true, if_false, Option.map_eq_some_iff] at he hw hf htail ⊢
        obtain ⟨ws', hws, rfl⟩ := hw
        rw [ih hf ht'.2 he hlen hlast htail hws]
        simp only [DRes.map_ok]
        cases f.ty <;> rfl
      | true =>
        rw [hv] at he hw hf htail
        simp only [Bool.not_true, Bool.false_eq_true, if_false, if_true, Option.bind_eq_some_iff,
          Option.map_eq_some_iff] at he hw hf htail ⊢
        obtain ⟨b, hb, he⟩ := Res.bind_eq_ok he
        obtain ⟨bs, hbs, he⟩ := Res.bind_eq_ok he
        simp only [Res.ok.injEq] at he
        subst he
        rw [List.length_append] at hlen
        obtain ⟨w, hw1, ws', hws, rfl⟩ := hw
        have hom := encField_nil hlead hz hf.1 ht'.1 hb (by omega)
        have hih := fun last n (hlast : last ≤ num + 1) =>
          ih (last := last) (n := n) hf.2 ht'.2 hbs (by omega) hlast htail hws
        have hst : Starts (num + 1) (bs ++ tail) := encFields_starts hbs htail.starts
        have hinfo : getInfo Γ c f.ty.deref = .ok () := by
          unfold encField at hb
          obtain ⟨u, hu, _⟩ := Res.bind_eq_ok hb
          exact hu
        unfold infoThen
        rw [hinfo, List.append_assoc]
        simp only
        unfold normField at hw1
        by_cases ho : omits Γ bl f (num + 1) v = true
        · -- omitted
          have hb0 := hom.mpr ho
          subst hb0
          rw [if_pos ho] at hw1
          simp only [Option.some.injEq] at hw1
          rw [absent_eq] at hw1
          subst hw1
          simp only [List.nil_append]
          by_cases hz0 : (bs ++ tail).length = 0
          · rw [if_pos hz0, hih _ _ (by omega)]
            simp
          · rw [if_neg hz0]
            cases hu : Γ.unpackedList f with
            | true =>
              simp only [if_true]
              rw [omitted_list hl hU hZ hf.1 ht'.1 hu ho hst]
              simp only [DRes.andSlide, Nat.zero_le, if_true, List.drop_zero, Nat.add_zero]
              rw [hih _ _ (by omega)]
              simp
            | false =>
              simp only [Bool.false_eq_true, if_false]
              rcases hst with hst | ⟨m, fn, ty, hk, hfn⟩
              · rw [hst] at hz0; simp at hz0
              · rw [hk]
                simp only
                rw [if_pos hfn, hih _ _ (by omega)]
                simp
        · rw [if_neg ho, pointee_eq] at hw1
          have hbne : b ≠ [] := fun hh => ho (hom.mp hh)
          have hbpos := List.length_pos_iff.mpr hbne
          rw [if_neg (by rw [List.length_append]; omega)]
          simp only [Option.bind_eq_some_iff] at hw1
          obtain ⟨dv, hd, hw1⟩ := hw1
          unfold encField at hb
          rw [hinfo, Res.bind_ok, hd] at hb
          simp only at hb
          have htd := hasTy_derefVal ht'.1 hd
          have hnd : ¬ (isDefaultBase (Γ.shape f.ty.deref) dv && !f.opts.writeEmpty) = true := by
            intro hh
            apply ho
            unfold omits
            rw [pointee_eq, hd]
            simp only [dflt_eq, hh, Bool.true_or]
          rw [if_neg hnd] at hb
          rw [repeated_eq] at hw1
          cases hu : Γ.unpackedList f with
          | true =>
            rw [hu] at hb hw1
            simp only [if_true] at hb hw1 ⊢
            obtain ⟨id, e, hid, hel, hbk, hlk⟩ := unpackedList_inv hu
            obtain ⟨_, hum, helm⟩ := hf.1.rep (by rw [repeated_eq]; exact hu)
            have hel' : (Γ.shape f.ty.deref).elem? = some e := by rw [hid]; exact hel
            rw [hel'] at hb
            simp only at hb
            have hrd := hl id e { f.opts with fnum := num + 1 } dv b (bs ++ tail) w hel hbk
              (by rw [hid] at hum; exact hum) (helm e hel') hlk (by rw [hid] at htd; exact htd) hb (by omega)
              hst (by rw [hid] at hw1; exact hw1)
            have hzt : Γ.zeroTy f.ty = Γ.zero id := by rw [hid]; rfl
            rw [hzt, hid, hrd, andSlide_append, hih _ _ (by omega)]
            simp
            omega
          | false =>
            rw [hu] at hb hw1
            simp only [Bool.false_eq_true, if_false, Option.map_eq_some_iff] at hb hw1 ⊢
            obtain ⟨w1, hw1, rfl⟩ := hw1
            obtain ⟨hS, hwe⟩ := hf.1.single (by rw [repeated_eq]; exact hu)
            unfold writeField at hb
            obtain ⟨k, hk, hb⟩ := Res.bind_eq_ok hb
            obtain ⟨b', hb', hb⟩ := Res.bind_eq_ok hb
            obtain ⟨hk, hn29⟩ := encodeKey_ok hk (typ3_lt _ _ _)
            split at hb
            · simp only [Res.ok.injEq] at hb
              exact absurd hb.symm hbne
            · simp only [Res.ok.injEq] at hb
              subst hb
              rw [List.length_append] at hlen
              have hdk : decodeKey (k ++ (b' ++ (bs ++ tail))) = .ok k.length
                  (num + 1, Γ.typ3 f.ty.deref { f.opts with fnum := num + 1 }) := by
                rw [hk]; exact decodeKey_varint _ _ hn29 (typ3_lt _ _ _) _
              rw [List.append_assoc, hdk]
              simp only
              rw [if_neg (by omega), if_neg (by omega), slideThen_append, if_neg (by simp), if_neg (by simp)]
              have hni : Γ.isIface f.ty.deref = true → dv ≠ .nil := by
                intro hif hnil
                apply hnd
                have := hwe hif
                unfold Prog.isIface at hif
                split at hif
                · rename_i hs; rw [hs, hnil, this]; rfl
                · cases hif
              rw [h.ptr hp hf.1.noPtr hS htd hni hb' (by omega) (by simp) hw1, andSlide_append,
                hih _ _ (by omega)]
              simp
              omega


theorem decFields_rt (h : RecRT Γ S nm rec rd) (hp : RecPtr Γ rd) (hlead : RecLead Γ S bl rec)
    (hl : ListRT Γ c S bl nm rec rd) (hz : ∀ id, HasTy Γ (.base id) (Γ.zero id)) (hU : Universe Γ c S)
    (hZ : ZeroOk Γ) {num last n : Nat} {fs : List Field} {vs ws : List Val} {buf tail : Bytes}
    (hf : FieldsOk Γ S num fs) (ht : FieldsTy Γ fs vs) (he : encFields Γ c rec num fs vs = .ok buf)
    (hlen : buf.length < 2 ^ 63) (hlast : last ≤ num) (htail : TailOk (lastNum num fs) tail)
    (hw : normFields Γ bl nm num fs vs = some ws) :
    decFields Γ c rd fs (fs.map fun f => Γ.zeroTy f.ty) num last (buf ++ tail) n =
      .ok (n + buf.length + tail.length) ws := by
  have := decFields_rt_app (gs := []) (qs := []) (us := []) (n := n) h hp hlead hl hz hU hZ hf ht he hlen hlast
    ⟨htail.starts, fun last n hl => by rw [decFields, htail.consume _ _ hl]; simp⟩ hw
  simpa using this

end

end Amino
