import Verif.JReadText
import Verif.PropsStale
import Verif.TypedLemmas

/-!
# UnmarshalJSON against the specification of what texts are read as
-/

namespace Amino
open Spec

variable {Γ : Prog} {c : Codec} {J : JLib}

theorem shape_time {id : TId} (hm : NoUnmarshal Γ J id) {p : Val} {bz : Bytes} {rec : Ty → Val → FOpts → Bytes → Res Val} :
    jdecBase Γ c J rec id p {} bz = jdecShape Γ c J rec id p {} bz := by
  unfold jdecBase
  split
  · rfl
  · rename_i h
    obtain ⟨h1, h2⟩ := hm.resolve_left h
    rw [h2, h1]

theorem jdec_step {g : Nat} {id : TId} {p : Val} {bz : Bytes} (hn : bz ≠ jNull) :
    jdec Γ c J (g + 1) (.base id) p {} bz = jdecBase Γ c J (jdec Γ c J g) id p {} bz := by
  rw [jdec]
  simp only [Ty.deref, Ty.isPtr, Bool.and_false]
  rw [if_neg (by simp), if_neg hn]
  simp only [Prog.derefPrior, wrapTy]
  cases jdecBase Γ c J (jdec Γ c J g) id p {} bz <;> rfl

theorem jdec_shape {g : Nat} {id : TId} {p : Val} {bz : Bytes} (hm : NoUnmarshal Γ J id) (hn : bz ≠ jNull) :
    jdec Γ c J (g + 1) (.base id) p {} bz = jdecShape Γ c J (jdec Γ c J g) id p {} bz := by
  rw [jdec_step hn, shape_time hm]

/-! ## Whatever is read is read as specified -/

theorem around_not_null {core b : Bytes} (h : Around core b) (hv : JValue core) (hc : core ≠ nullText) : b ≠ jNull := by
  rintro rfl
  exact hc (around_unique h ⟨[], [], by simp [White], by simp [White], rfl⟩ hv ⟨_, null_spaced⟩)

section
variable {rec : Ty → Val → FOpts → Bytes → Res Val}

/-- What is claimed of the recursive calls. -/
def SoundRec (Γ : Prog) (c : Codec) (J : JLib) (rec : Ty → Val → FOpts → Bytes → Res Val) : Prop :=
  ∀ t old bz v, HasTy Γ t old → rec t old {} bz = .ok v → ReadAs Γ c J t old bz v

theorem jdecArr_sound (hr : SoundRec Γ c J rec) {e : Ty} {ps vs : List Val} {bs : List Bytes} (hl : ps.length = bs.length)
    (ht : ∀ p ∈ ps, HasTy Γ e p) (h : jdecArr rec e {} ps bs = .ok vs) :
    ∃ l : List ElemRead, bs = l.map ElemRead.text ∧ ps = l.map ElemRead.old ∧ vs = l.map ElemRead.new ∧
      ∀ x ∈ l, ReadAs Γ c J e x.old x.text x.new := by
  induction ps generalizing bs vs with
  | nil =>
    cases bs with
    | nil => cases h; exact ⟨[], rfl, rfl, rfl, by simp⟩
    | cons => cases hl
  | cons p ps ih =>
    cases bs with
    | nil => cases hl
    | cons b bs =>
      simp only [List.mem_cons, forall_eq_or_imp] at ht
      rw [jdecArr] at h
      obtain ⟨v, hv, h⟩ := Res.bind_eq_ok h
      obtain ⟨vs', hvs, h⟩ := Res.bind_eq_ok h
      cases h
      obtain ⟨l, rfl, rfl, rfl, hx⟩ := ih (by simpa using hl) ht.2 hvs
      refine ⟨⟨b, p, v⟩ :: l, rfl, rfl, rfl, ?_⟩
      simp only [List.mem_cons, forall_eq_or_imp]
      exact ⟨hr _ _ _ _ ht.1 hv, hx⟩

theorem jdecElems_sound (hr : SoundRec Γ c J rec) {e : Ty} (hz : HasTy Γ e (Γ.zeroTy e)) {vs : List Val} {bs : List Bytes}
    (h : jdecElems Γ rec e {} bs = .ok vs) :
    ∃ l : List ElemRead, bs = l.map ElemRead.text ∧ vs = l.map ElemRead.new ∧
      ∀ x ∈ l, ReadAs Γ c J e (Γ.zeroTy e) x.text x.new := by
  induction bs generalizing vs with
  | nil => cases h; exact ⟨[], rfl, rfl, by simp⟩
  | cons b bs ih =>
    rw [jdecElems] at h
    obtain ⟨v, hv, h⟩ := Res.bind_eq_ok h
    obtain ⟨vs', hvs, h⟩ := Res.bind_eq_ok h
    cases h
    obtain ⟨l, rfl, rfl, hx⟩ := ih hvs
    refine ⟨⟨b, Γ.zeroTy e, v⟩ :: l, rfl, rfl, ?_⟩
    simp only [List.mem_cons, forall_eq_or_imp]
    exact ⟨hr _ _ _ _ hz hv, hx⟩

theorem jdecEntries_sound (hr : SoundRec Γ c J rec) {e : Ty} (hz : HasTy Γ e (Γ.zeroTy e)) {l : List (Bytes × Val)}
    {m : List (Bytes × Bytes)} (h : jdecEntries Γ rec e {} m = .ok l) :
    ∃ r : List EntryRead, m = r.map (fun x => (x.key, x.text)) ∧ l = r.map (fun x => (x.key, x.new)) ∧
      ∀ x ∈ r, ReadAs Γ c J e (Γ.zeroTy e) x.text x.new := by
  induction m generalizing l with
  | nil => cases h; exact ⟨[], rfl, rfl, by simp⟩
  | cons p m ih =>
    obtain ⟨k, b⟩ := p
    rw [jdecEntries] at h
    obtain ⟨v, hv, h⟩ := Res.bind_eq_ok h
    obtain ⟨vs', hvs, h⟩ := Res.bind_eq_ok h
    cases h
    obtain ⟨r, rfl, rfl, hx⟩ := ih hvs
    refine ⟨⟨k, b, v⟩ :: r, rfl, rfl, ?_⟩
    simp only [List.mem_cons, forall_eq_or_imp]
    exact ⟨hr _ _ _ _ hz hv, hx⟩

theorem jdecFields_sound (hr : SoundRec Γ c J rec) {m : List (Bytes × Bytes)} (hm : ∀ k b, m.lookup k = some b → b ≠ [])
    {fs : List Field} {ps vs : List Val} (hl : fs.length = ps.length) (ht : ∀ p ∈ fs.zip ps, HasTy Γ p.1.ty p.2)
    (h : jdecFields Γ c rec {} m fs ps = .ok vs) :
    ∃ r : List FieldRead, fs = r.map FieldRead.field ∧ ps = r.map FieldRead.old ∧ vs = r.map FieldRead.new ∧
      (∀ x ∈ r, x.field.visible = false → x.new = x.old) ∧
      (∀ x ∈ r, x.field.visible = true → Known Γ c x.field.ty.deref) ∧
      (∀ x ∈ r, x.field.visible = true → m.lookup x.field.opts.jsonName = none →
        x.new = if x.field.opts.omitEmpty then x.old else Γ.zeroTy x.field.ty) ∧
      (∀ x ∈ r, x.field.visible = true → ∀ t, m.lookup x.field.opts.jsonName = some t →
        ReadAs Γ c J x.field.ty x.old t x.new) := by
  induction fs generalizing ps vs with
  | nil =>
    cases ps with
    | nil => cases h; exact ⟨[], rfl, rfl, rfl, by simp, by simp, by simp, by simp⟩
    | cons => cases hl
  | cons f fs ih =>
    cases ps with
    | nil => cases hl
    | cons p ps =>
      simp only [List.zip_cons_cons, List.mem_cons, forall_eq_or_imp] at ht
      rw [jdecFields] at h
      split at h
      · rename_i hvis
        obtain ⟨_, hinfo, h⟩ := Res.bind_eq_ok h
        obtain ⟨v, hv, h⟩ := Res.bind_eq_ok h
        obtain ⟨vs', hvs, h⟩ := Res.bind_eq_ok h
        cases h
        obtain ⟨r, rfl, rfl, rfl, h1, h2, h3, h4⟩ := ih (by simpa using hl) ht.2 hvs
        refine ⟨⟨f, p, v⟩ :: r, rfl, rfl, rfl, ?_, ?_, ?_, ?_⟩
        · simp only [List.mem_cons, forall_eq_or_imp]
          exact ⟨fun h => absurd (hvis.symm.trans h) (by simp), h1⟩
        · simp only [List.mem_cons, forall_eq_or_imp]
          exact ⟨fun _ => known_iff.mpr hinfo, h2⟩
        · simp only [List.mem_cons, forall_eq_or_imp]
          refine ⟨fun _ hn => ?_, h3⟩
          rw [jdecField, hn] at hv
          cases hv; rfl
        · simp only [List.mem_cons, forall_eq_or_imp]
          refine ⟨fun _ t hs => ?_, h4⟩
          rw [jdecField, hs] at hv
          simp only at hv
          rw [if_neg (hm _ _ hs)] at hv
          exact hr _ _ _ _ ht.1 hv
      · rename_i hvis
        obtain ⟨vs', hvs, h⟩ := Res.bind_eq_ok h
        cases h
        obtain ⟨r, rfl, rfl, rfl, h1, h2, h3, h4⟩ := ih (by simpa using hl) ht.2 hvs
        refine ⟨⟨f, p, p⟩ :: r, rfl, rfl, rfl, ?_, ?_, ?_, ?_⟩
        · intro x hx hxv; rcases List.mem_cons.mp hx with rfl | hx
          · rfl
          · exact h1 x hx hxv
        · simp only [List.mem_cons, forall_eq_or_imp]; exact ⟨fun h => absurd h hvis, h2⟩
        · simp only [List.mem_cons, forall_eq_or_imp]; exact ⟨fun h => absurd h hvis, h3⟩
        · simp only [List.mem_cons, forall_eq_or_imp]; exact ⟨fun h => absurd h hvis, h4⟩

theorem lastMember_ne {l : List (List Char × Bytes)} {core k b : Bytes} (h : MembersText l core) (hk : lastMember l k = some b) : b ≠ [] := by
  cases h with
  | null => cases hk
  | obj h =>
    unfold lastMember at hk
    obtain ⟨m, hm, rfl⟩ := Option.map_eq_some_iff.mp hk
    exact jvalue_ne (objText_values h m (List.mem_reverse.mp (List.mem_of_find?_eq_some hm)))

theorem lookup_mem {m : List (Bytes × Bytes)} {k b : Bytes} (hn : (m.map (·.1)).Nodup) (h : (k, b) ∈ m) : m.lookup k = some b := by
  induction m with
  | nil => cases h
  | cons p m ih =>
    obtain ⟨k', b'⟩ := p
    rw [List.map_cons, List.nodup_cons] at hn
    rw [List.lookup_cons]
    rcases List.mem_cons.mp h with h | h
    · cases h; rw [beq_self_eq_true]
    · have : (k == k') = false := by
        rw [beq_eq_false_iff_ne]
        intro he
        have h2 := List.mem_map_of_mem (f := fun p : Bytes × Bytes => p.1) h
        exact hn.1 (he ▸ h2)
      rw [this]
      exact ih hn.2 h

theorem quoted_of {bz : Bytes} (h1 : bz.head? = some 0x22) (h2 : bz.getLast? = some 0x22) (h3 : 2 ≤ bz.length) :
    ∃ b, bz = 0x22 :: (b ++ [0x22]) := by
  cases bz with
  | nil => cases h1
  | cons x r =>
    cases h1
    have hr : r ≠ [] := by rintro rfl; simp at h3
    refine ⟨r.dropLast, ?_⟩
    rw [List.getLast?_cons_of_ne_nil hr] at h2
    congr 1
    have h4 := List.dropLast_concat_getLast hr
    rw [List.getLast?_eq_some_getLast hr] at h2
    rw [Option.some.inj h2] at h4
    exact h4.symm

theorem is64 (k : IntKind) : (k.bits = 64 ↔ k ∈ [IntKind.int, .int64, .uint, .uint64]) ∧
    (k.bits ≠ 64 ↔ k ∈ [IntKind.int8, .int16, .int32, .uint8, .uint16, .uint32]) := by
  cases k <;> decide

theorem jdecShape_sound (hT : Γ.Typed) (hr : SoundRec Γ c J rec) {id : TId} {old v : Val} {bz : Bytes} (hn : bz ≠ jNull)
    (hm : NoUnmarshal Γ J id) (ht : HasTy Γ (.base id) old) (h : jdecShape Γ c J rec id old {} bz = .ok v) :
    ReadAs Γ c J (.base id) old bz v := by
  unfold jdecShape at h
  cases hs : Γ.shape id with
  | iface =>
    rw [hs] at h
    simp only [jdecIface] at h
    obtain ⟨⟨name, data⟩, hd, h⟩ := Res.bind_eq_ok h
    obtain ⟨o, l, cs, ha, ho, hw, rfl⟩ := wrapper_iff.mp hd
    simp only at h
    cases hc : c.name? (utf8 cs) with
    | none => rw [hc] at h; cases h
    | some ci =>
      rw [hc] at h
      simp only at h
      cases hv : rec (.base ci.tid) (Γ.zero ci.tid) {} data with
      | ok v' =>
        rw [hv] at h
        simp only at h
        split at h
        · rename_i hi
          cases h
          have := ReadAs.iface (old := old) hm hs ha ho hw hc (hr _ _ _ _ (hT.zero _) hv) hi
          unfold ConcInfo.dynTy
          cases hp : ci.ptrPref with
          | true => rw [hp] at this; exact this
          | false => rw [hp] at this; exact this
        · cases h
      | err e => rw [hv] at h; simp only at h; split at h <;> cases h
      | panic p => rw [hv] at h; cases h
      | oof => rw [hv] at h; cases h
  | array n e =>
    rw [hs] at h
    simp only at h
    split at h
    · rename_i hb
      unfold jdecByteArr at h
      obtain ⟨x, hx, h⟩ := Res.bind_eq_ok h
      obtain ⟨w1, core, w2, h1, h2, h3, h4⟩ := unmBytes_iff.mp (ofOpt_some hx)
      split at h
      · cases h
      rename_i he
      split at h
      · cases h
      rename_i hl
      cases h
      have he := Decidable.of_not_not he
      subst he
      exact .byteArray hn hm hs hb ⟨w1, w2, h1, h2, h3⟩ h4 (Decidable.of_not_not hl)
    · rename_i hb
      obtain ⟨_, hinfo, h⟩ := Res.bind_eq_ok h
      obtain ⟨raws, hraws, h⟩ := Res.bind_eq_ok h
      obtain ⟨core, ha, het⟩ := unmRaws_iff.mp (ofOpt_some hraws)
      split at h
      · cases h
      rename_i hl
      have hl := Decidable.of_not_not hl
      have hb : Γ.isByteKind e = false := by simpa using hb
      obtain ⟨ps, rfl, hpl, hpt⟩ : ∃ ps, old = .list ps ∧ ps.length = n ∧ ∀ v ∈ ps, HasTy Γ e v := by
        cases ht <;> rename_i hs' <;> first
          | (rw [hs] at hs'; cases hs'; done)
          | skip
        all_goals simp_all
      simp only at h
      obtain ⟨vs, hvs, h⟩ := Res.bind_eq_ok h
      cases h
      obtain ⟨l, rfl, rfl, rfl, hx⟩ := jdecArr_sound hr (by omega) hpt hvs
      exact .array hn hm hs hb (known_iff.mpr hinfo) ha het (by simpa using hl) hx
  | slice e =>
    rw [hs] at h
    simp only at h
    split at h
    · rename_i hb
      obtain ⟨x, hx, h⟩ := Res.bind_eq_ok h
      obtain ⟨w1, core, w2, h1, h2, h3, h4⟩ := unmBytes_iff.mp (ofOpt_some hx)
      cases h
      have ho : old = .bytes (oldBytes old) ∨ old = .nil ∧ oldBytes old = [] := by
        cases ht <;> simp_all [oldBytes]
      have := ReadAs.bytes (c := c) hn hm hs hb ho ⟨w1, w2, h1, h2, h3⟩ h4
      cases x <;> exact this
    · rename_i hb
      obtain ⟨_, hinfo, h⟩ := Res.bind_eq_ok h
      obtain ⟨raws, hraws, h⟩ := Res.bind_eq_ok h
      obtain ⟨core, ha, het⟩ := unmRaws_iff.mp (ofOpt_some hraws)
      have hb : Γ.isByteKind e = false := by simpa using hb
      split at h
      · rename_i hl
        cases h
        have := List.length_eq_zero_iff.mp hl
        subst this
        exact .slice (l := []) (old := old) hn hm hs hb (known_iff.mpr hinfo) ha het (by simp)
      · rename_i hl
        obtain ⟨vs, hvs, h⟩ := Res.bind_eq_ok h
        cases h
        obtain ⟨l, rfl, rfl, hx⟩ := jdecElems_sound hr (hasTy_zeroTy hT.zero e) hvs
        have := ReadAs.slice (l := l) (old := old) hn hm hs hb (known_iff.mpr hinfo) ha het hx
        rw [if_neg (by rintro rfl; exact hl rfl)] at this
        exact this
  | struct fs =>
    rw [hs] at h
    simp only at h
    obtain ⟨m, hm', h⟩ := Res.bind_eq_ok h
    obtain ⟨core, l, ha, hmt, rfl⟩ := unmRawMap_iff.mp (ofOpt_some hm')
    obtain ⟨ps, rfl, hpl, hpt⟩ : ∃ ps, old = .struct ps ∧ fs.length = ps.length ∧ ∀ p ∈ fs.zip ps, HasTy Γ p.1.ty p.2 := by
      cases ht <;> simp_all
    simp only at h
    obtain ⟨vs, hvs, h⟩ := Res.bind_eq_ok h
    cases h
    obtain ⟨r, hf, rfl, rfl, h1, h2, h3, h4⟩ := jdecFields_sound hr
      (fun k b hk => lastMember_ne hmt (by rw [← lastMember_eq]; exact hk)) hpl hpt hvs
    simp only [lastMember_eq] at h3 h4
    exact .struct hn hm hs ha hmt hf h1 h2 h3 h4
  | map e =>
    rw [hs] at h
    simp only at h
    obtain ⟨m, hm', h⟩ := Res.bind_eq_ok h
    obtain ⟨core, l, ha, hmt, rfl⟩ := unmRawMap_iff.mp (ofOpt_some hm')
    obtain ⟨_, hinfo, h⟩ := Res.bind_eq_ok h
    obtain ⟨vs, hvs, h⟩ := Res.bind_eq_ok h
    cases h
    obtain ⟨r, hr1, rfl, hr2⟩ := jdecEntries_sound hr (hasTy_zeroTy hT.zero e) hvs
    refine .map hn hm hs (known_iff.mpr hinfo) ha hmt ?_ ?_ hr2
    · rw [← keys_firsts, hr1, List.map_map]; rfl
    · intro x hx
      rw [← lastMember_eq]
      have hnd := assocOf_keys (l.map fun m => (utf8 m.1, m.2)) [] (by simp)
      refine lookup_mem hnd ?_
      rw [hr1]
      exact List.mem_map_of_mem (f := fun x : EntryRead => (x.key, x.text)) hx
  | int k =>
    rw [hs] at h
    simp only at h
    simp only [jdecInt] at h
    split at h
    · rename_i hk
      have hk := (is64 k).1.mp hk
      split at h
      · cases h
      split at h
      · cases h
      rename_i hq
      split at h
      · cases h
      rename_i hlen
      obtain ⟨b, rfl⟩ := quoted_of (bz := bz) (Classical.byContradiction fun hx => hq (.inl hx))
        (Classical.byContradiction fun hx => hq (.inr hx)) (by omega)
      obtain ⟨i, hi, h⟩ := Res.bind_eq_ok h
      cases h
      have hb : ((0x22 :: (b ++ [0x22]) : Bytes).drop 1).take ((0x22 :: (b ++ [0x22]) : Bytes).length - 2) = b := by simp
      rw [hb] at hi
      rcases unmInt_iff.mp (ofOpt_some hi) with ⟨ha, rfl⟩ | ⟨ds, ha, hi, h2, h3⟩
      · exact .quotedNull hm hs hk ha
      · exact .quoted hm hs hk ha hi h2 h3
    · rename_i hk
      have hk := (is64 k).2.mp hk
      obtain ⟨i, hi, h⟩ := Res.bind_eq_ok h
      cases h
      rcases unmInt_iff.mp (ofOpt_some hi) with ⟨ha, rfl⟩ | ⟨ds, ha, hi, h2, h3⟩
      · exact .intNull hn hm hs hk ha
      · exact .int hm hs hk ha hi h2 h3
  | float32 => rw [hs] at h; cases h
  | float64 => rw [hs] at h; cases h
  | bool =>
    rw [hs] at h
    simp only at h
    obtain ⟨x, hx, h⟩ := Res.bind_eq_ok h
    cases h
    rcases unmBool_iff.mp (ofOpt_some hx) with ⟨ha, rfl⟩ | ⟨ha, rfl⟩ | ⟨ha, rfl⟩
    · exact .boolNull hn hm hs ha
    · exact .true hm hs ha
    · exact .false hm hs ha
  | string =>
    rw [hs] at h
    simp only at h
    obtain ⟨x, hx, h⟩ := Res.bind_eq_ok h
    cases h
    rcases unmStr_iff.mp (ofOpt_some hx) with ⟨ha, rfl⟩ | ⟨t, cs, ha, hd, rfl⟩
    · exact .strNull hn hm hs ha
    · exact .str hm hs ha hd
  | time =>
    rw [hs] at h
    simp only at h
    split at h
    · rename_i hq
      split at h
      · cases h
      rename_i hz
      have hz := Decidable.of_not_not hz
      obtain ⟨p, hp, h⟩ := Res.bind_eq_ok h
      cases h
      obtain ⟨b, rfl⟩ := quoted_of hq.2.1 hq.2.2 hq.1
      have hb : ∃ b', b = b' ++ [0x5a] := by
        rcases List.eq_nil_or_concat b with rfl | ⟨b', y, rfl⟩
        · simp at hz
        · refine ⟨b', ?_⟩
          simp at hz
          simp [hz]
      obtain ⟨b', rfl⟩ := hb
      have := ReadAs.time (c := c) (old := old) (b := b') (s := p.1) (ns := p.2) hs (by have := ofOpt_some hp; simpa using this)
      simpa using this
    · cases h

end

theorem readAs_wrap {t : Ty} {old v : Val} {bz : Bytes} (hn : bz ≠ jNull) (hi : t.isPtr = true → Γ.isIface t.deref = false)
    (h : ReadAs Γ c J (.base t.deref) (Γ.derefPrior t old) bz v) : ReadAs Γ c J t old bz (wrapTy t v) := by
  induction t generalizing old with
  | base id => exact h
  | ptr t ih =>
    rw [derefPrior_target] at h
    have hi' := hi rfl
    refine .ptr ?_ hn (ih (fun _ => hi') h)
    intro hs
    simp only [Ty.deref, Prog.isIface, hs] at hi'
    cases hi'

theorem jdec_sound (hT : Γ.Typed) (g : Nat) : SoundRec Γ c J (jdec Γ c J g) := by
  induction g with
  | zero => intro t old bz v _ h; cases h
  | succ g ih =>
    intro t old bz v ht h
    rw [jdec] at h
    split at h
    · cases h
    rename_i hi
    have hi : t.isPtr = true → Γ.isIface t.deref = false := by
      intro hp; simp only [hp, Bool.and_true] at hi; simpa using hi
    split at h
    · rename_i hn
      cases h
      subst hn
      exact .null hi
    · rename_i hn
      obtain ⟨v', hv, h⟩ := Res.bind_eq_ok h
      cases h
      refine readAs_wrap hn hi ?_
      have htd : HasTy Γ (.base t.deref) (Γ.derefPrior t old) := hasTy_derefPrior hT.zero ht
      generalize Γ.derefPrior t old = p at hv htd
      generalize t.deref = id at hv htd
      unfold jdecBase at hv
      split at hv
      · rename_i hti
        exact jdecShape_sound hT ih hn (.inl hti) htd hv
      · rename_i hti
        cases hj : J.unmarsh id with
        | some um => rw [hj] at hv; exact .method hn hti hj hv
        | none =>
          rw [hj] at hv
          simp only at hv
          cases hu : Γ.unmarsh id with
          | some ru =>
            obtain ⟨rid, um⟩ := ru
            rw [hu] at hv
            simp only at hv
            obtain ⟨_, hinfo, hv⟩ := Res.bind_eq_ok hv
            obtain ⟨r, hr, hv⟩ := Res.bind_eq_ok hv
            exact .amino hn hti hj hu (known_iff.mpr hinfo) (ih _ _ _ _ (hT.zero _) hr) hv
          | none =>
            rw [hu] at hv
            exact jdecShape_sound hT ih hn (.inr ⟨hu, hj⟩) htd hv

/-! ## Whatever is specified is read -/

theorem all_enough {α : Type} {P : α → Nat → Prop} (l : List α) (h : ∀ x ∈ l, ∃ N, ∀ g, N ≤ g → P x g) :
    ∃ N, ∀ g, N ≤ g → ∀ x ∈ l, P x g := by
  induction l with
  | nil => exact ⟨0, by simp⟩
  | cons a l ih =>
    simp only [List.mem_cons, forall_eq_or_imp] at h
    obtain ⟨N, hN⟩ := h.1
    obtain ⟨M, hM⟩ := ih h.2
    refine ⟨N + M, fun g hg => ?_⟩
    simp only [List.mem_cons, forall_eq_or_imp]
    exact ⟨hN g (by omega), hM g (by omega)⟩

section
variable {rec : Ty → Val → FOpts → Bytes → Res Val}

theorem jdecArr_of {e : Ty} (l : List ElemRead) (h : ∀ x ∈ l, rec e x.old {} x.text = .ok x.new) :
    jdecArr rec e {} (l.map ElemRead.old) (l.map ElemRead.text) = .ok (l.map ElemRead.new) := by
  induction l with
  | nil => rfl
  | cons x l ih =>
    simp only [List.mem_cons, forall_eq_or_imp] at h
    simp only [List.map_cons, jdecArr, h.1, ih h.2, Res.bind]

theorem jdecElems_of {e : Ty} (l : List ElemRead) (h : ∀ x ∈ l, rec e (Γ.zeroTy e) {} x.text = .ok x.new) :
    jdecElems Γ rec e {} (l.map ElemRead.text) = .ok (l.map ElemRead.new) := by
  induction l with
  | nil => rfl
  | cons x l ih =>
    simp only [List.mem_cons, forall_eq_or_imp] at h
    simp only [List.map_cons, jdecElems, h.1, ih h.2, Res.bind]

theorem jdecEntries_of {e : Ty} (r : List EntryRead) (h : ∀ x ∈ r, rec e (Γ.zeroTy e) {} x.text = .ok x.new) :
    jdecEntries Γ rec e {} (r.map fun x => (x.key, x.text)) = .ok (r.map fun x => (x.key, x.new)) := by
  induction r with
  | nil => rfl
  | cons x l ih =>
    simp only [List.mem_cons, forall_eq_or_imp] at h
    simp only [List.map_cons, jdecEntries, h.1, ih h.2, Res.bind]

theorem jdecFields_of {m : List (Bytes × Bytes)} (hm : ∀ k b, m.lookup k = some b → b ≠ []) (r : List FieldRead)
    (h1 : ∀ x ∈ r, x.field.visible = false → x.new = x.old)
    (h2 : ∀ x ∈ r, x.field.visible = true → Known Γ c x.field.ty.deref)
    (h3 : ∀ x ∈ r, x.field.visible = true → m.lookup x.field.opts.jsonName = none →
        x.new = if x.field.opts.omitEmpty then x.old else Γ.zeroTy x.field.ty)
    (h4 : ∀ x ∈ r, x.field.visible = true → ∀ t, m.lookup x.field.opts.jsonName = some t →
        rec x.field.ty x.old {} t = .ok x.new) :
    jdecFields Γ c rec {} m (r.map FieldRead.field) (r.map FieldRead.old) = .ok (r.map FieldRead.new) := by
  induction r with
  | nil => rfl
  | cons x r ih =>
    have ih := ih (fun y hy => h1 y (.tail _ hy)) (fun y hy => h2 y (.tail _ hy)) (fun y hy => h3 y (.tail _ hy))
      (fun y hy => h4 y (.tail _ hy))
    have h1 := h1 x (.head _)
    have h2 := h2 x (.head _)
    have h3 := h3 x (.head _)
    have h4 := h4 x (.head _)
    simp only [List.map_cons, jdecFields, ih]
    cases hv : x.field.visible with
    | false => rw [h1 hv]; rfl
    | true =>
      have hf : jdecField Γ rec {} m x.field x.old = .ok x.new := by
        rw [jdecField]
        cases hl : m.lookup x.field.opts.jsonName with
        | none => simp only; rw [← h3 hv hl]
        | some t => simp only; rw [if_neg (hm _ _ hl)]; exact h4 hv t hl
      rw [known_iff.mp (h2 hv), hf]
      rfl

end

theorem entries_eq {l : List (List Char × Bytes)} {r : List EntryRead}
    (hk : r.map EntryRead.key = firsts (l.map fun m => utf8 m.1)) (hl : ∀ x ∈ r, lastMember l x.key = some x.text) :
    assocOf (l.map fun m => (utf8 m.1, m.2)) [] = r.map fun x => (x.key, x.text) := by
  have hn := assocOf_keys (l.map fun m => (utf8 m.1, m.2)) [] (by simp)
  rw [← keys_firsts] at hk
  have hl' : ∀ x ∈ r, (assocOf (l.map fun m => (utf8 m.1, m.2)) []).lookup x.key = some x.text := by
    intro x hx; rw [lastMember_eq]; exact hl x hx
  clear hl
  have hl := hl'
  clear hl'
  generalize assocOf (l.map fun m => (utf8 m.1, m.2)) [] = m at hn hk hl
  clear l
  induction m generalizing r with
  | nil =>
    cases r with
    | nil => rfl
    | cons => cases hk
  | cons p m ih =>
    cases r with
    | nil => cases hk
    | cons x r =>
      obtain ⟨k, b⟩ := p
      rw [List.map_cons, List.map_cons, List.cons.injEq] at hk
      obtain ⟨rfl, hk⟩ := hk
      rw [List.map_cons, List.nodup_cons] at hn
      have hx := hl x (.head _)
      rw [List.lookup_cons, beq_self_eq_true] at hx
      cases hx
      rw [List.map_cons, ← ih hn.2 hk]
      intro y hy
      have := hl y (.tail _ hy)
      rw [List.lookup_cons] at this
      have hne : (y.key == x.key) = false := by
        rw [beq_eq_false_iff_ne]
        intro he
        refine hn.1 ?_
        rw [← hk, ← he]
        exact List.mem_map_of_mem hy
      rw [hne] at this
      exact this

theorem ofOpt_of {α : Type} {o : Option α} {e : Err} {x : α} (h : o = some x) : ofOpt e o = .ok x := by rw [h]; rfl

theorem intText_ne_null {i : Int} {ds : Bytes} (h : IntText i ds) : ds ≠ nullText := by
  rintro rfl
  generalize hx : nullText = x at h
  cases h with
  | pos h =>
    subst hx
    generalize hx : nullText = x at h
    cases h with
    | zero => cases hx
    | pos h1 h2 h3 => cases hx; revert h2; decide
  | neg h => cases hx

theorem bits_of64 {k : IntKind} (h : k ∈ [IntKind.int, .int64, .uint, .uint64]) : k.bits = 64 := (is64 k).1.mpr h

theorem jdec_complete {t : Ty} {old v : Val} {bz : Bytes} (h : ReadAs Γ c J t old bz v) :
    ∃ N, ∀ g, N ≤ g → jdec Γ c J g t old {} bz = .ok v := by
  have one : ∀ {t old bz v}, (∀ g, jdec Γ c J (g + 1) t old {} bz = .ok v) → ∃ N, ∀ g, N ≤ g → jdec Γ c J g t old {} bz = .ok v := by
    intro t old bz v h
    refine ⟨1, fun g hg => ?_⟩
    obtain ⟨g, rfl⟩ : ∃ g', g = g' + 1 := ⟨g - 1, by omega⟩
    exact h g
  have next : ∀ {t old bz v} {P : Nat → Prop}, (∃ N, ∀ g, N ≤ g → P g) → (∀ g, P g → jdec Γ c J (g + 1) t old {} bz = .ok v) →
      ∃ N, ∀ g, N ≤ g → jdec Γ c J g t old {} bz = .ok v := by
    rintro t old bz v P ⟨N, hN⟩ h
    refine ⟨N + 1, fun g hg => ?_⟩
    obtain ⟨g, rfl⟩ : ∃ g', g = g' + 1 := ⟨g - 1, by omega⟩
    exact h g (hN g (by omega))
  have quote : ∀ b : Bytes, (0x22 :: (b ++ [0x22]) : Bytes) ≠ jNull := by
    intro b hb; cases hb
  induction h with
  | @null t old hi =>
    refine one fun g => ?_
    rw [jdec]
    have : (Γ.isIface t.deref && t.isPtr) = false := by
      cases hp : t.isPtr with
      | false => simp
      | true => simp [hi hp]
    rw [this, if_neg (by simp)]
    rfl
  | @ptr t old v b hs hn h ih =>
    obtain ⟨N, hN⟩ := ih
    refine ⟨N, fun g hg => ?_⟩
    have h1 := hN g hg
    cases g with
    | zero => cases h1
    | succ g =>
      have hi : Γ.isIface t.deref = false := by
        simp only [Prog.isIface]
      rw [jdec] at h1 ⊢
      simp only [Ty.deref, Ty.isPtr, hi, Bool.false_and] at h1 ⊢
      have hn' : b ≠ jNull := hn
      rw [if_neg (by simp), if_neg hn'] at h1 ⊢
      obtain ⟨v', hv, h1⟩ := Res.bind_eq_ok h1
      cases h1
      rw [derefPrior_target, hv]
      rfl
  | @method id old v b um hn ht hj hv =>
    refine one fun g => ?_
    rw [jdec_step hn]
    unfold jdecBase
    rw [if_neg ht, hj]
    exact hv
  | @amino id rid old r v b um hn ht hj hu hk h hv ih =>
    refine next ih fun g hg => ?_
    rw [jdec_step hn]
    unfold jdecBase
    rw [if_neg ht, hj, hu]
    simp only [known_iff.mp hk, hg, Res.bind]
    exact hv
  | @iface id old v b o data l name ci hm hs ha ho hw hc h hi ih =>
    refine next ih fun g hg => ?_
    have hn : b ≠ jNull := around_not_null ha (objText_jvalue ho).1 (by
      rintro rfl
      cases ho)
    rw [jdec_shape hm hn]
    unfold jdecShape
    rw [hs]
    simp only [jdecIface]
    rw [wrapper_iff.mpr ⟨o, l, name, ha, ho, hw, rfl⟩]
    simp only [Res.bind, hc, hg]
    unfold ConcInfo.dynTy
    rw [if_pos hi]
    cases ci.ptrPref <;> rfl
  | strNull hn hm hs ha =>
    refine one fun g => ?_
    rw [jdec_shape hm hn]
    unfold jdecShape
    rw [hs]
    simp only
    rw [ofOpt_of (unmStr_iff.mpr (.inl ⟨ha, rfl⟩))]
    rfl
  | @str id old b s cs hm hs ha hd =>
    refine one fun g => ?_
    have hn : b ≠ jNull := around_not_null ha ⟨_, strText_spaced (denotes_body hd)⟩ (by intro h; cases h)
    rw [jdec_shape hm hn]
    unfold jdecShape
    rw [hs]
    simp only
    rw [ofOpt_of (unmStr_iff.mpr (.inr ⟨s, cs, ha, hd, rfl⟩))]
    rfl
  | boolNull hn hm hs ha =>
    refine one fun g => ?_
    rw [jdec_shape hm hn]
    unfold jdecShape
    rw [hs]
    simp only
    rw [ofOpt_of (unmBool_iff.mpr (.inl ⟨ha, rfl⟩))]
    rfl
  | true hm hs ha =>
    refine one fun g => ?_
    rw [jdec_shape hm (around_not_null ha ⟨_, true_spaced⟩ (by decide))]
    unfold jdecShape
    rw [hs]
    simp only
    rw [ofOpt_of (unmBool_iff.mpr (.inr (.inl ⟨ha, rfl⟩)))]
    rfl
  | false hm hs ha =>
    refine one fun g => ?_
    rw [jdec_shape hm (around_not_null ha ⟨_, false_spaced⟩ (by decide))]
    unfold jdecShape
    rw [hs]
    simp only
    rw [ofOpt_of (unmBool_iff.mpr (.inr (.inr ⟨ha, rfl⟩)))]
    rfl
  | @intNull id k i b hn hm hs hk ha =>
    refine one fun g => ?_
    rw [jdec_shape hm hn]
    unfold jdecShape
    rw [hs]
    simp only [jdecInt]
    rw [if_neg ((is64 k).2.mpr hk), ofOpt_of (unmInt_iff.mpr (.inl ⟨ha, rfl⟩))]
    rfl
  | @int id k old i b ds hm hs hk ha hi h2 h3 =>
    refine one fun g => ?_
    rw [jdec_shape hm (around_not_null ha ⟨_, intText_spaced hi⟩ (intText_ne_null hi))]
    unfold jdecShape
    rw [hs]
    simp only [jdecInt]
    rw [if_neg ((is64 k).2.mpr hk), ofOpt_of (unmInt_iff.mpr (.inr ⟨ds, ha, hi, h2, h3⟩))]
    rfl
  | @quotedNull id k i b hm hs hk ha =>
    refine one fun g => ?_
    rw [jdec_shape hm (quote b)]
    unfold jdecShape
    rw [hs]
    simp only [jdecInt]
    have hb : ((0x22 :: (b ++ [0x22]) : Bytes).drop 1).take ((0x22 :: (b ++ [0x22]) : Bytes).length - 2) = b := by simp
    rw [if_pos (bits_of64 hk), if_neg (by simp), if_neg (by simp [List.getLast?_cons]), if_neg (by simp), hb,
      ofOpt_of (unmInt_iff.mpr (.inl ⟨ha, rfl⟩))]
    rfl
  | @quoted id k old i b ds hm hs hk ha hi h2 h3 =>
    refine one fun g => ?_
    rw [jdec_shape hm (quote b)]
    unfold jdecShape
    rw [hs]
    simp only [jdecInt]
    have hb : ((0x22 :: (b ++ [0x22]) : Bytes).drop 1).take ((0x22 :: (b ++ [0x22]) : Bytes).length - 2) = b := by simp
    rw [if_pos (bits_of64 hk), if_neg (by simp), if_neg (by simp [List.getLast?_cons]), if_neg (by simp), hb,
      ofOpt_of (unmInt_iff.mpr (.inr ⟨ds, ha, hi, h2, h3⟩))]
    rfl
  | @time id old b s ns hs hp =>
    refine one fun g => ?_
    rw [jdec_shape (.inl hs) (by intro hb; cases hb)]
    unfold jdecShape
    rw [hs]
    simp only
    rw [if_pos (by simp [List.getLast?_cons]), if_neg (by simp), hp]
    rfl
  | @bytes id e old o b core x hn hm hs hb ho ha hx =>
    refine one fun g => ?_
    obtain ⟨w1, w2, h1, h2, h3⟩ := ha
    rw [jdec_shape hm hn]
    unfold jdecShape
    rw [hs]
    simp only
    have hob : oldBytes old = o := by
      rcases ho with rfl | ⟨rfl, rfl⟩ <;> rfl
    rw [if_pos hb, hob, ofOpt_of (unmBytes_iff.mpr ⟨w1, core, w2, h1, h2, h3, hx⟩)]
    cases x <;> rfl
  | @byteArray id n old b core x hn hm hs hb ha hx hl =>
    refine one fun g => ?_
    obtain ⟨w1, w2, h1, h2, h3⟩ := ha
    rw [jdec_shape hm hn]
    unfold jdecShape
    rw [hs]
    simp only
    rw [if_pos hb, jdecByteArr, ofOpt_of (unmBytes_iff.mpr ⟨w1, core, w2, h1, h2, h3, hx⟩)]
    simp only [Res.bind]
    rw [if_neg (by simp), if_neg (by simp [hl])]
  | @slice id e old b core l hn hm hs hb hk ha ht h ih =>
    refine next (all_enough l ih) fun g hg => ?_
    rw [jdec_shape hm hn]
    unfold jdecShape
    rw [hs]
    simp only
    rw [if_neg (by simp [hb]), known_iff.mp hk, ofOpt_of (unmRaws_iff.mpr ⟨core, ha, ht⟩)]
    simp only [Res.bind]
    cases l with
    | nil => rfl
    | cons x l =>
      rw [if_neg (by simp), jdecElems_of _ hg, if_neg (by simp)]
  | @array id n e b core l hn hm hs hb hk ha ht hl h ih =>
    refine next (all_enough l ih) fun g hg => ?_
    rw [jdec_shape hm hn]
    unfold jdecShape
    rw [hs]
    simp only
    rw [if_neg (by simp [hb]), known_iff.mp hk, ofOpt_of (unmRaws_iff.mpr ⟨core, ha, ht⟩)]
    simp only [Res.bind]
    rw [if_neg (by simp [hl]), jdecArr_of _ hg]
  | @map id e old b core l r hn hm hs hk ha ht hkeys hlast h ih =>
    refine next (all_enough r ih) fun g hg => ?_
    rw [jdec_shape hm hn]
    unfold jdecShape
    rw [hs]
    simp only
    rw [ofOpt_of (unmRawMap_iff.mpr ⟨core, l, ha, ht, rfl⟩), known_iff.mp hk]
    simp only [Res.bind]
    rw [entries_eq hkeys hlast, jdecEntries_of _ hg]
  | @struct id fs b core l r hn hm hs ha ht hfs h1 h2 h3 h4 ih =>
    have ih' : ∀ x ∈ r, ∃ N, ∀ g, N ≤ g → (x.field.visible = true → ∀ t, lastMember l x.field.opts.jsonName = some t →
        jdec Γ c J g x.field.ty x.old {} t = .ok x.new) := by
      intro x hx
      cases hv : x.field.visible with
      | false => exact ⟨0, fun g _ h => by cases h⟩
      | true =>
        cases hl : lastMember l x.field.opts.jsonName with
        | none => exact ⟨0, fun g _ _ t h => by cases h⟩
        | some t =>
          obtain ⟨N, hN⟩ := ih x hx hv t hl
          refine ⟨N, fun g hg _ t' ht' => ?_⟩
          cases ht'
          exact hN g hg
    refine next (all_enough r ih') fun g hg => ?_
    rw [jdec_shape hm hn]
    unfold jdecShape
    rw [hs]
    simp only
    rw [ofOpt_of (unmRawMap_iff.mpr ⟨core, l, ha, ht, rfl⟩)]
    simp only [Res.bind]
    rw [hfs, jdecFields_of (fun k b hk => lastMember_ne ht (by rw [← lastMember_eq]; exact hk)) r h1 h2
      (by simp only [lastMember_eq]; exact h3) (by simp only [lastMember_eq]; exact hg)]

end Amino
