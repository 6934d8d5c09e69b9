import Verif.MemJSim2

/-!
# The JSON decoder on memory follows the decoder on trees: the recursion
-/

namespace Amino
open Spec

section
variable {Γ : MProg} {c : Codec} {J : MJLib} {rec : Ty → Loc → FOpts → Bytes → Mem → JMRes Unit}
  {recT : Ty → Val → FOpts → Bytes → Res Val}
  (hsim : RecJSim Γ.toProg rec recT) (hinv : ∀ R, RecJInv R rec) (hz : ZeroPlain Γ.toProg)

include hsim hinv

theorem jmArr_sim (e : Ty) (l : Loc) (fo : FOpts) (bs : List Bytes) : ∀ (h : Mem) (u : MVal) (pre ws : List MVal) (ps : List Val),
    JPre Γ.toProg h l u pre (List.replicate bs.length e) ws ps →
    JSim (fun _ vs h' => JPost Γ.toProg l u pre (List.replicate bs.length e) vs h') (jmArr rec e l fo pre.length bs h) (jdecArr recT e fo ps bs) := by
  induction bs with
  | nil =>
    intro h u pre ws ps hl
    have hr := hl.rep
    simp only [List.length_nil, List.replicate_zero] at hr
    cases hr
    exact ⟨u, [], hl.get, rfl, hl.parts, .nil⟩
  | cons b bs ih =>
    intro h u pre ws ps hl
    rw [List.length_cons, List.replicate_succ] at hl ⊢
    obtain ⟨w, ws, rfl⟩ : ∃ w ws', ws = w :: ws' := by cases hl.rep; exact ⟨_, _, rfl⟩
    obtain ⟨p, ps, rfl⟩ : ∃ p ps', ps = p :: ps' := by cases hl.rep; exact ⟨_, _, rfl⟩
    obtain ⟨h1, h2, h3⟩ := hl.first
    rw [jmArr, jdecArr]
    refine (hsim e (l.sub pre.length) fo b h w p h1 h2 h3).andThen fun _ v _ _ hgot => ?_
    obtain ⟨u1, w1, hl1, hpost⟩ := hl.next (rec_steps hinv e _ fo b h) hgot
    have hs := ih _ u1 (pre ++ [w1]) ws ps hl1
    rw [List.length_append, List.length_singleton] at hs
    refine JSim.bindOk (f := fun vs => v :: vs) (hs.mono fun _ vs _ _ hp => hpost vs _ hp ?_)
    intro R hi hw
    exact jmArr_inv (hinv R) e fo bs _ _ (fun j hj => hw _ ⟨j, hj, rfl⟩) hi

include hz in
theorem jmField_sim {fo : FOpts} {m : List (Bytes × Bytes)} {f : Field} {l : Loc} {h : Mem} {w : MVal} {p : Val}
    (hg : h.get l = some w) (hu : Unfolds Γ.toProg h f.ty w p) (hn : NoRefs w) :
    JSim (fun _ v h' => Got Γ.toProg l f.ty v h') (jmField Γ rec fo m f l h) (jdecField Γ.toProg recT fo m f p) := by
  have habs : Got Γ.toProg l f.ty (if f.opts.omitEmpty then p else Γ.zeroTy f.ty)
      (if f.opts.omitEmpty then h else h.put l (zeroM Γ f.ty)) := by
    cases f.opts.omitEmpty
    · exact got_putNone hg (noRefs_zero _) (unfolds_zero (h := h) hz f.ty)
    · exact ⟨w, hg, hu⟩
  unfold jmField jdecField
  cases m.lookup f.opts.jsonName with
  | none => exact habs
  | some b =>
    simp only
    by_cases hb : b = []
    · rw [if_pos hb, if_pos hb]; exact habs
    · rw [if_neg hb, if_neg hb]; exact hsim f.ty l fo b h w p hg hu hn

include hz in
theorem jmFields_sim {l : Loc} {fo : FOpts} {m : List (Bytes × Bytes)} (fs : List Field) :
    ∀ (h : Mem) (u : MVal) (pre ws : List MVal) (ps : List Val), JPre Γ.toProg h l u pre (fs.map Field.ty) ws ps →
    JSim (fun _ vs h' => JPost Γ.toProg l u pre (fs.map Field.ty) vs h') (jmFields Γ c rec l fo m fs pre.length h)
      (jdecFields Γ.toProg c recT fo m fs ps) := by
  induction fs with
  | nil =>
    intro h u pre ws ps hl
    have hr := hl.rep
    rw [List.map_nil] at hr
    cases hr
    exact ⟨u, [], hl.get, rfl, hl.parts, .nil⟩
  | cons f fs ih =>
    intro h u pre ws ps hl
    rw [List.map_cons] at hl ⊢
    obtain ⟨w, ws, rfl⟩ : ∃ w ws', ws = w :: ws' := by cases hl.rep; exact ⟨_, _, rfl⟩
    obtain ⟨p, ps, rfl⟩ : ∃ p ps', ps = p :: ps' := by cases hl.rep; exact ⟨_, _, rfl⟩
    obtain ⟨h1, h2, h3⟩ := hl.first
    rw [jmFields, jdecFields]
    cases f.visible with
    | true =>
      rw [if_pos rfl, if_pos rfl]
      refine JSim.infoThen ?_
      refine (jmField_sim hsim hinv hz (fo := fo) (m := m) h1 h2 h3).andThen fun _ v _ _ hgot => ?_
      obtain ⟨u1, w1, hl1, hpost⟩ := hl.next (fun R hi hw => jmField_inv (hinv R) (hw _ rfl) hi) hgot
      have hs := ih _ u1 (pre ++ [w1]) ws ps hl1
      rw [List.length_append, List.length_singleton] at hs
      refine JSim.bindOk (f := fun vs => v :: vs) (hs.mono fun _ vs _ _ hp => hpost vs _ hp ?_)
      intro R hi hw
      exact jmFields_inv (hinv R) fs _ _ (fun j hj => hw _ ⟨j, hj, rfl⟩) hi
    | false =>
      rw [if_neg (by decide), if_neg (by decide)]
      obtain ⟨hl1, hpost⟩ := hl.skip
      have hs := ih _ u (pre ++ [w]) ws ps hl1
      rw [List.length_append, List.length_singleton] at hs
      exact JSim.bindOk (f := fun vs => p :: vs) (hs.mono fun _ vs _ _ hp => hpost vs _ hp)

include hz in
theorem jmEntries_sim (e : Ty) (fo : FOpts) (m : List (Bytes × Bytes)) : ∀ (h : Mem),
    JSim (fun ws kvs h' => UnfoldsE Γ.toProg h' e ws kvs ∧ (∀ w ∈ ws, ∀ a, MRefs w a → h.length ≤ a) ∧
        (∀ a x b, h.length ≤ a → h'[a]? = some x → MRefs x b → h.length ≤ b) ∧ (∀ a, a < h.length → h'[a]? = h[a]?) ∧
        h.length ≤ h'.length)
      (jmEntries Γ rec e fo m h) (jdecEntries Γ.toProg recT e fo m) := by
  induction m with
  | nil =>
    intro h
    exact ⟨.nil, by simp, fun _ _ _ ha hx => absurd (List.getElem?_eq_some_iff.mp hx).1 (Nat.not_lt.mpr ha), fun _ _ => rfl, Nat.le_refl _⟩
  | cons kb m ih =>
    intro h
    obtain ⟨k, b⟩ := kb
    rw [jmEntries, jdecEntries]
    obtain ⟨g0, g1, g2⟩ := newVar hz h e
    refine (hsim e ⟨h.length, []⟩ fo b _ _ _ g0 g1 g2).andThen fun _ v _ _ hgot => ?_
    obtain ⟨a1, a2, a3, a4, a5, a6⟩ := newVar_after hz (rec_steps hinv e _ fo b _) hgot
    generalize hh1 : (rec e ⟨h.length, []⟩ fo b (h ++ [zeroM Γ e])).2 = h1 at *
    refine (ih h1).andThen fun ws kvs _ _ hp => ?_
    obtain ⟨b1, b2, b3, b4, b5⟩ := hp
    generalize (jmEntries Γ rec e fo m h1).2 = h2 at *
    refine ⟨.cons (unfolds_ext a2 b4) b1, ?_, ?_, ?_, Nat.le_trans (Nat.le_of_lt a6) b5⟩
    · intro w hw a ha
      rw [List.mem_cons, List.mem_cons] at hw
      rcases hw with rfl | rfl | hw
      · cases ha
      · exact a3 a ha
      · have := b2 w hw a ha; omega
    · intro a x y ha hx hr
      by_cases hlt : a < h1.length
      · rw [b4 a hlt] at hx; exact a4 a x y ha hx hr
      · have := b3 a x y (by omega) hx hr; omega
    · intro a ha
      rw [b4 a (by omega), a5 a ha]

include hz in
theorem jmIface_sim {id : TId} {l : Loc} {fo : FOpts} {bz : Bytes} {h : Mem} {w : MVal} (hsh : Γ.shape id = .iface)
    (hg : h.get l = some w) :
    JSim (fun _ v h' => Got Γ.toProg l (.base id) v h') (jmIface Γ c rec id l fo bz h) (jdecIface Γ.toProg c recT id fo bz) := by
  unfold jmIface jdecIface
  cases decodeInterfaceJSON bz with
  | err e => exact rfl
  | panic p => exact rfl
  | oof => exact trivial
  | ok nd =>
    simp only [JMRes.andThen, Res.bind]
    cases c.name? nd.1 with
    | none => exact rfl
    | some ci =>
      simp only
      have hg0 := get_put_self (w := .nil) hg
      have hlt := get_lt hg0
      generalize h.put l .nil = h0 at *
      obtain ⟨g0, g1, g2⟩ := newVar hz h0 (.base ci.tid)
      have hs := hsim (.base ci.tid) ⟨h0.length, []⟩ fo nd.2 _ _ _ g0 g1 g2
      have hst := rec_steps hinv (.base ci.tid) ⟨h0.length, []⟩ fo nd.2 (h0 ++ [zeroM Γ (.base ci.tid)])
      rw [show Γ.zeroTy (.base ci.tid) = Γ.zero ci.tid from rfl] at hs
      revert hs hst
      generalize rec (.base ci.tid) ⟨h0.length, []⟩ fo nd.2 (h0 ++ [zeroM Γ (.base ci.tid)]) = r
      generalize recT (.base ci.tid) (Γ.zero ci.tid) fo nd.2 = d
      intro hs hst
      obtain ⟨r1, h1⟩ := r
      unfold JSim at hs
      cases r1 <;> cases d <;> simp only at hs ⊢ <;> try exact hs.elim
      · obtain ⟨a1, a2, a3, a4, a5, a6⟩ := newVar_after hz hst hs
        by_cases hi : Γ.implements ci.dynTy id
        · rw [if_pos hi, if_pos hi]
          rename_i v
          have hgl : h1.get l = some .nil := by rw [get_of_cells (a5 _ hlt)]; exact hg0
          refine got_put (N := h0.length) hgl hlt a4 (w := ifaceOf ci ⟨h0.length, []⟩ h1) (fun a ha => ?_) ?_
          · unfold ifaceOf at ha
            cases ha with
            | iface ha =>
              revert ha
              split
              · intro ha; cases ha; exact Nat.le_refl _
              · exact a3 a
          · unfold ifaceOf ConcInfo.dynTy
            cases ci.ptrPref
            · exact .iface hsh a2
            · exact .iface hsh (.ptr (by rw [get_cell]; exact a1) a2)
        · rw [if_neg hi, if_neg hi]; exact rfl
      · subst hs
        by_cases hi : Γ.implements ci.dynTy id
        · rw [if_pos hi, if_pos hi]; exact rfl
        · rw [if_neg hi, if_neg hi]; exact rfl
      · exact hs
      · trivial

omit hsim hinv in
theorem jdecElems_arr (e : Ty) (fo : FOpts) (bs : List Bytes) :
    jdecElems Γ.toProg recT e fo bs = jdecArr recT e fo (List.replicate bs.length (Γ.zeroTy e)) bs := by
  induction bs with
  | nil => rfl
  | cons b bs ih => rw [jdecElems, List.length_cons, List.replicate_succ, jdecArr, ih]

omit hsim hinv in
theorem unfoldsL_zeros (hz : ZeroPlain Γ.toProg) (e : Ty) (h : Mem) (n : Nat) :
    UnfoldsL Γ.toProg h (List.replicate n e) (List.replicate n (zeroM Γ e)) (List.replicate n (Γ.zeroTy e)) := by
  induction n with
  | zero => exact .nil
  | succ n ih => exact .cons (unfolds_zero hz e) ih

omit hsim hinv in
theorem jshallow_arr {u : MVal} {n : List MVal} (h : u.shallow = (MVal.arr n).shallow) : u = .arr u.parts := by
  cases u <;> simp [MVal.shallow, MVal.parts] at h ⊢

omit hsim hinv in
theorem jshallow_struct {u : MVal} {n : List MVal} (h : u.shallow = (MVal.struct n).shallow) : u = .struct u.parts := by
  cases u <;> simp [MVal.shallow, MVal.parts] at h ⊢

include hz in
theorem jmShape_sim {id : TId} {l : Loc} {fo : FOpts} {bz : Bytes} {h : Mem} {w : MVal} {p : Val} (hg : h.get l = some w)
    (hu : Unfolds Γ.toProg h (.base id) w p) (hn : NoRefs w) :
    JSim (fun _ v h' => Got Γ.toProg l (.base id) v h') (jmShape Γ c J rec id l fo bz h)
      (jdecShape Γ.toProg c J.toJLib recT id p fo bz) := by
  have hlt := get_lt hg
  cases hsh : Γ.shape id with
  | iface =>
    unfold jmShape jdecShape
    rw [hsh]
    exact jmIface_sim hsim hinv hz hsh hg
  | array n e =>
    unfold jmShape jdecShape
    rw [hsh]
    simp only
    cases he : Γ.isByteKind e with
    | true =>
      rw [if_pos rfl, if_pos rfl]
      exact jmByteArr_sim hsh he hg hu
    | false =>
      rw [if_neg (by decide), if_neg (by decide)]
      refine JSim.infoThen ?_
      obtain ⟨ws, vs, rfl, rfl, hr⟩ : ∃ ws vs, w = .arr ws ∧ p = .list vs ∧ UnfoldsL Γ.toProg h (List.replicate n e) ws vs := by
        generalize hb : (Ty.base id) = t at hu
        cases hu with
        | prim hs => cases hb; rw [hsh] at hs; cases hs
        | bytes hs hb' => cases hb; rw [hsh] at hs; cases hs; rw [he] at hb'; cases hb'
        | nilPtr => cases hb
        | ptr _ _ => cases hb
        | nil hs => cases hb; rw [hsh] at hs; cases hs
        | byteSlice hs _ _ _ => cases hb; rw [hsh] at hs; cases hs
        | slice hs _ _ _ _ => cases hb; rw [hsh] at hs; cases hs
        | arr hs _ hr => cases hb; rw [hsh] at hs; cases hs; exact ⟨_, _, rfl, rfl, hr⟩
        | struct hs _ => cases hb; rw [hsh] at hs; cases hs
        | iface hs _ => cases hb; rw [hsh] at hs; cases hs
        | map hs _ _ => cases hb; rw [hsh] at hs; cases hs
      cases unmRaws bz with
      | none => exact rfl
      | some raws =>
        simp only [ofOpt, Res.bind]
        by_cases hl : raws.length ≠ n
        · rw [if_pos hl, if_pos hl]; exact rfl
        · rw [if_neg hl, if_neg hl]
          have hl : raws.length = n := by simpa using hl
          subst hl
          have := jmArr_sim hsim hinv e l fo raws h (.arr ws) [] ws vs ⟨hg, rfl, hr, fun w hw a ha => hn a (.arr hw ha)⟩
          refine JSim.bindOk (f := Val.list) (this.mono fun _ vs' _ _ hp => ?_)
          obtain ⟨u', ws', hg', hs', hp', hr'⟩ := hp
          refine ⟨u', hg', ?_⟩
          rw [jshallow_arr hs', hp']
          exact .arr hsh he hr'
  | slice e =>
    unfold jmShape jdecShape
    rw [hsh]
    simp only
    cases he : Γ.isByteKind e with
    | true =>
      rw [if_pos rfl, if_pos rfl]
      exact jByteSlice_sim hz hsh he hg hu hn
    | false =>
      rw [if_neg (by decide), if_neg (by decide)]
      refine JSim.infoThen ?_
      cases unmRaws bz with
      | none => exact rfl
      | some raws =>
        simp only [ofOpt, Res.bind]
        by_cases hl : raws.length = 0
        · rw [if_pos hl, if_pos hl, zero_slice hz hsh]
          exact got_putNone hg noRefs_nil (.nil (h := h) (by rw [hsh]; rfl))
        · rw [if_neg hl, if_neg hl, jdecElems_arr]
          have hno : NoRefs (.arr (List.replicate raws.length (zeroM Γ e))) := by
            intro a ha
            cases ha with
            | arr hm ha => rw [List.eq_of_mem_replicate hm] at ha; exact noRefs_zero _ a ha
          have hga : Mem.get (h ++ [.arr (List.replicate raws.length (zeroM Γ e))]) ⟨h.length, []⟩ = some (.arr (List.replicate raws.length (zeroM Γ e))) := by
            rw [get_append_new rfl]; rfl
          have := jmArr_sim hsim hinv e ⟨h.length, []⟩ fo raws _ _ [] _ _ ⟨hga, rfl, unfoldsL_zeros hz e _ _, fun w hw => by
            rw [List.eq_of_mem_replicate hw]; exact noRefs_zero _⟩
          refine this.andThen fun _ vs _ _ hp => ?_
          have hst : Steps (· = ⟨h.length, []⟩) (h ++ [.arr (List.replicate raws.length (zeroM Γ e))])
              (jmArr rec e ⟨h.length, []⟩ fo 0 raws (h ++ [.arr (List.replicate raws.length (zeroM Γ e))])).2 :=
            fun R hi hw => jmArr_inv (hinv R) e fo raws _ _ (fun j _ => R.sub j (hw _ rfl)) hi
          have hi := hst.one hga hno
          simp only [List.length_nil] at hp ⊢
          generalize (jmArr rec e ⟨h.length, []⟩ fo 0 raws (h ++ [.arr (List.replicate raws.length (zeroM Γ e))])).2 = h1 at *
          obtain ⟨u', ws', hg', hs', hp', hr'⟩ := hp
          have hlen : (h ++ [MVal.arr (List.replicate raws.length (zeroM Γ e))]).length = h.length + 1 := by simp
          have hrefs := fresh_refs hi rfl hg'
          have hua := jshallow_arr hs'
          rw [hp', List.nil_append] at hua
          subst hua
          rw [get_cell] at hg'
          have hwl : ws'.length = raws.length := by
            have hl1 := congrArg (fun v => v.parts.length) hs'
            simpa [MVal.shallow, MVal.parts] using hl1
          have hgl : h1.get l = some w := by
            rw [fresh_get hi (by rintro m rfl; simp only; omega) (by rw [hlen]; omega), get_append_old hlt]; exact hg
          refine got_put (N := h.length) hgl hlt ?_ (fun a ha => by cases ha; exact Nat.le_refl _) ?_
          · intro a x b ha hx hr
            by_cases hea : a = h.length
            · subst hea
              rw [hg'] at hx; cases hx
              have := hrefs b hr; omega
            · have := fresh_refF hi a x b (by omega) hx hr; omega
          · refine .slice hsh he hg' (by omega) ?_
            rw [List.drop_zero, ← hwl, List.take_length, hwl]
            exact hr'
  | struct fs =>
    unfold jmShape jdecShape
    rw [hsh]
    simp only
    obtain ⟨ws, vs, rfl, rfl, hr⟩ : ∃ ws vs, w = .struct ws ∧ p = .struct vs ∧ UnfoldsL Γ.toProg h (fs.map Field.ty) ws vs := by
      generalize hb : (Ty.base id) = t at hu
      cases hu with
      | prim hs => cases hb; rw [hsh] at hs; cases hs
      | bytes hs hb' => cases hb; rw [hsh] at hs; cases hs
      | nilPtr => cases hb
      | ptr _ _ => cases hb
      | nil hs => cases hb; rw [hsh] at hs; cases hs
      | byteSlice hs _ _ _ => cases hb; rw [hsh] at hs; cases hs
      | slice hs _ _ _ _ => cases hb; rw [hsh] at hs; cases hs
      | arr hs _ hr => cases hb; rw [hsh] at hs; cases hs
      | struct hs hr => cases hb; rw [hsh] at hs; cases hs; exact ⟨_, _, rfl, rfl, hr⟩
      | iface hs _ => cases hb; rw [hsh] at hs; cases hs
      | map hs _ _ => cases hb; rw [hsh] at hs; cases hs
    cases unmRawMap bz with
    | none => exact rfl
    | some m =>
      simp only [ofOpt, Res.bind]
      have := jmFields_sim (c := c) hsim hinv hz (l := l) (fo := fo) (m := m) fs h (.struct ws) [] ws vs
        ⟨hg, rfl, hr, fun w hw a ha => hn a (.struct hw ha)⟩
      refine JSim.bindOk (f := Val.struct) (this.mono fun _ vs' _ _ hp => ?_)
      obtain ⟨u', ws', hg', hs', hp', hr'⟩ := hp
      refine ⟨u', hg', ?_⟩
      rw [jshallow_struct hs', hp']
      exact .struct hsh hr'
  | map e =>
    unfold jmShape jdecShape
    rw [hsh]
    simp only
    cases unmRawMap bz with
    | none => exact rfl
    | some m =>
      simp only [ofOpt, Res.bind]
      refine JSim.infoThen ?_
      refine (jmEntries_sim hsim hinv hz e fo m h).andThen fun ws kvs _ _ hp => ?_
      obtain ⟨b1, b2, b3, b4, b5⟩ := hp
      generalize (jmEntries Γ rec e fo m h).2 = h1 at *
      have hgl : Mem.get (h1 ++ [.arr ws]) l = some w := by
        rw [get_append_old (by omega), get_of_cells (b4 _ hlt)]; exact hg
      refine got_put (N := h.length) hgl hlt ?_ (fun a ha => by cases ha; exact b5) ?_
      · intro a x b ha hx hr
        by_cases hlt1 : a < h1.length
        · rw [List.getElem?_append_left hlt1] at hx
          exact b3 a x b ha hx hr
        · have := (List.getElem?_eq_some_iff.mp hx).1
          simp only [List.length_append, List.length_singleton] at this
          have : a = h1.length := by omega
          subst this
          rw [List.getElem?_concat_length] at hx
          cases hx
          cases hr with
          | arr hm hr => exact b2 _ hm b hr
      · exact .map hsh List.getElem?_concat_length (unfoldsE_ext b1 fun a ha => List.getElem?_append_left ha)
  | int k =>
    have hs : scalarShape (Γ.shape id) = true := by rw [hsh]; rfl
    unfold jmShape
    rw [hsh]
    simp only
    rw [scalar_eq (recT := recT) (p := p) hs]
    cases jdecShape Γ.toProg c J.toJLib recT id p fo bz with
    | ok v => exact got_putNone hg (noRefs_prim v) (.prim (h := h) hs)
    | err e => exact rfl
    | panic p => exact rfl
    | oof => exact trivial
  | bool =>
    have hs : scalarShape (Γ.shape id) = true := by rw [hsh]; rfl
    unfold jmShape
    rw [hsh]
    simp only
    rw [scalar_eq (recT := recT) (p := p) hs]
    cases jdecShape Γ.toProg c J.toJLib recT id p fo bz with
    | ok v => exact got_putNone hg (noRefs_prim v) (.prim (h := h) hs)
    | err e => exact rfl
    | panic p => exact rfl
    | oof => exact trivial
  | string =>
    have hs : scalarShape (Γ.shape id) = true := by rw [hsh]; rfl
    unfold jmShape
    rw [hsh]
    simp only
    rw [scalar_eq (recT := recT) (p := p) hs]
    cases jdecShape Γ.toProg c J.toJLib recT id p fo bz with
    | ok v => exact got_putNone hg (noRefs_prim v) (.prim (h := h) hs)
    | err e => exact rfl
    | panic p => exact rfl
    | oof => exact trivial
  | float32 =>
    have hs : scalarShape (Γ.shape id) = true := by rw [hsh]; rfl
    unfold jmShape
    rw [hsh]
    simp only
    rw [scalar_eq (recT := recT) (p := p) hs]
    cases jdecShape Γ.toProg c J.toJLib recT id p fo bz with
    | ok v => exact got_putNone hg (noRefs_prim v) (.prim (h := h) hs)
    | err e => exact rfl
    | panic p => exact rfl
    | oof => exact trivial
  | float64 =>
    have hs : scalarShape (Γ.shape id) = true := by rw [hsh]; rfl
    unfold jmShape
    rw [hsh]
    simp only
    rw [scalar_eq (recT := recT) (p := p) hs]
    cases jdecShape Γ.toProg c J.toJLib recT id p fo bz with
    | ok v => exact got_putNone hg (noRefs_prim v) (.prim (h := h) hs)
    | err e => exact rfl
    | panic p => exact rfl
    | oof => exact trivial
  | time =>
    have hs : scalarShape (Γ.shape id) = true := by rw [hsh]; rfl
    unfold jmShape
    rw [hsh]
    simp only
    rw [scalar_eq (recT := recT) (p := p) hs]
    cases jdecShape Γ.toProg c J.toJLib recT id p fo bz with
    | ok v => exact got_putNone hg (noRefs_prim v) (.prim (h := h) hs)
    | err e => exact rfl
    | panic p => exact rfl
    | oof => exact trivial

include hz in
theorem jmBase_sim (hm : MethodsLocalJ Γ J) (hf : MethodsFollowJ Γ J) {id : TId} {l : Loc} {fo : FOpts} {bz : Bytes} {h : Mem} {w : MVal}
    {p : Val} (hg : h.get l = some w) (hu : Unfolds Γ.toProg h (.base id) w p) (hn : NoRefs w) :
    JSim (fun _ v h' => Got Γ.toProg l (.base id) v h') (jmBase Γ c J rec id fo bz l h)
      (jdecBase Γ.toProg c J.toJLib recT id p fo bz) := by
  have hlt := get_lt hg
  unfold jmBase jdecBase
  by_cases ht : Γ.shape id = .time
  · rw [if_pos ht, if_pos ht]; exact jmShape_sim hsim hinv hz hg hu hn
  · rw [if_neg ht, if_neg ht]
    cases hj : J.unmarsh id with
    | some um => exact jsim_sameAs.mp (hf.json id um hj h l w p bz hg hu hn)
    | none =>
      simp only
      cases ha : Γ.unmarsh id with
      | none => exact jmShape_sim hsim hinv hz hg hu hn
      | some x =>
        obtain ⟨rid, um⟩ := x
        simp only
        refine JSim.infoThen ?_
        obtain ⟨g0, g1, g2⟩ := newVar hz h (.base rid)
        refine (hsim (.base rid) ⟨h.length, []⟩ fo bz _ _ _ g0 g1 g2).andThen fun _ rv _ _ hgot => ?_
        obtain ⟨a1, a2, a3, a4, a5, a6⟩ := newVar_after hz (rec_steps hinv (.base rid) _ fo bz _) hgot
        generalize (rec (.base rid) ⟨h.length, []⟩ fo bz (h ++ [zeroM Γ (.base rid)])).2 = h1 at *
        refine jsim_sameAs.mp (hf.amino id rid um ha h1 l w _ p rv (by rw [get_of_cells (a5 _ hlt)]; exact hg) (unfolds_noRefs hu hn) hn a2 ?_)
        have key : ∀ a, ReachV h1 (valueAt h1 ⟨h.length, []⟩) a → h.length ≤ a := by
          intro a hr
          induction hr with
          | ref hr => exact a3 _ hr
          | more _ hx hr ih => exact a4 _ _ _ ih hx hr
        intro hr
        have := key _ hr
        omega

end

section
variable {Γ : MProg} {c : Codec} {J : MJLib}

theorem jmdec_sim (hm : MethodsLocalJ Γ J) (hf : MethodsFollowJ Γ J) (hz : ZeroPlain Γ.toProg) (fuel : Nat) :
    RecJSim Γ.toProg (jmdec Γ c J fuel) (jdec Γ.toProg c J.toJLib fuel) := by
  induction fuel with
  | zero => intro t l fo bz h w p _ _ _; exact trivial
  | succ fuel ih =>
    intro t l fo bz h w p hg hu hn
    rw [jmdec, jdec, jmBody]
    by_cases h0 : (Γ.isIface t.deref && t.isPtr) = true
    · rw [if_pos h0, if_pos h0]; exact rfl
    · rw [if_neg h0, if_neg h0]
      by_cases hb : bz = jNull
      · rw [if_pos hb, if_pos hb]
        exact got_putNone hg (noRefs_zero _) (unfolds_zero (h := h) hz t)
      · rw [if_neg hb, if_neg hb]
        refine JSim.bindOk (f := wrapTy t) ?_
        exact jChase_sim hz (d := fun p => jdecBase Γ.toProg c J.toJLib (jdec Γ.toProg c J.toJLib fuel) t.deref p fo bz)
          (fun l h w p hg hu hn => jmBase_sim ih (fun R => jmdec_inv hm fuel) hz hm hf hg hu hn)
          (fun R l h hi hw => jmBase_inv (jmdec_inv hm fuel) hm hi hw) t rfl l h w p hg hu hn

theorem mUnmarshalJSON_sim (hm : MethodsLocalJ Γ J) (hf : MethodsFollowJ Γ J) (hz : ZeroPlain Γ.toProg) {fuel : Nat} {t : Ty} {l : Loc}
    {bz : Bytes} {h : Mem} {w : MVal} {p : Val} (hg : h.get l = some w) (hu : Unfolds Γ.toProg h t w p) (hn : NoRefs w) :
    JSim (fun _ v h' => Got Γ.toProg l t v h') (mUnmarshalJSON Γ c J fuel t l bz h) (unmarshalJSON Γ.toProg c J.toJLib fuel t p bz) := by
  unfold mUnmarshalJSON unmarshalJSON
  by_cases hb : bz = []
  · rw [if_pos hb, if_pos hb]; exact rfl
  · rw [if_neg hb, if_neg hb]
    refine JSim.infoThen ?_
    cases c.conc? t.deref with
    | none => exact jmdec_sim hm hf hz fuel t l {} bz h w p hg hu hn
    | some ci =>
      simp only
      cases decodeInterfaceJSON bz with
      | err e => exact rfl
      | panic p => exact rfl
      | oof => exact trivial
      | ok nd =>
        simp only [JMRes.andThen, Res.bind]
        by_cases hne : nd.1 ≠ ci.name
        · rw [if_pos hne, if_pos hne]; exact rfl
        · rw [if_neg hne, if_neg hne]
          exact jmdec_sim hm hf hz fuel t l {} nd.2 h w p hg hu hn

end

end Amino
