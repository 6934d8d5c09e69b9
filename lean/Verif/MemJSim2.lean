import Verif.MemJSim

/-!
# The JSON decoder on memory follows the decoder on trees: the kinds
-/

namespace Amino
open Spec

theorem jsim_sameAs {Γ : Prog} {t : Ty} {l : Loc} {r : JMRes Unit} {d : Res Val} :
    SameAs Γ t l r d ↔ JSim (fun _ v h' => Got Γ l t v h') r d := by
  obtain ⟨m, h⟩ := r
  unfold SameAs JSim
  cases m <;> cases d <;> exact Iff.rfl

/-- The recursive calls agree, for variables without references. -/
def RecJSim (Γ : Prog) (rec : Ty → Loc → FOpts → Bytes → Mem → JMRes Unit) (recT : Ty → Val → FOpts → Bytes → Res Val) : Prop :=
  ∀ t l fo bz h w p, h.get l = some w → Unfolds Γ h t w p → NoRefs w →
    JSim (fun _ v h' => Got Γ l t v h') (rec t l fo bz h) (recT t p fo bz)

section
variable {Γ : MProg} {c : Codec} {J : MJLib} {rec : Ty → Loc → FOpts → Bytes → Mem → JMRes Unit}
  {recT : Ty → Val → FOpts → Bytes → Res Val}

theorem rec_steps (hinv : ∀ R, RecJInv R rec) (t : Ty) (l : Loc) (fo : FOpts) (bz : Bytes) (h : Mem) :
    Steps (· = l) h (rec t l fo bz h).2 := fun R hi hw => hinv R t l fo bz h hi (hw l rfl)

/-- A new variable holds a zero value. -/
theorem newVar (hz : ZeroPlain Γ.toProg) (h : Mem) (t : Ty) :
    Mem.get (h ++ [zeroM Γ t]) ⟨h.length, []⟩ = some (zeroM Γ t) ∧ Unfolds Γ.toProg (h ++ [zeroM Γ t]) t (zeroM Γ t) (Γ.zeroTy t) ∧
      NoRefs (zeroM Γ t) :=
  ⟨by rw [get_append_new rfl]; rfl, unfolds_zero hz t, noRefs_zero _⟩

/-- What is known after decoding into a new variable. -/
theorem newVar_after (hz : ZeroPlain Γ.toProg) {h h1 : Mem} {t : Ty} {v : Val} (hs : Steps (· = ⟨h.length, []⟩) (h ++ [zeroM Γ t]) h1)
    (hg : Got Γ.toProg ⟨h.length, []⟩ t v h1) :
    h1[h.length]? = some (valueAt h1 ⟨h.length, []⟩) ∧ Unfolds Γ.toProg h1 t (valueAt h1 ⟨h.length, []⟩) v ∧
    (∀ a, MRefs (valueAt h1 ⟨h.length, []⟩) a → h.length ≤ a) ∧ (∀ a x b, h.length ≤ a → h1[a]? = some x → MRefs x b → h.length ≤ b) ∧
    (∀ a, a < h.length → h1[a]? = h[a]?) ∧ h.length < h1.length := by
  obtain ⟨g0, g1, g2⟩ := newVar hz h t
  have hi := hs.one g0 g2
  obtain ⟨w, hw, hu⟩ := hg
  have hv : valueAt h1 ⟨h.length, []⟩ = w := by rw [valueAt, hw]; rfl
  rw [hv]
  have hlen : (h ++ [zeroM Γ t]).length = h.length + 1 := by simp
  have hr := fresh_refs hi rfl hw
  rw [get_cell] at hw
  rw [hlen] at hr
  refine ⟨hw, hu, fun a ha => by have := hr a ha; omega, fun a x b ha hx hb => ?_, fun a ha => ?_, (List.getElem?_eq_some_iff.mp hw).1⟩
  · by_cases he : a = h.length
    · subst he
      rw [hw] at hx; cases hx
      have := hr b hb; omega
    · have := fresh_refF hi a x b (by rw [hlen]; omega) hx hb
      rw [hlen] at this; omega
  · rw [fresh_cell hi (by rw [hlen]; omega) (by rintro m rfl; simp only; omega), List.getElem?_append_left ha]

theorem get_of_cells {h h1 : Mem} {l : Loc} (hc : h1[l.addr]? = h[l.addr]?) : h1.get l = h.get l := by rw [Mem.get, Mem.get, hc]

/-! ## Pointers -/

theorem jChase_sim (hz : ZeroPlain Γ.toProg) {k : Loc → Mem → JMRes Unit} {d : Val → Res Val} {id : TId}
    (hk : ∀ l h w p, h.get l = some w → Unfolds Γ.toProg h (.base id) w p → NoRefs w →
      JSim (fun _ v h' => Got Γ.toProg l (.base id) v h') (k l h) (d p))
    (hinv : ∀ R : Region, ∀ l h, R.JInv h → R.W l → R.JInv (k l h).2) (t : Ty) (ht : t.deref = id) :
    ∀ l h w p, h.get l = some w → Unfolds Γ.toProg h t w p → NoRefs w →
      JSim (fun _ v h' => Got Γ.toProg l t (wrapTy t v) h') (jChase Γ t l h k) (d (Γ.derefPrior t p)) := by
  induction t with
  | base i =>
    intro l h w p hg hu hn
    cases ht
    exact hk l h w p hg hu hn
  | ptr t ih =>
    intro l h w p hg hu hn
    cases hu with
    | ptr _ _ => exact absurd .ptr (hn _)
    | nilPtr =>
      have hlt := get_lt hg
      rw [jChase, hg]
      simp only [Prog.derefPrior]
      have hg1 : (Mem.put (h ++ [zeroM Γ t]) l (.ptr ⟨h.length, []⟩)).get ⟨h.length, []⟩ = some (zeroM Γ t) := by
        rw [get_put_addr (by simp only; omega)]
        exact (newVar hz h t).1
      have hsim := ih ht ⟨h.length, []⟩ _ _ _ hg1 (unfolds_zero hz t) (noRefs_zero _)
      refine hsim.mono fun a v hok _ hgot => ?_
      have hst : Steps (· = ⟨h.length, []⟩) (Mem.put (h ++ [zeroM Γ t]) l (.ptr ⟨h.length, []⟩))
          (jChase Γ t ⟨h.length, []⟩ (Mem.put (h ++ [zeroM Γ t]) l (.ptr ⟨h.length, []⟩)) k).2 :=
        fun R hi hw => jinv_chase (hinv R) t hi (hw _ rfl)
      have hi := hst.one hg1 (noRefs_zero _)
      obtain ⟨w', hw', hu'⟩ := hgot
      refine ⟨.ptr ⟨h.length, []⟩, ?_, .ptr hw' hu'⟩
      rw [fresh_get hi (by rintro m rfl; simp only; omega) (by rw [length_put, List.length_append]; omega),
        get_put_self (v := .nil) (by rw [get_append_old hlt]; exact hg)]

/-! ## Scalars -/

theorem scalar_eq {id : TId} {fo : FOpts} {bz : Bytes} {p : Val} (hs : scalarShape (Γ.shape id) = true) :
    jdecShape Γ.toProg c J.toJLib (fun _ _ _ _ => .oof) id .nil fo bz = jdecShape Γ.toProg c J.toJLib recT id p fo bz := by
  unfold jdecShape
  cases hsh : Γ.shape id <;> simp only [hsh, scalarShape] at hs ⊢ <;> cases hs

/-! ## Byte slices and arrays -/

theorem slice_nil {Γ : Prog} {id : TId} {e : Ty} {h : Mem} {w : MVal} {p : Val} (hsh : Γ.shape id = .slice e)
    (hu : Unfolds Γ h (.base id) w p) (hn : NoRefs w) : w = .nil ∧ p = .nil := by
  generalize hb : (Ty.base id) = t at hu
  cases hu with
  | prim hs => cases hb; rw [hsh] at hs; cases hs
  | bytes hs _ => cases hb; rw [hsh] at hs; cases hs
  | nilPtr => cases hb
  | ptr _ _ => cases hb
  | nil _ => exact ⟨rfl, rfl⟩
  | byteSlice _ _ _ _ => exact absurd .slice (hn _)
  | slice _ _ _ _ _ => exact absurd .slice (hn _)
  | arr hs _ _ => cases hb; rw [hsh] at hs; cases hs
  | struct hs _ => cases hb; rw [hsh] at hs; cases hs
  | iface hs _ => cases hb; rw [hsh] at hs; cases hs
  | map hs _ _ => cases hb; rw [hsh] at hs; cases hs

theorem zero_slice {Γ : Prog} (hz : ZeroPlain Γ) {id : TId} {e : Ty} (hsh : Γ.shape id = .slice e) : Γ.zero id = .nil :=
  (slice_nil (h := []) hsh (holds_zero hz id) (noRefs_zero _)).2

theorem jByteSlice_sim (hz : ZeroPlain Γ.toProg) {id : TId} {e : Ty} {l : Loc} {bz : Bytes} {h : Mem} {w : MVal} {p : Val}
    (hsh : Γ.shape id = .slice e) (he : Γ.isByteKind e = true) (hg : h.get l = some w)
    (hu : Unfolds Γ.toProg h (.base id) w p) (hn : NoRefs w) :
    JSim (fun _ v h' => Got Γ.toProg l (.base id) v h') (jByteSlice l bz h)
      ((ofOpt .json (unmBytes (oldBytes p) bz)).bind fun b => .ok (if b.isEmpty then Γ.zero id else .bytes b)) := by
  have hzero := zero_slice hz hsh
  obtain ⟨rfl, rfl⟩ := slice_nil hsh hu hn
  have hlt := get_lt hg
  have hNil : Got Γ.toProg l (.base id) (Γ.zero id) (h.put l .nil) := by
    rw [hzero]
    exact got_putNone hg noRefs_nil (.nil (by rw [hsh]; rfl))
  unfold jByteSlice unmBytes
  rw [hg]
  simp only [oldBytes]
  cases wholeVal bz with
  | none => exact rfl
  | some raw =>
    simp only [Option.bind_some]
    cases raw with
    | nil => exact rfl
    | cons x r =>
      by_cases h1 : x :: r = jNull
      · rw [if_pos h1]
        simp only [if_pos h1]
        exact hNil
      · rw [if_neg h1]
        simp only [if_neg h1, List.head?_cons, Option.some.injEq, List.tail_cons]
        by_cases h2 : x = 0x22
        · rw [if_pos h2, if_pos h2]
          cases (unquote (x :: r)).bind b64Dec with
          | none => exact rfl
          | some b =>
            simp only
            by_cases hb : b.isEmpty
            · rw [if_pos hb]
              simp only [ofOpt, Res.bind, if_pos hb]
              exact hNil
            · rw [if_neg hb]
              simp only [ofOpt, Res.bind, if_neg hb]
              have hu : Unfolds Γ.toProg (h ++ [.prim (.bytes b)]) (.base id) (.slice h.length 0 b.length) (.bytes b) := by
                have := Unfolds.byteSlice (Γ := Γ.toProg) (h := h ++ [.prim (.bytes b)]) (a := h.length) (off := 0) (len := b.length)
                  hsh he List.getElem?_concat_length (by omega)
                simpa using this
              refine got_put (N := h.length) (x := .nil) (by rw [get_append_old hlt]; exact hg) hlt ?_ ?_ hu
              · intro a x b' ha hx hr
                have := (List.getElem?_eq_some_iff.mp hx).1
                simp only [List.length_append, List.length_singleton] at this
                have : a = h.length := by omega
                subst this
                rw [List.getElem?_concat_length] at hx
                cases hx; cases hr
              · intro a ha; cases ha; exact Nat.le_refl _
        · rw [if_neg h2, if_neg h2]
          by_cases h3 : x = 0x5b
          · rw [if_pos h3, if_pos h3]
            cases arrRest (skipVal (x :: r).length) r with
            | none => exact rfl
            | some pr =>
              obtain ⟨es, rest⟩ := pr
              simp only [Option.bind_some]
              by_cases hes : es.isEmpty
              · rw [if_pos hes]
                rw [List.isEmpty_iff] at hes
                subst hes
                exact hNil
              · rw [if_neg hes]
                have hbn : bytesAt h h.length = [] := by unfold bytesAt; simp
                obtain ⟨q1, q2, q3, q4⟩ := jByteElems_new es 0 h.length h.length h [] 0 rfl hbn (Nat.le_refl _) (Nat.le_refl _)
                cases hun : unmByteElems [] es with
                | none =>
                  rw [hun] at q4
                  simp only at q4
                  rw [q4]
                  exact rfl
                | some bs =>
                  rw [hun] at q4
                  simp only at q4
                  obtain ⟨q4, k', q5⟩ := q4
                  rw [q4, q2]
                  have hlen : ∀ {o : Bytes} {es : List Bytes} {bs : Bytes}, unmByteElems o es = some bs → bs.length = es.length := by
                    intro o es
                    induction es generalizing o with
                    | nil => intro bs hb; cases hb; rfl
                    | cons e es ih =>
                      intro bs hb
                      rw [unmByteElems, Option.bind_eq_some_iff] at hb
                      obtain ⟨i, _, hb⟩ := hb
                      obtain ⟨bs', hb', rfl⟩ := Option.map_eq_some_iff.mp hb
                      simp [ih hb']
                  have hbl := hlen hun
                  have hne : bs.isEmpty = false := by
                    cases bs with
                    | nil => cases es with
                      | nil => exact absurd rfl hes
                      | cons _ _ => cases hbl
                    | cons _ _ => rfl
                  simp only [ofOpt, Res.bind, hne, if_true, Bool.false_eq_true, if_false, List.nil_append] at q5 ⊢
                  have hcell : (jByteElems es 0 h.length 0 h).2.2[(jByteElems es 0 h.length 0 h).1.1]? =
                      some (.prim (.bytes (bs ++ List.replicate k' 0))) := by
                    rw [bytesAt_cell, q5]
                    rw [q5]
                    cases bs with
                    | nil => cases hne
                    | cons _ _ => simp
                  have hgl : (jByteElems es 0 h.length 0 h).2.2.get l = some .nil := by
                    rw [get_of_cells (q1 _ hlt)]; exact hg
                  have hu : Unfolds Γ.toProg ((jByteElems es 0 h.length 0 h).2.2.put l (.slice (jByteElems es 0 h.length 0 h).1.1 0 es.length))
                      (.base id) (.slice (jByteElems es 0 h.length 0 h).1.1 0 es.length) (.bytes bs) := by
                    have hcell' : ((jByteElems es 0 h.length 0 h).2.2.put l (.slice (jByteElems es 0 h.length 0 h).1.1 0 es.length))[(jByteElems es 0 h.length 0 h).1.1]? =
                        some (.prim (.bytes (bs ++ List.replicate k' 0))) := by
                      rw [← get_cell, get_put_addr (by simp only; omega), get_cell]; exact hcell
                    have := Unfolds.byteSlice (Γ := Γ.toProg) (off := 0) (len := es.length) hsh he hcell' (by simp; omega)
                    rw [List.drop_zero, ← hbl, List.take_left] at this
                    rw [← hbl]
                    exact this
                  exact ⟨_, get_put_self hgl, hu⟩
          · rw [if_neg h3, if_neg h3]
            exact rfl

theorem jmByteArr_sim {id : TId} {n : Nat} {e : Ty} {l : Loc} {bz : Bytes} {h : Mem} {w : MVal} {p : Val}
    (hsh : Γ.shape id = .array n e) (he : Γ.isByteKind e = true) (hg : h.get l = some w) (hu : Unfolds Γ.toProg h (.base id) w p) :
    JSim (fun _ v h' => Got Γ.toProg l (.base id) v h') (jmByteArr Γ n e l bz h) (jdecByteArr Γ.toProg n e bz) := by
  obtain ⟨b0, rfl⟩ : ∃ b0, w = .prim (.bytes b0) := by
    generalize hb : (Ty.base id) = t at hu
    cases hu with
    | prim hs => cases hb; rw [hsh] at hs; cases hs
    | bytes hs _ => exact ⟨_, rfl⟩
    | nilPtr => cases hb
    | ptr _ _ => cases hb
    | nil hs => cases hb; rw [hsh] at hs; cases hs
    | byteSlice hs _ _ _ => cases hb; rw [hsh] at hs; cases hs
    | slice hs _ _ _ _ => cases hb; rw [hsh] at hs; cases hs
    | arr hs hb' _ => cases hb; rw [hsh] at hs; cases hs; rw [he] at hb'; cases hb'
    | struct hs _ => cases hb; rw [hsh] at hs; cases hs
    | iface hs _ => cases hb; rw [hsh] at hs; cases hs
    | map hs _ _ => cases hb; rw [hsh] at hs; cases hs
  unfold jmByteArr jdecByteArr
  cases unmBytes [] bz with
  | none => exact rfl
  | some b =>
    simp only [ofOpt, Res.bind]
    by_cases h1 : e ≠ .base Γ.byteId
    · rw [if_pos h1, if_pos h1]; exact rfl
    · rw [if_neg h1, if_neg h1, hg]
      simp only
      by_cases h2 : b.length ≠ n
      · rw [if_pos h2, if_pos h2]; exact rfl
      · rw [if_neg h2, if_neg h2]
        have : (b ++ b0.drop b.length).take n = b := by
          have : b.length = n := by simpa using h2
          subst this
          exact List.take_left
        rw [this]
        exact got_putNone hg (noRefs_prim _) (.bytes hsh he)

end

end Amino
