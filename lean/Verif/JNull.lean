import Verif.JsonInv

/-!
# Where the word `null` matters
-/

namespace Amino
open Spec

theorem null_eq : ([0x6e, 0x75, 0x6c, 0x6c] : Bytes) = jNull := rfl

theorem white_not {w : Bytes} (h : White w) {c : UInt8} (hc : isWs c = false) : c ∉ w := by
  intro hm
  rcases h c hm with rfl | rfl | rfl | rfl <;> cases hc

/-- The last character that is not white space. -/
theorem last_token {p a v w : Bytes} {c d : UInt8} (hv : White v) (hw : White w) (hc : isWs c = false) (hd : isWs d = false)
    (h : p ++ c :: v = a ++ d :: w) : c = d := by
  rcases List.append_eq_append_iff.mp h with ⟨z, rfl, hz⟩ | ⟨z, rfl, hz⟩
  · cases z with
    | nil => cases hz; rfl
    | cons x z =>
      simp only [List.cons_append, List.cons.injEq] at hz
      exact absurd (by rw [hz.2]; simp) (white_not hv hd)
  · cases z with
    | nil => cases hz; rfl
    | cons x z =>
      simp only [List.cons_append, List.cons.injEq] at hz
      exact absurd (by rw [hz.2]; simp) (white_not hw hc)

theorem spaced_n {t r : Bytes} (h : Spaced t (0x6e :: r)) : 0x6e :: r = jNull := by
  generalize hx : (0x6e :: r : Bytes) = x at h ⊢
  cases h with
  | scalar h _ _ =>
    cases h with
    | null => rfl
    | num h =>
      obtain ⟨c, r', rfl, hc⟩ := num_head h
      injection hx with h1 _
      subst h1
      simp [Digit] at hc
    | str h => cases h; cases hx
    | _ => cases hx
  | _ => cases hx

/-- A value inside a text. -/
theorem memberNulls_part {bz t r x y : Bytes} (h : MemberNulls bz) (hr : Spaced t r) (hb : bz = x ++ (r ++ y)) : MemberNulls r := by
  intro a b he
  rcases h (x ++ a) (b ++ y) (by rw [hb, he]; simp) with ⟨h1, h2⟩ | ⟨a', w, hw, h1⟩
  · simp only [List.append_eq_nil_iff] at h1 h2
    exact .inl ⟨h1.2, h2.1⟩
  · rcases List.append_eq_append_iff.mp h1 with ⟨z, _, hz⟩ | ⟨z, _, hz⟩
    · exact .inr ⟨z, w, hw, hz⟩
    · cases z with
      | nil => exact .inr ⟨[], w, hw, hz.symm⟩
      | cons c z =>
        simp only [List.cons_append, List.cons.injEq] at hz
        left
        have ha : a = [] := by
          cases a with
          | nil => rfl
          | cons d a =>
            obtain ⟨c', _, r', _, hc, ht⟩ := spaced_head hr
            rw [he] at hc
            injection hc with hc _
            subst hc
            exact absurd (by rw [hz.2]; simp) (white_not hw ht.1)
        subst ha
        refine ⟨rfl, ?_⟩
        rw [he] at hr
        have := spaced_n hr
        simpa [jNull] using this

theorem commas_part {l : List Bytes} {b : Bytes} (h : b ∈ l) :
    ∃ x y, commas l = x ++ (b ++ y) ∧ (x = [] ∨ ∃ x', x = x' ++ [0x2c]) := by
  induction l with
  | nil => cases h
  | cons c l ih =>
    cases l with
    | nil =>
      simp only [List.mem_singleton] at h
      subst h
      exact ⟨[], [], by simp [commas], .inl rfl⟩
    | cons d l =>
      rw [commas]
      · rcases List.mem_cons.mp h with rfl | h
        · exact ⟨[], 0x2c :: commas (d :: l), by simp, .inl rfl⟩
        · obtain ⟨x, y, e, hx⟩ := ih h
          refine ⟨c ++ 0x2c :: x, y, by rw [e]; simp, .inr ?_⟩
          rcases hx with rfl | ⟨x', rfl⟩
          · exact ⟨c, rfl⟩
          · exact ⟨c ++ 0x2c :: x', by simp⟩
      · simp

theorem unmRaws_part {bz : Bytes} {es : List Bytes} (h : unmRaws bz = some es) :
    ∀ e ∈ es, ∃ t x y, Spaced t e ∧ bz = x ++ (e ++ y) := by
  unfold unmRaws at h
  obtain ⟨raw, hraw, h'⟩ := Option.bind_eq_some_iff.mp h
  clear h
  obtain ⟨w1, w2, t, h1, h2, rfl, hs⟩ := wholeVal_json hraw
  match raw, hs, h' with
  | [], _, h => cases h
  | c :: r, hs, h =>
    dsimp only at h
    split at h
    · cases h; simp
    split at h
    · rename_i hc
      subst hc
      obtain ⟨⟨es', r'⟩, hx, rfl⟩ := Option.map_eq_some_iff.mp h
      clear h h' hraw
      generalize hy : (0x5b :: r : Bytes) = y at hs
      cases hs with
      | scalar _ h5 _ => rw [← hy] at h5; exact absurd rfl h5
      | obj => cases hy
      | @arr w ss hw0 hw hss =>
        simp only [List.cons.injEq, true_and] at hy
        subst hy
        rw [arrRest_raw hw0 hw hss] at hx
        cases hx
        intro e he
        obtain ⟨s, hm, rfl⟩ := List.mem_map.mp he
        obtain ⟨x, y, e, _⟩ := commas_part (List.mem_map_of_mem (f := SElem.out) hm)
        exact ⟨s.text, w1 ++ 0x5b :: (w ++ (x ++ s.pre)), s.post ++ (y ++ 0x5d :: w2), hss s hm, by rw [e]; simp [SElem.out]⟩
    · cases h

theorem unmMembers_part {raw t : Bytes} (hs : Spaced t raw) {ms : List (Bytes × Bytes)} (h : unmMembers raw = some ms) :
    ∀ m ∈ ms, ∃ t x y, Spaced t m.2 ∧ raw = x ++ (m.2 ++ y) := by
  cases raw with
  | nil => cases h
  | cons c r =>
    unfold unmMembers at h
    dsimp only at h
    split at h
    · rename_i hc
      subst hc
      obtain ⟨⟨l, r'⟩, hx, h'⟩ := Option.bind_eq_some_iff.mp h
      clear h
      have hl : ∀ m ∈ l, ∃ t x y, Spaced t m.2 ∧ (0x7b :: r : Bytes) = x ++ (m.2 ++ y) := by
        generalize hy : (0x7b :: r : Bytes) = y at hs
        cases hs with
        | scalar _ _ h7 => rw [← hy] at h7; exact absurd rfl h7
        | arr => cases hy
        | @obj w ss hw0 hw hss =>
          simp only [List.cons.injEq, true_and] at hy
          subst hy
          rw [objRest_raw hw0 hw hss] at hx
          cases hx
          intro e he
          obtain ⟨s, hm, rfl⟩ := List.mem_map.mp he
          obtain ⟨x, y, e, _⟩ := commas_part (List.mem_map_of_mem (f := SMember.out) hm)
          exact ⟨s.text, 0x7b :: (w ++ (x ++ (s.pre ++ (s.name ++ (s.mid ++ 0x3a :: s.mid'))))), s.post ++ (y ++ [0x7d]), hss s hm,
            by rw [e]; simp [SMember.out]⟩
      clear hx hs
      have h := h'
      clear h'
      simp only at h
      induction l generalizing ms with
      | nil => cases h; simp
      | cons kv l ih =>
        rw [List.foldr_cons] at h
        obtain ⟨ms', hms', h⟩ := Option.bind_eq_some_iff.mp h
        obtain ⟨k, _, rfl⟩ := Option.map_eq_some_iff.mp h
        simp only [List.mem_cons, forall_eq_or_imp] at hl ⊢
        exact ⟨hl.1, ih hl.2 hms'⟩
    · cases h

theorem unmRawMap_part {bz : Bytes} {ms : List (Bytes × Bytes)} (h : unmRawMap bz = some ms) :
    ∀ m ∈ ms, ∃ t x y, Spaced t m.2 ∧ bz = x ++ (m.2 ++ y) := by
  unfold unmRawMap at h
  obtain ⟨raw, hraw, h'⟩ := Option.bind_eq_some_iff.mp h
  clear h
  have h := h'
  clear h'
  obtain ⟨w1, w2, t, h1, h2, rfl, hs⟩ := wholeVal_json hraw
  split at h
  · cases h; simp
  obtain ⟨l, hl, rfl⟩ := Option.map_eq_some_iff.mp h
  intro m hm
  rcases mem_assocOf hm with hm | hm
  · obtain ⟨t, x, y, ht, e⟩ := unmMembers_part hs hl m hm
    exact ⟨t, w1 ++ x, y ++ w2, ht, by rw [e]; simp⟩
  · cases hm

/-! ## Reading into a variable whose old contents do not matter -/

theorem unmByteElems_old {es : List Bytes} (h : ∀ e ∈ es, e ≠ jNull) (o o' : Bytes) : unmByteElems o es = unmByteElems o' es := by
  induction es generalizing o o' with
  | nil => rfl
  | cons e es ih =>
    simp only [List.mem_cons, forall_eq_or_imp] at h
    rw [unmByteElems, unmByteElems, if_neg h.1, if_neg h.1, ih h.2]

theorem unmBytes_old {bz : Bytes} (h : MemberNulls bz) (o o' : Bytes) : unmBytes o bz = unmBytes o' bz := by
  unfold unmBytes
  cases hw : wholeVal bz with
  | none => rfl
  | some raw =>
    obtain ⟨w1, w2, t, h1, h2, rfl, hs⟩ := wholeVal_json hw
    simp only [Option.bind_some]
    match raw, hs with
    | [], _ => rfl
    | c :: r, hs =>
      dsimp only
      split
      · rfl
      split
      · rfl
      split
      · rename_i hc
        subst hc
        cases hx : arrRest (skipVal (List.length (0x5b :: r))) r with
        | none => rfl
        | some p =>
          simp only [Option.bind_some]
          refine unmByteElems_old ?_ _ _
          clear hw
          generalize hy : (0x5b :: r : Bytes) = y at hs
          cases hs with
          | scalar _ h5 _ => rw [← hy] at h5; exact absurd rfl h5
          | obj => cases hy
          | @arr w ss hw0 hw hss =>
            simp only [List.cons.injEq, true_and] at hy
            subst hy
            rw [arrRest_raw hw0 hw hss] at hx
            cases hx
            intro e he hn
            obtain ⟨s, hm, rfl⟩ := List.mem_map.mp he
            obtain ⟨x, y, e, hx⟩ := commas_part (List.mem_map_of_mem (f := SElem.out) hm)
            have hb := h (w1 ++ 0x5b :: (w ++ (x ++ s.pre))) (s.post ++ (y ++ 0x5d :: w2))
              (by rw [e, SElem.out, hn]; simp [jNull])
            rcases hb with ⟨e1, _⟩ | ⟨a', v, hv, e1⟩
            · simp at e1
            · rcases hx with rfl | ⟨x', rfl⟩
              · have := last_token (p := w1) (c := 0x5b) (d := 0x3a) (v := w ++ s.pre) (w := v)
                  (fun c hc => (List.mem_append.mp hc).elim (hw0 c) ((hw s hm).1 c)) hv (by decide) (by decide) (by simpa using e1)
                cases this
              · have := last_token (p := w1 ++ 0x5b :: (w ++ x')) (c := 0x2c) (d := 0x3a) (v := s.pre) (w := v)
                  (hw s hm).1 hv (by decide) (by decide) (by simpa using e1)
                cases this
      · rfl

end Amino
