import Verif.SpecSpace
import Verif.PropsJson3

/-!
# Reading JSON texts with white space
-/

namespace Amino
open Spec

theorem skipWs_head {c : UInt8} {r : Bytes} {w : Bytes} (hw : White w) (hc : isWs c = false) :
    skipWs (w ++ c :: r) = c :: r := by rw [skipWs_app hw, skipWs_cons hc]

theorem delim_white {w : Bytes} (hw : White w) {c : UInt8} (h : isDigit c = false ∧ c ≠ 0x2e ∧ c ≠ 0x65 ∧ c ≠ 0x45)
    (r : Bytes) : Delim (w ++ c :: r) := by
  cases w with
  | nil => exact delim_cons h r
  | cons x w =>
    refine delim_cons ?_ _
    rcases hw x (by simp) with rfl | rfl | rfl | rfl <;> decide

/-- First characters. -/
def TokStart (c : UInt8) : Prop := isWs c = false ∧ c ≠ 0x2c ∧ c ≠ 0x5d ∧ c ≠ 0x7d

theorem spaced_head {b b' : Bytes} (h : Spaced b b') : ∃ c r r', b = c :: r ∧ b' = c :: r' ∧ TokStart c := by
  cases h with
  | scalar h _ _ => obtain ⟨c, r, hb, hc⟩ := jtext_head h; exact ⟨c, r, r, hb, hb, hc⟩
  | arr _ _ _ => exact ⟨_, _, _, rfl, rfl, by unfold TokStart; decide⟩
  | obj _ _ _ => exact ⟨_, _, _, rfl, rfl, by unfold TokStart; decide⟩

theorem spaced_jtext {b b' : Bytes} (h : Spaced b b') : JText b := by
  induction h with
  | scalar h => exact h
  | @arr w es _ _ _ ih =>
    refine .arr fun b hb => ?_
    obtain ⟨e, he, rfl⟩ := List.mem_map.mp hb
    exact ih e he
  | @obj w ms _ hk _ ih =>
    have := JText.obj (ms := ms.map fun m => (m.name, m.text)) (fun m hm => by
        obtain ⟨e, he, rfl⟩ := List.mem_map.mp hm; exact (hk e he).1) (fun m hm => by
        obtain ⟨e, he, rfl⟩ := List.mem_map.mp hm; exact ih e he)
    rw [List.map_map] at this
    exact this

section
variable {val : Bytes → Option Bytes}

theorem arrElems_spaced {es : List SElem} (hn : es ≠ []) (hw : ∀ e ∈ es, White e.pre ∧ White e.post)
    (hs : ∀ e ∈ es, ∃ c r, e.spaced = c :: r ∧ isWs c = false) (hr : ∀ e ∈ es, Reads val e.spaced)
    {n : Nat} (hl : es.length ≤ n) (rest : Bytes) :
    arrElems val n (skipWs (commas (es.map SElem.out) ++ 0x5d :: rest)) = some (es.map SElem.spaced, rest) := by
  induction es generalizing n with
  | nil => exact absurd rfl hn
  | cons e es ih =>
    obtain ⟨n, rfl⟩ : ∃ m, n = m + 1 := ⟨n - 1, by simp at hl; omega⟩
    obtain ⟨c, r, hc, hcw⟩ := hs e (by simp)
    obtain ⟨hp, hq⟩ := hw e (by simp)
    have hskip : ∀ x, skipWs (e.out ++ x) = e.spaced ++ (e.post ++ x) := by
      intro x
      unfold SElem.out
      rw [List.append_assoc, List.append_assoc, hc, List.cons_append, skipWs_head hp hcw]
    cases es with
    | nil =>
      simp only [List.map_cons, List.map_nil, commas]
      rw [hskip, arrElems, hr e (by simp) _ (delim_white hq (by decide) _)]
      simp only [Option.bind_some, before_append]
      rw [skipWs_head hq (by decide)]
      simp
    | cons e' es =>
      have hi := ih (by simp) (fun b hb => hw b (by simp [hb])) (fun b hb => hs b (by simp [hb]))
        (fun b hb => hr b (by simp [hb])) (n := n) (by simpa using hl)
      have hc' : commas ((e :: e' :: es).map SElem.out) = e.out ++ 0x2c :: commas ((e' :: es).map SElem.out) := rfl
      rw [hc', List.append_assoc, List.cons_append, hskip, arrElems, hr e (by simp) _ (delim_white hq (by decide) _)]
      simp only [Option.bind_some, before_append]
      rw [skipWs_head hq (by decide)]
      simp only [if_true]
      rw [hi]
      rfl

theorem commas_map_length {α : Type} (l : List α) (f : α → Bytes) (h : ∀ a ∈ l, f a ≠ []) :
    l.length ≤ (commas (l.map f)).length := by
  have := commas_length (l.map f) (fun b hb => by obtain ⟨a, ha, rfl⟩ := List.mem_map.mp hb; exact h a ha)
  simpa using this

theorem out_ne {e : SElem} (h : ∃ c r, e.spaced = c :: r ∧ isWs c = false) : e.out ≠ [] := by
  obtain ⟨c, r, h, _⟩ := h
  simp [SElem.out, h]

theorem skipWs_first {w x : Bytes} (hw : White w) : skipWs (w ++ x) = skipWs x := skipWs_app hw x

theorem arrRest_spaced {w : Bytes} (hw0 : White w) {es : List SElem} (hw : ∀ e ∈ es, White e.pre ∧ White e.post)
    (hs : ∀ e ∈ es, ∃ c r, e.spaced = c :: r ∧ TokStart c) (hr : ∀ e ∈ es, Reads val e.spaced) (rest : Bytes) :
    arrRest val (w ++ (commas (es.map SElem.out) ++ 0x5d :: rest)) = some (es.map SElem.spaced, rest) := by
  cases es with
  | nil =>
    rw [arrRest]
    simp only [List.map_nil, commas, List.nil_append]
    rw [skipWs_head hw0 (by decide)]
    simp
  | cons e es =>
    have hs' : ∀ x ∈ e :: es, ∃ c r, x.spaced = c :: r ∧ isWs c = false := fun x hx => by
      obtain ⟨c, r, h, hc⟩ := hs x hx; exact ⟨c, r, h, hc.1⟩
    have hl := commas_map_length (e :: es) SElem.out fun x hx => out_ne (hs' x hx)
    have := arrElems_spaced (val := val) (es := e :: es) (by simp) hw hs' hr
      (n := (w ++ (commas ((e :: es).map SElem.out) ++ 0x5d :: rest)).length) (by simp at hl ⊢; omega) rest
    obtain ⟨c, r, hc, hcw, _, h5d, _⟩ := hs e (by simp)
    have hsk : ∃ r', skipWs (commas ((e :: es).map SElem.out) ++ 0x5d :: rest) = c :: r' := by
      have : ∃ y, commas ((e :: es).map SElem.out) = e.pre ++ c :: y := by
        cases es with
        | nil => exact ⟨r ++ e.post, by simp [commas, SElem.out, hc]⟩
        | cons e' es => exact ⟨r ++ (e.post ++ 0x2c :: commas ((e' :: es).map SElem.out)), by
            simp [commas, SElem.out, hc]⟩
      obtain ⟨y, hy⟩ := this
      rw [hy, List.append_assoc, List.cons_append, skipWs_head (hw e (by simp)).1 hcw]
      exact ⟨_, rfl⟩
    obtain ⟨r', hr'⟩ := hsk
    unfold arrRest
    rw [skipWs_app hw0]
    rw [hr'] at this ⊢
    simp only [if_neg h5d]
    exact this

theorem objMembers_spaced {ms : List SMember} (hn : ms ≠ [])
    (hw : ∀ m ∈ ms, StrText m.name ∧ White m.pre ∧ White m.mid ∧ White m.mid' ∧ White m.post)
    (hs : ∀ m ∈ ms, ∃ c r, m.spaced = c :: r ∧ isWs c = false) (hr : ∀ m ∈ ms, Reads val m.spaced)
    {n : Nat} (hl : ms.length ≤ n) (rest : Bytes) :
    objMembers val n (skipWs (commas (ms.map SMember.out) ++ 0x7d :: rest)) =
      some (ms.map fun m => (m.name, m.spaced), rest) := by
  induction ms generalizing n with
  | nil => exact absurd rfl hn
  | cons m ms ih =>
    obtain ⟨n, rfl⟩ : ∃ m, n = m + 1 := ⟨n - 1, by simp at hl; omega⟩
    obtain ⟨c, r, hc, hcw⟩ := hs m (by simp)
    obtain ⟨hk, hp, h1, h2, hq⟩ := hw m (by simp)
    have hskip : ∀ x, skipWs (m.out ++ x) = m.name ++ (m.mid ++ 0x3a :: (m.mid' ++ (m.spaced ++ (m.post ++ x)))) := by
      intro x
      obtain ⟨y, hy⟩ := strText_head hk
      unfold SMember.out
      simp only [List.append_assoc, List.cons_append]
      rw [hy, List.cons_append, skipWs_head hp (by decide)]
    have hsk2 : ∀ x, skipWs (m.mid' ++ (m.spaced ++ x)) = m.spaced ++ x := by
      intro x; rw [hc, List.cons_append, skipWs_head h2 hcw]
    cases ms with
    | nil =>
      simp only [List.map_cons, List.map_nil, commas]
      rw [hskip, objMembers, strLit_app hk]
      simp only [Option.bind_some]
      rw [skipWs_head h1 (by decide)]
      simp only [if_true, hsk2]
      rw [hr m (by simp) _ (delim_white hq (by decide) _)]
      simp only [Option.bind_some, before_append]
      rw [skipWs_head hq (by decide)]
      simp
    | cons m' ms =>
      have hi := ih (by simp) (fun b hb => hw b (by simp [hb])) (fun b hb => hs b (by simp [hb]))
        (fun b hb => hr b (by simp [hb])) (n := n) (by simpa using hl)
      have hc' : commas ((m :: m' :: ms).map SMember.out) = m.out ++ 0x2c :: commas ((m' :: ms).map SMember.out) := rfl
      rw [hc', List.append_assoc, List.cons_append, hskip, objMembers, strLit_app hk]
      simp only [Option.bind_some]
      rw [skipWs_head h1 (by decide)]
      simp only [if_true, hsk2]
      rw [hr m (by simp) _ (delim_white hq (by decide) _)]
      simp only [Option.bind_some, before_append]
      rw [skipWs_head hq (by decide)]
      simp only [if_true]
      rw [hi]
      rfl

theorem objRest_spaced {w : Bytes} (hw0 : White w) {ms : List SMember}
    (hw : ∀ m ∈ ms, StrText m.name ∧ White m.pre ∧ White m.mid ∧ White m.mid' ∧ White m.post)
    (hs : ∀ m ∈ ms, ∃ c r, m.spaced = c :: r ∧ isWs c = false) (hr : ∀ m ∈ ms, Reads val m.spaced) (rest : Bytes) :
    objRest val (w ++ (commas (ms.map SMember.out) ++ 0x7d :: rest)) = some (ms.map fun m => (m.name, m.spaced), rest) := by
  cases ms with
  | nil =>
    rw [objRest]
    simp only [List.map_nil, commas, List.nil_append]
    rw [skipWs_head hw0 (by decide)]
    simp
  | cons m ms =>
    have hl := commas_map_length (m :: ms) SMember.out fun x hx => by simp [SMember.out]
    have := objMembers_spaced (val := val) (ms := m :: ms) (by simp) hw hs hr
      (n := (w ++ (commas ((m :: ms).map SMember.out) ++ 0x7d :: rest)).length) (by simp at hl ⊢; omega) rest
    have hsk : ∃ r', skipWs (commas ((m :: ms).map SMember.out) ++ 0x7d :: rest) = 0x22 :: r' := by
      obtain ⟨y, hy⟩ := strText_head (hw m (by simp)).1
      have : ∃ y, commas ((m :: ms).map SMember.out) = m.pre ++ 0x22 :: y := by
        cases ms with
        | nil => exact ⟨y ++ (m.mid ++ 0x3a :: (m.mid' ++ (m.spaced ++ m.post))), by simp [commas, SMember.out, hy]⟩
        | cons m' ms => exact ⟨y ++ (m.mid ++ 0x3a :: (m.mid' ++ (m.spaced ++ (m.post ++
            0x2c :: commas ((m' :: ms).map SMember.out))))), by simp [commas, SMember.out, hy]⟩
      obtain ⟨y, hy⟩ := this
      rw [hy, List.append_assoc, List.cons_append, skipWs_head (hw m (by simp)).2.1 (by decide)]
      exact ⟨_, rfl⟩
    obtain ⟨r', hr'⟩ := hsk
    unfold objRest
    rw [skipWs_app hw0]
    rw [hr'] at this ⊢
    simp only [if_neg (show ¬ (0x22 : UInt8) = 0x7d by decide)]
    exact this

end

theorem elem_le {es : List SElem} {e : SElem} (h : e ∈ es) : e.spaced.length ≤ (commas (es.map SElem.out)).length := by
  have := mem_commas_length (List.mem_map_of_mem (f := SElem.out) h)
  simp [SElem.out] at this
  omega

theorem member_le {ms : List SMember} {m : SMember} (h : m ∈ ms) :
    m.spaced.length ≤ (commas (ms.map SMember.out)).length := by
  have := mem_commas_length (List.mem_map_of_mem (f := SMember.out) h)
  simp [SMember.out] at this
  omega

/-- The scanner takes a spaced JSON text as one value. -/
theorem skipVal_spaced {b b' : Bytes} (h : Spaced b b') : ∀ {n : Nat}, b'.length ≤ n → Reads (skipVal n) b' := by
  induction h with
  | scalar h => exact fun hl => skipVal_jtext h hl
  | @arr w es hw0 hw hs ih =>
    intro n hl rest _
    obtain ⟨n, rfl⟩ : ∃ m, n = m + 1 := ⟨n - 1, by simp at hl; omega⟩
    rw [List.cons_append, skipVal, if_neg (by decide), if_pos rfl, List.append_assoc, List.append_assoc,
      List.cons_append, List.nil_append, arrRest_spaced hw0 hw]
    · rfl
    · intro e he; obtain ⟨c, r, r', _, h, hc⟩ := spaced_head (hs e he); exact ⟨c, r', h, hc⟩
    · intro e he
      refine ih e he ?_
      have := elem_le he
      simp at hl; omega
  | @obj w ms hw0 hw hs ih =>
    intro n hl rest _
    obtain ⟨n, rfl⟩ : ∃ m, n = m + 1 := ⟨n - 1, by simp at hl; omega⟩
    rw [List.cons_append, skipVal, if_neg (by decide), if_neg (by decide), if_pos rfl, List.append_assoc,
      List.append_assoc, List.cons_append, List.nil_append, objRest_spaced hw0 hw]
    · rfl
    · intro e he; obtain ⟨c, r, r', _, h, hc⟩ := spaced_head (hs e he); exact ⟨c, r', h, hc.1⟩
    · intro e he
      refine ih e he ?_
      have := member_le he
      simp at hl; omega

theorem wholeVal_around {b b' w1 w2 : Bytes} (h : Spaced b b') (h1 : White w1) (h2 : White w2) :
    wholeVal (w1 ++ (b' ++ w2)) = some b' := by
  obtain ⟨x, _, r, _, hb, hw, _⟩ := spaced_head h
  have hs : skipWs (w1 ++ (b' ++ w2)) = b' ++ w2 := by
    rw [skipWs_app h1, hb, List.cons_append, skipWs_cons hw]
  have hd : Delim w2 := by
    intro y r' hy
    rcases h2 y (by simp [hy]) with rfl | rfl | rfl | rfl <;> decide
  have := skipVal_spaced h (n := (w1 ++ (b' ++ w2)).length + 1) (by simp; omega) w2 hd
  unfold wholeVal
  rw [hs, this]
  have hw2 : skipWs w2 = [] := by rw [← List.append_nil w2, skipWs_app h2]; rfl
  simp [hw2, before_append]

theorem wholeVal_spaced {b b' : Bytes} (h : Spaced b b') : wholeVal b' = some b' := by
  have := wholeVal_around h (w1 := []) (w2 := []) (by simp [White]) (by simp [White])
  simpa using this

/-! ## The readers give the same -/

theorem pairs_map {α β γ : Type} {R : β → γ → Prop} {l : List α} {f : α → β} {g : α → γ} (h : ∀ a ∈ l, R (f a) (g a)) :
    Pairs R (l.map f) (l.map g) := by
  induction l with
  | nil => exact .nil
  | cons a l ih => exact .cons (h a (by simp)) (ih fun b hb => h b (by simp [hb]))

theorem not_null_arr (x : Bytes) : ((0x5b :: x : Bytes) = jNull) = False := by simp [jNull]

theorem not_null_obj (x : Bytes) : ((0x7b :: x : Bytes) = jNull) = False := by simp [jNull]

/-- Either both fail or both succeed, with related results. -/
inductive Both {α : Type} (R : α → α → Prop) : Option α → Option α → Prop
  | none : Both R none none
  | some {a b : α} : R a b → Both R (some a) (some b)

theorem spaced_null {b b' : Bytes} (h : Spaced b b') : b = jNull ↔ b' = jNull := by
  cases h with
  | scalar => exact Iff.rfl
  | arr => simp [jNull]
  | obj => simp [jNull]

theorem spaced_nil {b b' : Bytes} (h : Spaced b b') : b ≠ [] ∧ b' ≠ [] := by
  obtain ⟨c, r, r', rfl, rfl, _⟩ := spaced_head h
  simp

theorem elem_start {es : List SElem} (hs : ∀ e ∈ es, Spaced e.text e.spaced) :
    ∀ e ∈ es, ∃ c r, e.spaced = c :: r ∧ TokStart c := by
  intro e he; obtain ⟨c, r, r', _, h, hc⟩ := spaced_head (hs e he); exact ⟨c, r', h, hc⟩

/-- Elements of the array whose brackets enclose the text. -/
theorem arrRest_raw {w : Bytes} {es : List SElem} (hw0 : White w) (hw : ∀ e ∈ es, White e.pre ∧ White e.post)
    (hs : ∀ e ∈ es, Spaced e.text e.spaced) :
    arrRest (skipVal (0x5b :: (w ++ (commas (es.map SElem.out) ++ [0x5d]))).length)
      (w ++ (commas (es.map SElem.out) ++ [0x5d])) = some (es.map SElem.spaced, []) := by
  refine arrRest_spaced hw0 hw (elem_start hs) (fun e he => skipVal_spaced (hs e he) ?_) []
  have := elem_le he
  simp; omega

theorem objRest_raw {w : Bytes} {ms : List SMember} (hw0 : White w)
    (hw : ∀ m ∈ ms, StrText m.name ∧ White m.pre ∧ White m.mid ∧ White m.mid' ∧ White m.post)
    (hs : ∀ m ∈ ms, Spaced m.text m.spaced) :
    objRest (skipVal (0x7b :: (w ++ (commas (ms.map SMember.out) ++ [0x7d]))).length)
      (w ++ (commas (ms.map SMember.out) ++ [0x7d])) = some (ms.map fun m => (m.name, m.spaced), []) := by
  refine objRest_spaced hw0 hw ?_ (fun e he => skipVal_spaced (hs e he) ?_) []
  · intro e he; obtain ⟨c, r, r', _, h, hc⟩ := spaced_head (hs e he); exact ⟨c, r', h, hc.1⟩
  · have := member_le he
    simp; omega

theorem arrRest_text {es : List SElem} (hs : ∀ e ∈ es, Spaced e.text e.spaced) :
    arrRest (skipVal (0x5b :: (commas (es.map SElem.text) ++ [0x5d])).length)
      (commas (es.map SElem.text) ++ [0x5d]) = some (es.map SElem.text, []) := by
  have hj : ∀ b ∈ es.map SElem.text, JText b := by
    intro b hb
    obtain ⟨e, he, rfl⟩ := List.mem_map.mp hb
    exact spaced_jtext (hs e he)
  refine arrRest_app hj (fun b hb => skipVal_jtext (hj b hb) ?_) []
  have := mem_commas_length hb
  simp at this ⊢; omega

theorem objRest_text {ms : List SMember} (hk : ∀ m ∈ ms, StrText m.name)
    (hs : ∀ m ∈ ms, Spaced m.text m.spaced) :
    objRest (skipVal (0x7b :: (commas (ms.map fun m => m.name ++ 0x3a :: m.text) ++ [0x7d])).length)
      (commas (ms.map fun m => m.name ++ 0x3a :: m.text) ++ [0x7d]) = some (ms.map fun m => (m.name, m.text), []) := by
  have he : (ms.map fun m => m.name ++ 0x3a :: m.text) = (ms.map fun m => (m.name, m.text)).map memberText := by
    rw [List.map_map]; rfl
  have hj : ∀ m ∈ ms.map (fun m => (m.name, m.text)), JText m.2 := by
    intro b hb
    obtain ⟨e, he, rfl⟩ := List.mem_map.mp hb
    exact spaced_jtext (hs e he)
  rw [he]
  refine objRest_app ?_ hj (fun m hm => skipVal_jtext (hj m hm) ?_) []
  · intro m hm
    obtain ⟨e, he, rfl⟩ := List.mem_map.mp hm
    exact hk e he
  · have := mem_commas_length (List.mem_map_of_mem (f := memberText) hm)
    simp [memberText] at this ⊢; omega

section
variable {b b' w1 w2 : Bytes} (h : Spaced b b') (h1 : White w1) (h2 : White w2)
include h h1 h2

theorem unmRaws_around : Both (Pairs Spaced) (unmRaws b) (unmRaws (w1 ++ (b' ++ w2))) := by
  unfold unmRaws
  rw [wholeVal_around h h1 h2, wholeVal_jtext (spaced_jtext h)]
  simp only [Option.bind_some]
  cases h with
  | @scalar b hj ha ho =>
    obtain ⟨c, r, rfl, _⟩ := jtext_head hj
    simp only
    split
    · exact .some .nil
    · rw [if_neg (by simpa using ha)]
      exact .none
  | @arr w es hw0 hw hs =>
    simp only [not_null_arr, ↓reduceIte]
    rw [arrRest_raw hw0 hw hs, arrRest_text hs]
    exact .some (pairs_map hs)
  | @obj w ms hw0 hw hs =>
    simp only [not_null_obj, show ((0x7b : UInt8) = 0x5b) = False by decide, ↓reduceIte]
    exact .none

theorem unmStr_around (old : Bytes) : unmStr old (w1 ++ (b' ++ w2)) = unmStr old b := by
  unfold unmStr
  rw [wholeVal_around h h1 h2, wholeVal_jtext (spaced_jtext h)]
  cases h with
  | scalar => rfl
  | arr => simp [jNull]
  | obj => simp [jNull]

theorem unmBool_around (old : Bool) : unmBool old (w1 ++ (b' ++ w2)) = unmBool old b := by
  unfold unmBool
  rw [wholeVal_around h h1 h2, wholeVal_jtext (spaced_jtext h)]
  cases h with
  | scalar => rfl
  | arr => simp [jNull, jTrue, jFalse]
  | obj => simp [jNull, jTrue, jFalse]

omit h h1 h2 in
theorem parseIntKind_bracket (k : IntKind) {c : UInt8} (hc : c = 0x5b ∨ c = 0x7b) (r : Bytes) :
    parseIntKind k (c :: r) = none := by
  have hd : parseInt (c :: r) = none := by
    unfold parseInt parseNat
    rcases hc with rfl | rfl <;> simp [parseDigits, isDigit]
  unfold parseIntKind
  rw [hd]
  split <;> rfl

theorem unmInt_around (k : IntKind) (old : Int) : unmInt k old (w1 ++ (b' ++ w2)) = unmInt k old b := by
  unfold unmInt
  rw [wholeVal_around h h1 h2, wholeVal_jtext (spaced_jtext h)]
  cases h with
  | scalar => rfl
  | arr => simp [jNull, parseIntKind_bracket]
  | obj => simp [jNull, parseIntKind_bracket]

omit h h1 h2 in
theorem unmByteElems_pairs {l l' : List Bytes} (hp : Pairs Spaced l l') (old : Bytes) : unmByteElems old l = unmByteElems old l' := by
  induction hp generalizing old with
  | nil => rfl
  | @cons a a' l l' ha _ ih =>
    unfold unmByteElems
    rw [ih]
    cases ha with
    | scalar => rfl
    | arr => simp [jNull, parseIntKind_bracket]
    | obj => simp [jNull, parseIntKind_bracket]

theorem unmBytes_around (old : Bytes) : unmBytes old (w1 ++ (b' ++ w2)) = unmBytes old b := by
  unfold unmBytes
  rw [wholeVal_around h h1 h2, wholeVal_jtext (spaced_jtext h)]
  simp only [Option.bind_some]
  cases h with
  | scalar => rfl
  | @arr w es hw0 hw hs =>
    simp only [not_null_arr, show ((0x5b : UInt8) = 0x22) = False by decide, ↓reduceIte]
    rw [arrRest_raw hw0 hw hs, arrRest_text hs]
    exact (unmByteElems_pairs (pairs_map hs) _).symm
  | @obj w ms hw0 hw hs =>
    simp [jNull]

/-- Members with the same names and related values. -/
def SameMembers (l l' : List (Bytes × Bytes)) : Prop := Pairs (fun p q => p.1 = q.1 ∧ Spaced p.2 q.2) l l'

omit h h1 h2 in
theorem unquote_pairs {ms : List SMember} (hs : ∀ m ∈ ms, Spaced m.text m.spaced) :
    Both SameMembers
      ((ms.map fun m => (m.name, m.text)).foldr
        (fun kv acc => acc.bind fun l => (unquote kv.1).map fun k => (k, kv.2) :: l) (some []))
      ((ms.map fun m => (m.name, m.spaced)).foldr
        (fun kv acc => acc.bind fun l => (unquote kv.1).map fun k => (k, kv.2) :: l) (some [])) := by
  induction ms with
  | nil => exact .some .nil
  | cons m ms ih =>
    simp only [List.map_cons, List.foldr_cons]
    have hi := ih fun x hx => hs x (by simp [hx])
    generalize List.foldr (fun (kv : Bytes × Bytes) (acc : Option (List (Bytes × Bytes))) =>
      acc.bind fun l => (unquote kv.1).map fun k => (k, kv.2) :: l) (some []) (ms.map fun m => (m.name, m.text)) = x at hi ⊢
    generalize List.foldr (fun (kv : Bytes × Bytes) (acc : Option (List (Bytes × Bytes))) =>
      acc.bind fun l => (unquote kv.1).map fun k => (k, kv.2) :: l) (some []) (ms.map fun m => (m.name, m.spaced)) = y at hi ⊢
    cases hi with
    | none => exact .none
    | some hp =>
      cases hu : unquote m.name with
      | none => exact .none
      | some k => exact .some (.cons ⟨rfl, hs m (by simp)⟩ hp)

omit h1 h2 in
/-- Both are `null`, or neither is and the members correspond. -/
theorem unmMembers_around :
    (b = jNull ∧ b' = jNull) ∨ (b ≠ jNull ∧ b' ≠ jNull ∧ Both SameMembers (unmMembers b) (unmMembers b')) := by
  cases h with
  | @scalar b hj ha ho =>
    by_cases hn : b = jNull
    · exact .inl ⟨hn, hn⟩
    · refine .inr ⟨hn, hn, ?_⟩
      obtain ⟨c, r, rfl, _⟩ := jtext_head hj
      unfold unmMembers
      simp only
      rw [if_neg (by simpa using ho)]
      exact .none
  | arr => exact .inr ⟨by simp [jNull], by simp [jNull], by simp only [unmMembers]; exact .none⟩
  | @obj w ms hw0 hw hs =>
    refine .inr ⟨by simp [jNull], by simp [jNull], ?_⟩
    unfold unmMembers
    simp only [if_true]
    rw [objRest_raw hw0 hw hs, objRest_text (fun m hm => (hw m hm).1) hs]
    exact unquote_pairs hs

omit h h1 h2 in
theorem assocSet_same {k v v' : Bytes} (hv : Spaced v v') {l l' : List (Bytes × Bytes)} (hl : SameMembers l l') :
    SameMembers (assocSet k v l) (assocSet k v' l') := by
  induction hl with
  | nil => exact .cons ⟨rfl, hv⟩ .nil
  | @cons p q l l' hpq hl ih =>
    obtain ⟨k1, v1⟩ := p
    obtain ⟨k2, v2⟩ := q
    obtain ⟨rfl, hvv⟩ := hpq
    unfold assocSet
    simp only
    split
    · exact .cons ⟨rfl, hv⟩ hl
    · exact .cons ⟨rfl, hvv⟩ ih

omit h h1 h2 in
theorem assocOf_same {l l' : List (Bytes × Bytes)} (hl : SameMembers l l') {a a' : List (Bytes × Bytes)}
    (ha : SameMembers a a') : SameMembers (assocOf l a) (assocOf l' a') := by
  induction hl generalizing a a' with
  | nil => exact ha
  | @cons p q l l' hpq hl ih =>
    obtain ⟨k1, v1⟩ := p
    obtain ⟨k2, v2⟩ := q
    obtain ⟨rfl, hvv⟩ := hpq
    exact ih (assocSet_same hvv ha)

theorem unmRawMap_around : Both SameMembers (unmRawMap b) (unmRawMap (w1 ++ (b' ++ w2))) := by
  unfold unmRawMap
  rw [wholeVal_around h h1 h2, wholeVal_jtext (spaced_jtext h)]
  simp only [Option.bind_some]
  rcases unmMembers_around h with ⟨hn, hn'⟩ | ⟨hn, hn', hb⟩
  · rw [if_pos hn, if_pos hn']; exact .some .nil
  · rw [if_neg hn, if_neg hn']
    cases hx : unmMembers b <;> cases hy : unmMembers b' <;> rw [hx, hy] at hb <;> cases hb
    · exact .none
    · rename_i hb
      exact .some (assocOf_same hb .nil)

/-- The contents of a wrapper: missing in both, or related. -/
def SameWrap (p q : Bytes × Bytes) : Prop := p.1 = q.1 ∧ ((p.2 = [] ∧ q.2 = []) ∨ Spaced p.2 q.2)

omit h h1 h2 in
theorem unmWrapperMembers_same {l l' : List (Bytes × Bytes)} (hl : SameMembers l l') {a a' : Bytes × Bytes}
    (ha : SameWrap a a') : Both SameWrap (unmWrapperMembers l a) (unmWrapperMembers l' a') := by
  induction hl generalizing a a' with
  | nil => exact .some ha
  | @cons p q l l' hpq hl ih =>
    obtain ⟨k1, v1⟩ := p
    obtain ⟨k2, v2⟩ := q
    obtain ⟨rfl, hvv⟩ := hpq
    simp only at hvv
    unfold unmWrapperMembers
    simp only
    split
    · by_cases hn : v1 = jNull
      · rw [if_pos hn, if_pos ((spaced_null hvv).1 hn)]
        exact ih ha
      · rw [if_neg hn, if_neg fun h => hn ((spaced_null hvv).2 h)]
        cases hvv with
        | @scalar v hj _ _ =>
          split
          · cases hu : unquote v1 with
            | none => exact .none
            | some s => exact ih ⟨rfl, ha.2⟩
          · exact .none
        | arr => simp; exact .none
        | obj => simp; exact .none
    split
    · exact ih ⟨ha.1, .inr hvv⟩
    · exact ih ha

theorem unmWrapper_around : Both SameWrap (unmWrapper b) (unmWrapper (w1 ++ (b' ++ w2))) := by
  unfold unmWrapper
  rw [wholeVal_around h h1 h2, wholeVal_jtext (spaced_jtext h)]
  simp only [Option.bind_some]
  rcases unmMembers_around h with ⟨hn, hn'⟩ | ⟨hn, hn', hb⟩
  · rw [if_pos hn, if_pos hn']; exact .some ⟨rfl, .inl ⟨rfl, rfl⟩⟩
  · rw [if_neg hn, if_neg hn']
    cases hx : unmMembers b <;> cases hy : unmMembers b' <;> rw [hx, hy] at hb <;> cases hb
    · exact .none
    · rename_i hb
      exact unmWrapperMembers_same hb ⟨rfl, .inl ⟨rfl, rfl⟩⟩

/-- Both fail alike, or both give the same name and related contents. -/
theorem decodeInterfaceJSON_around :
    (decodeInterfaceJSON b = .err .json ∧ decodeInterfaceJSON (w1 ++ (b' ++ w2)) = .err .json) ∨
    ∃ n d d', decodeInterfaceJSON b = .ok (n, d) ∧ decodeInterfaceJSON (w1 ++ (b' ++ w2)) = .ok (n, d') ∧ Spaced d d' := by
  have hw := unmWrapper_around h h1 h2
  unfold decodeInterfaceJSON
  cases hx : unmWrapper b <;> cases hy : unmWrapper (w1 ++ (b' ++ w2)) <;> rw [hx, hy] at hw <;> cases hw
  · exact .inl ⟨rfl, rfl⟩
  · rename_i p q hw
    obtain ⟨n, d⟩ := p
    obtain ⟨n', d'⟩ := q
    obtain ⟨hn, hd⟩ := hw
    simp only at hn hd ⊢
    subst hn
    by_cases hnn : n = []
    · exact .inl ⟨by rw [if_pos hnn], by rw [if_pos hnn]⟩
    rw [if_neg hnn, if_neg hnn]
    rcases hd with ⟨rfl, rfl⟩ | hd
    · exact .inl ⟨rfl, rfl⟩
    · rw [if_neg (spaced_nil hd).1, if_neg (spaced_nil hd).2]
      exact .inr ⟨n, d, d', rfl, rfl, hd⟩

end

end Amino
