import Verif.JsonIndent
import Verif.SpecSpace
import Verif.JsonScan

/-!
# What json.Indent writes is the text it was given, with white space between tokens
-/

namespace Amino
open Spec

variable {pre ind : Bytes}

theorem indentLine_white (hp : White pre) (hi : White ind) (d : Nat) : White (indentLine pre ind d) := by
  intro x hx
  unfold indentLine at hx
  simp only [List.mem_cons, List.mem_append, List.mem_flatten, List.mem_replicate] at hx
  rcases hx with rfl | hx | ⟨l, ⟨_, rfl⟩, hx⟩
  · decide
  · exact hp x hx
  · exact hi x hx

/-- A character that stands for itself. -/
def Plain (c : UInt8) : Prop := isWs c = false ∧ c ∉ [0x7d, 0x5d, 0x7b, 0x5b, 0x2c, 0x3a, 0x22]

theorem indent_plain {b : Bytes} (h : ∀ c ∈ b, Plain c) (d : Nat) (rest : Bytes) :
    indentLoop pre ind .out false d (b ++ rest) = b ++ indentLoop pre ind .out false d rest := by
  induction b with
  | nil => rfl
  | cons c b ih =>
    obtain ⟨h1, h2⟩ := h c (by simp)
    simp only [List.mem_cons, List.not_mem_nil, or_false, not_or] at h2
    obtain ⟨a1, a2, a3, a4, a5, a6, a7⟩ := h2
    rw [List.cons_append, indentLoop]
    simp [h1, a1, a2, a3, a4, a5, a6, a7, ih fun x hx => h x (by simp [hx])]

theorem indent_body {b : Bytes} (h : StrBody b) (d : Nat) (rest : Bytes) :
    indentLoop pre ind .str false d (b ++ 0x22 :: rest) = b ++ 0x22 :: indentLoop pre ind .out false d rest := by
  induction h with
  | nil => simp [indentLoop]
  | plain _ h2 h3 _ ih => rw [List.cons_append, indentLoop, if_neg h2, if_neg h3, ih]; rfl
  | esc _ _ ih =>
    rw [List.cons_append, List.cons_append, indentLoop, if_neg (by decide), if_pos rfl, indentLoop, ih]; rfl
  | uni ha hb hc hd _ ih =>
    have hx : ∀ {x}, HexDigit x → x ≠ 0x22 ∧ x ≠ 0x5c := by
      intro x hx
      constructor <;> rintro rfl <;> revert hx <;> unfold HexDigit <;> decide
    simp only [List.cons_append]
    rw [indentLoop, if_neg (by decide), if_pos rfl, indentLoop, indentLoop, if_neg (hx ha).1, if_neg (hx ha).2, indentLoop,
      if_neg (hx hb).1, if_neg (hx hb).2, indentLoop, if_neg (hx hc).1, if_neg (hx hc).2, indentLoop, if_neg (hx hd).1,
      if_neg (hx hd).2, ih]

theorem indent_str {b : Bytes} (h : StrText b) (d : Nat) (rest : Bytes) :
    indentLoop pre ind .out false d (b ++ rest) = b ++ indentLoop pre ind .out false d rest := by
  cases h with
  | mk hb =>
    rw [List.cons_append, indentLoop]
    simp [isWs, indent_body hb]

theorem num_plain {b : Bytes} (h : NumText b) : ∀ c ∈ b, Plain c := by
  have hd : ∀ {x}, Digit x → Plain x := by
    intro x hx
    have h1 := UInt8.le_iff_toNat_le.1 hx.1
    have h2 := UInt8.le_iff_toNat_le.1 hx.2
    have hne : ∀ {y : UInt8}, y.toNat < 0x30 ∨ 0x39 < y.toNat → x ≠ y := by
      rintro y hy rfl
      have e1 : (0x30 : UInt8).toNat = 0x30 := rfl
      have e2 : (0x39 : UInt8).toNat = 0x39 := rfl
      omega
    refine ⟨?_, ?_⟩
    · simp [isWs, hne (y := 0x20) (by decide), hne (y := 0x09) (by decide), hne (y := 0x0a) (by decide),
        hne (y := 0x0d) (by decide)]
    · simp only [List.mem_cons, List.not_mem_nil, or_false, not_or]
      refine ⟨?_, ?_, ?_, ?_, ?_, ?_, ?_⟩ <;> refine hne (by decide)
  have hi : ∀ {i}, IntPart i → ∀ c ∈ i, Plain c := by
    intro i hi c hc
    cases hi with
    | zero => exact hd (by simp at hc; subst hc; unfold Digit; decide)
    | pos h1 h2 h3 =>
      rcases List.mem_cons.1 hc with rfl | hc
      · exact hd ⟨UInt8.le_trans (by decide) h1, h2⟩
      · exact hd (h3 c hc)
  have hf : ∀ {f}, FracPart f → ∀ c ∈ f, Plain c := by
    intro f hf c hc
    cases hf with
    | none => cases hc
    | some _ h =>
      rcases List.mem_cons.1 hc with rfl | hc
      · unfold Plain; decide
      · exact hd (h c hc)
  have he : ∀ {e}, ExpPart e → ∀ c ∈ e, Plain c := by
    intro e he c hc
    cases he with
    | none => cases hc
    | bare h1 _ h =>
      rcases List.mem_cons.1 hc with rfl | hc
      · rcases h1 with rfl | rfl <;> (unfold Plain; decide)
      · exact hd (h c hc)
    | sign h1 h2 _ h =>
      rcases List.mem_cons.1 hc with rfl | hc
      · rcases h1 with rfl | rfl <;> (unfold Plain; decide)
      rcases List.mem_cons.1 hc with rfl | hc
      · rcases h2 with rfl | rfl <;> (unfold Plain; decide)
      · exact hd (h c hc)
  have hall : ∀ {i f e}, IntPart i → FracPart f → ExpPart e → ∀ c ∈ i ++ f ++ e, Plain c := by
    intro i f e h1 h2 h3 c hc
    rcases List.mem_append.1 hc with hc | hc
    · rcases List.mem_append.1 hc with hc | hc
      · exact hi h1 c hc
      · exact hf h2 c hc
    · exact he h3 c hc
  intro c hc
  cases h with
  | pos h1 h2 h3 => exact hall h1 h2 h3 c hc
  | neg h1 h2 h3 =>
    rcases List.mem_cons.1 hc with rfl | hc
    · unfold Plain; decide
    · exact hall h1 h2 h3 c hc

/-- The delayed indentation after an opening bracket. -/
theorem indent_need {c : UInt8} {r : Bytes} {d : Nat} (h1 : isWs c = false) (h2 : c ≠ 0x7d) (h3 : c ≠ 0x5d) :
    indentLoop pre ind .out true d (c :: r) = indentLine pre ind (d + 1) ++ indentLoop pre ind .out false (d + 1) (c :: r) := by
  rw [indentLoop, indentLoop]
  simp [h1, h2, h3]

theorem indentLine_eq (d : Nat) : indentLine pre ind d = newLine pre ind d := rfl

/-- What the loop does with one value. -/
def Indents (pre ind b : Bytes) : Prop :=
  ∀ d, ∃ b', Laid pre ind d b b' ∧ ∀ rest,
    indentLoop pre ind .out false d (b ++ rest) = b' ++ indentLoop pre ind .out false d rest

theorem indent_elems {bs : List Bytes} (hne : bs ≠ []) (h : ∀ b ∈ bs, Indents pre ind b)
    (d : Nat) : ∃ es : List (Bytes × Bytes), es.map (fun e => e.1) = bs ∧ (∀ e ∈ es, Laid pre ind (d + 1) e.1 e.2) ∧ ∀ rest,
        indentLine pre ind (d + 1) ++ indentLoop pre ind .out false (d + 1) (commas bs ++ 0x5d :: rest) =
          commas (es.map fun e => newLine pre ind (d + 1) ++ e.2) ++
            (newLine pre ind d ++ 0x5d :: indentLoop pre ind .out false d rest) := by
  induction bs with
  | nil => exact absurd rfl hne
  | cons b bs ih =>
    obtain ⟨b', hb, he⟩ := h b (by simp) (d + 1)
    cases bs with
    | nil =>
      refine ⟨[(b, b')], rfl, ?_, ?_⟩
      · simpa using hb
      · intro rest
        simp only [commas, he, List.map_cons, List.map_nil, List.append_assoc, indentLine_eq]
        congr 2
    | cons b2 bs =>
      obtain ⟨es, h1, h3, h4⟩ := ih (by simp) fun x hx => h x (by simp only [List.mem_cons] at hx ⊢; exact .inr hx)
      cases es with
      | nil => simp at h1
      | cons e es =>
        refine ⟨(b, b') :: e :: es, ?_, ?_, ?_⟩
        · rw [List.map_cons, h1]
        · intro x hx
          rcases List.mem_cons.1 hx with rfl | hx
          · exact hb
          · exact h3 x hx
        · intro rest
          have := h4 rest
          simp only [commas, List.map_cons, List.append_assoc, List.cons_append, he] at this ⊢
          rw [indentLoop]
          simpa [isWs, indentLine_eq] using this

theorem indent_members {ms : List (Bytes × Bytes)} (hne : ms ≠ [])
    (hs : ∀ m ∈ ms, StrText m.1) (h : ∀ m ∈ ms, Indents pre ind m.2) (d : Nat) :
    ∃ es : List (Bytes × Bytes × Bytes), es.map (fun m => m.1 ++ 0x3a :: m.2.1) = ms.map (fun m => m.1 ++ 0x3a :: m.2) ∧
      (∀ m ∈ es, StrText m.1) ∧ (∀ m ∈ es, Laid pre ind (d + 1) m.2.1 m.2.2) ∧ ∀ rest,
        indentLine pre ind (d + 1) ++
            indentLoop pre ind .out false (d + 1) (commas (ms.map fun m => m.1 ++ 0x3a :: m.2) ++ 0x7d :: rest) =
          commas (es.map fun m => newLine pre ind (d + 1) ++ (m.1 ++ 0x3a :: 0x20 :: m.2.2)) ++
            (newLine pre ind d ++ 0x7d :: indentLoop pre ind .out false d rest) := by
  have hcolon : ∀ r, indentLoop pre ind .out false (d + 1) (0x3a :: r) =
      0x3a :: 0x20 :: indentLoop pre ind .out false (d + 1) r := by
    intro r
    rw [indentLoop]
    simp [isWs]
  induction ms with
  | nil => exact absurd rfl hne
  | cons m ms ih =>
    obtain ⟨b', hb, he⟩ := h m (by simp) (d + 1)
    have hn := hs m (by simp)
    cases ms with
    | nil =>
      refine ⟨[(m.1, m.2, b')], rfl, ?_, ?_, ?_⟩
      · simpa using hn
      · simpa using hb
      · intro rest
        simp only [commas, List.map_cons, List.map_nil, List.append_assoc, List.cons_append, indent_str hn,
          hcolon, he, indentLine_eq]
        congr 5
    | cons m2 ms =>
      obtain ⟨es, h1, h2, h3, h4⟩ := ih (by simp) (fun x hx => hs x (by simp only [List.mem_cons] at hx ⊢; exact .inr hx))
        fun x hx => h x (by simp only [List.mem_cons] at hx ⊢; exact .inr hx)
      cases es with
      | nil => simp at h1
      | cons e es =>
        refine ⟨(m.1, m.2, b') :: e :: es, ?_, ?_, ?_, ?_⟩
        · rw [List.map_cons, h1]; rfl
        · intro x hx
          rcases List.mem_cons.1 hx with rfl | hx
          · exact hn
          · exact h2 x hx
        · intro x hx
          rcases List.mem_cons.1 hx with rfl | hx
          · exact hb
          · exact h3 x hx
        · intro rest
          have := h4 rest
          simp only [commas, List.map_cons, List.append_assoc, List.cons_append, indent_str hn, hcolon, he] at this ⊢
          rw [indentLoop]
          simpa [isWs, indentLine_eq] using this

theorem indents {b : Bytes} (h : JText b) : Indents pre ind b := by
  induction h with
  | null => exact fun d => ⟨_, .scalar .null (by decide) (by decide), fun r => indent_plain (by unfold Plain; decide) d r⟩
  | true => exact fun d => ⟨_, .scalar .true (by decide) (by decide), fun r => indent_plain (by unfold Plain; decide) d r⟩
  | false => exact fun d => ⟨_, .scalar .false (by decide) (by decide), fun r => indent_plain (by unfold Plain; decide) d r⟩
  | @num b h =>
    refine fun d => ⟨_, .scalar (.num h) ?_ ?_, fun r => indent_plain (num_plain h) d r⟩
    all_goals
      intro he
      cases b with
      | nil => cases he
      | cons c b =>
        cases he
        exact absurd (num_plain h _ List.mem_cons_self).2 (by decide)
  | @str b h =>
    refine fun d => ⟨_, .scalar (.str h) ?_ ?_, fun r => indent_str h d r⟩
    all_goals cases h; simp
  | @arr bs hj ih =>
    intro d
    by_cases hne : bs = []
    · subst hne
      refine ⟨_, .arrNil, fun rest => ?_⟩
      simp [commas, indentLoop, isWs]
    · obtain ⟨es, h1, h3, h4⟩ := indent_elems hne ih d
      have hsp := Laid.arr (pre := pre) (ind := ind) (d := d) (es := es) (by rintro rfl; exact hne h1.symm) h3
      rw [h1] at hsp
      refine ⟨_, hsp, fun rest => ?_⟩
      obtain ⟨b, bs, rfl⟩ := List.exists_cons_of_ne_nil hne
      obtain ⟨c, r, hb, hw, _, h5, h6⟩ := jtext_head (hj b (by simp))
      obtain ⟨r', hr⟩ := commas_head (bs := bs) hb
      have := h4 rest
      rw [List.cons_append, indentLoop]
      simp only [List.append_assoc, List.cons_append, List.nil_append]
      rw [← this, hr, List.cons_append, indent_need hw h6 h5]
      simp [isWs]
  | @obj ms hs hj ih =>
    intro d
    by_cases hne : ms = []
    · subst hne
      refine ⟨_, .objNil, fun rest => ?_⟩
      simp [commas, indentLoop, isWs]
    · obtain ⟨es, h1, h2, h3, h4⟩ := indent_members hne hs ih d
      have hsp := Laid.obj (pre := pre) (ind := ind) (d := d) (ms := es)
        (by rintro rfl; exact hne (List.map_eq_nil_iff.1 h1.symm)) h2 h3
      rw [h1] at hsp
      refine ⟨_, hsp, fun rest => ?_⟩
      obtain ⟨m, ms, rfl⟩ := List.exists_cons_of_ne_nil hne
      have hst : ∀ {x}, StrText x → ∃ r, x = 0x22 :: r := fun h => by cases h; exact ⟨_, rfl⟩
      obtain ⟨r, hb⟩ := hst (hs m (by simp))
      obtain ⟨r', hr⟩ := commas_head (b := m.1 ++ 0x3a :: m.2) (bs := ms.map fun m => m.1 ++ 0x3a :: m.2)
        (c := 0x22) (r := r ++ 0x3a :: m.2) (by rw [hb]; rfl)
      have := h4 rest
      rw [List.cons_append, indentLoop]
      simp only [List.append_assoc, List.cons_append, List.nil_append]
      rw [← this, List.map_cons, hr, List.cons_append, indent_need (by decide) (by decide) (by decide)]
      simp [isWs]

theorem indentJSON_laid {b : Bytes} (h : JText b) : ∃ b', indentJSON pre ind b = some b' ∧ Laid pre ind 0 b b' := by
  obtain ⟨b', h1, h2⟩ := indents (pre := pre) (ind := ind) h 0
  refine ⟨b', ?_, h1⟩
  have := h2 []
  rw [List.append_nil] at this
  rw [indentJSON, if_pos (validJSON_jtext h), this, indentLoop, List.append_nil]

/-! ## The layout only adds white space -/

theorem elems_of_laid {w1 w2 : Bytes} (hw1 : White w1) (hw2 : White w2) {es : List (Bytes × Bytes)} (hne : es ≠ [])
    (h : ∀ e ∈ es, Spaced e.1 e.2) : ∃ ss : List SElem, ss.map SElem.text = es.map (fun e => e.1) ∧
      (∀ e ∈ ss, White e.pre ∧ White e.post) ∧ (∀ e ∈ ss, Spaced e.text e.spaced) ∧
      commas (ss.map SElem.out) = commas (es.map fun e => w1 ++ e.2) ++ w2 := by
  induction es with
  | nil => exact absurd rfl hne
  | cons e es ih =>
    cases es with
    | nil =>
      refine ⟨[⟨e.1, w1, e.2, w2⟩], rfl, by simp [hw1, hw2], by simpa using h, ?_⟩
      simp [commas, SElem.out]
    | cons e2 es =>
      obtain ⟨ss, h1, h2, h3, h4⟩ := ih (by simp) fun x hx => h x (by simp only [List.mem_cons] at hx ⊢; exact .inr hx)
      cases ss with
      | nil => simp at h1
      | cons s ss =>
        refine ⟨⟨e.1, w1, e.2, []⟩ :: s :: ss, ?_, ?_, ?_, ?_⟩
        · rw [List.map_cons, h1]; rfl
        · intro x hx
          rcases List.mem_cons.1 hx with rfl | hx
          · exact ⟨hw1, by simp [White]⟩
          · exact h2 x hx
        · intro x hx
          rcases List.mem_cons.1 hx with rfl | hx
          · exact h e (by simp)
          · exact h3 x hx
        · simp only [List.map_cons, commas] at h4 ⊢
          rw [h4]
          simp [SElem.out]

theorem members_of_laid {w1 w2 : Bytes} (hw1 : White w1) (hw2 : White w2) {ms : List (Bytes × Bytes × Bytes)} (hne : ms ≠ [])
    (hs : ∀ m ∈ ms, StrText m.1) (h : ∀ m ∈ ms, Spaced m.2.1 m.2.2) :
    ∃ ss : List SMember, ss.map (fun m => m.name ++ 0x3a :: m.text) = ms.map (fun m => m.1 ++ 0x3a :: m.2.1) ∧
      (∀ m ∈ ss, StrText m.name ∧ White m.pre ∧ White m.mid ∧ White m.mid' ∧ White m.post) ∧
      (∀ e ∈ ss, Spaced e.text e.spaced) ∧
      commas (ss.map SMember.out) = commas (ms.map fun m => w1 ++ (m.1 ++ 0x3a :: 0x20 :: m.2.2)) ++ w2 := by
  have hsp : White [0x20] := by simp [White]
  have hnil : White [] := by simp [White]
  induction ms with
  | nil => exact absurd rfl hne
  | cons e es ih =>
    cases es with
    | nil =>
      refine ⟨[⟨e.1, e.2.1, w1, [], [0x20], e.2.2, w2⟩], rfl, ?_, by simpa using h, ?_⟩
      · simp only [List.mem_singleton, forall_eq]
        exact ⟨hs e (by simp), hw1, hnil, hsp, hw2⟩
      · simp [commas, SMember.out]
    | cons e2 es =>
      obtain ⟨ss, h1, h2, h3, h4⟩ := ih (by simp) (fun x hx => hs x (by simp only [List.mem_cons] at hx ⊢; exact .inr hx))
        fun x hx => h x (by simp only [List.mem_cons] at hx ⊢; exact .inr hx)
      cases ss with
      | nil => simp at h1
      | cons s ss =>
        refine ⟨⟨e.1, e.2.1, w1, [], [0x20], e.2.2, []⟩ :: s :: ss, ?_, ?_, ?_, ?_⟩
        · rw [List.map_cons, h1]; rfl
        · intro x hx
          rcases List.mem_cons.1 hx with rfl | hx
          · exact ⟨hs e (by simp), hw1, hnil, hsp, hnil⟩
          · exact h2 x hx
        · intro x hx
          rcases List.mem_cons.1 hx with rfl | hx
          · exact h e (by simp)
          · exact h3 x hx
        · simp only [List.map_cons, commas] at h4 ⊢
          rw [h4]
          simp [SMember.out]

theorem laid_spaced (hp : White pre) (hi : White ind) {d : Nat} {b b' : Bytes} (h : Laid pre ind d b b') : Spaced b b' := by
  have hw := indentLine_white hp hi
  have hnil : White [] := by simp [White]
  induction h with
  | scalar h1 h2 h3 => exact .scalar h1 h2 h3
  | arrNil => exact .arr (w := []) (es := []) hnil (by simp) (by simp)
  | objNil => exact .obj (w := []) (ms := []) hnil (by simp) (by simp)
  | @arr d es hne _ ih =>
    obtain ⟨ss, h1, h2, h3, h4⟩ := elems_of_laid (hw (d + 1)) (hw d) hne ih
    have := Spaced.arr (w := []) hnil h2 h3
    rw [h1, h4] at this
    simpa [indentLine_eq] using this
  | @obj d ms hne hs _ ih =>
    obtain ⟨ss, h1, h2, h3, h4⟩ := members_of_laid (hw (d + 1)) (hw d) hne hs ih
    have := Spaced.obj (w := []) hnil h2 h3
    rw [h1, h4] at this
    simpa [indentLine_eq] using this

end Amino
