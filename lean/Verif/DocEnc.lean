import Verif.DocLemmas
import Verif.PropsJson

/-!
# The encoder writes a notation for the document a value stands for
-/

namespace Amino
open Spec

section
variable {Γ : Prog} {c : Codec} {J : JLib}

def RecD (Γ : Prog) (c : Codec) (J : JLib) (rec : Bool → Ty → Val → FOpts → Res Bytes) : Prop :=
  ∀ a t v fo b, rec a t v fo = .ok b → ∃ d, Stands Γ c J a t fo v d ∧ Notation d b

theorem notation_wrap {n : Bytes} {d : JDoc} {b : Bytes} (hn : PlainName n) (h : Notation d b) :
    ∃ name, Decodes n name ∧ Notation (disfixed name d) (wrapText n b) := by
  obtain ⟨cs, _, hd, hs⟩ := spells_plain hn.2.1 hn.2.2
  refine ⟨cs, hd, ?_⟩
  have := Notation.obj (l := [⟨"type".toList, .str cs, [0x74, 0x79, 0x70, 0x65], 0x22 :: (n ++ [0x22])⟩,
    ⟨"value".toList, d, [0x76, 0x61, 0x6c, 0x75, 0x65], b⟩])
    (by
      intro m hm
      simp only [List.mem_cons, List.not_mem_nil, or_false] at hm
      rcases hm with rfl | rfl
      · exact spells_self (cs := "type".toList) (by decide)
      · exact spells_self (cs := "value".toList) (by decide))
    (by
      intro m hm
      simp only [List.mem_cons, List.not_mem_nil, or_false] at hm
      rcases hm with rfl | rfl
      · exact .str hs
      · exact h)
  rw [show wrapText n b = 0x7b :: (commas (List.map NMember.out
      [⟨"type".toList, .str cs, [0x74, 0x79, 0x70, 0x65], 0x22 :: (n ++ [0x22])⟩,
        ⟨"value".toList, d, [0x76, 0x61, 0x6c, 0x75, 0x65], b⟩]) ++ [0x7d]) by
    simp [wrapText, wrapOpen, wrapMid, commas, NMember.out]]
  exact this

variable {rec : Bool → Ty → Val → FOpts → Res Bytes}

theorem jencElems_doc (h : RecD Γ c J rec) {a : Bool} {e : Ty} {fo : FOpts} {vs : List Val} {bs : List Bytes}
    (hb : jencElems rec a e fo vs = .ok bs) : ∃ l : List (Val × JDoc × Bytes), l.map (·.1) = vs ∧ l.map (·.2.2) = bs ∧
      ∀ x ∈ l, Stands Γ c J a e fo x.1 x.2.1 ∧ Notation x.2.1 x.2.2 := by
  induction vs generalizing bs with
  | nil => cases hb; exact ⟨[], rfl, rfl, by simp⟩
  | cons v vs ih =>
    rw [jencElems] at hb
    obtain ⟨b, h1, hb⟩ := Res.bind_eq_ok hb
    obtain ⟨bs', h2, hb⟩ := Res.bind_eq_ok hb
    cases hb
    obtain ⟨l, e1, e2, hl⟩ := ih h2
    obtain ⟨d, hs, hn⟩ := h _ _ _ _ _ h1
    refine ⟨(v, d, b) :: l, by simp [e1], by simp [e2], ?_⟩
    intro x hx
    rcases List.mem_cons.mp hx with rfl | hx
    · exact ⟨hs, hn⟩
    · exact hl x hx

theorem jencList_doc (h : RecD Γ c J rec) {a : Bool} {e : Ty} {fo : FOpts} {vs : List Val} {b : Bytes}
    (hb : jencList Γ c rec a e fo vs = .ok b) : ∃ l : List (Val × JDoc), l.map (·.1) = vs ∧
      (∀ x ∈ l, Stands Γ c J a e fo x.1 x.2) ∧ Notation (.arr (l.map (·.2))) b := by
  rw [jencList] at hb
  obtain ⟨_, _, hb⟩ := Res.bind_eq_ok hb
  obtain ⟨bs, h1, hb⟩ := Res.bind_eq_ok hb
  cases hb
  obtain ⟨l, e1, e2, hl⟩ := jencElems_doc h h1
  refine ⟨l.map fun x => (x.1, x.2.1), by rw [List.map_map]; exact e1, ?_, ?_⟩
  · intro x hx
    obtain ⟨y, hy, rfl⟩ := List.mem_map.mp hx
    exact (hl y hy).1
  · have := Notation.arr (l := l.map (·.2)) (by
      intro x hx
      obtain ⟨y, hy, rfl⟩ := List.mem_map.mp hx
      exact (hl y hy).2)
    rw [joinComma_eq, ← e2]
    rw [List.map_map, List.map_map] at this
    rw [List.map_map]
    exact this

/-- Members with their notation. -/
theorem members_doc {α : Type} {l : List (α × NMember)} (h1 : ∀ x ∈ l, Spells x.2.name x.2.nameText)
    (h2 : ∀ x ∈ l, Notation x.2.doc x.2.text) {bs : List Bytes} (e : l.map (fun x => x.2.out) = bs) :
    Notation (.obj ((l.map fun x => (x.1, x.2.name, x.2.doc)).map (·.2))) (0x7b :: (joinComma bs ++ [0x7d])) := by
  have := Notation.obj (l := l.map (·.2)) (by
      intro x hx
      obtain ⟨y, hy, rfl⟩ := List.mem_map.mp hx
      exact h1 y hy) (by
      intro x hx
      obtain ⟨y, hy, rfl⟩ := List.mem_map.mp hx
      exact h2 y hy)
  rw [joinComma_eq, ← e]
  rw [List.map_map, List.map_map] at this
  rw [List.map_map]
  exact this

theorem jencFields_doc (h : RecD Γ c J rec) {a : Bool} {fs : List Field} {vs : List Val} {bs : List Bytes}
    (hb : jencFields Γ c rec a fs vs = .ok bs) : fs.length = vs.length ∧ ∃ l : List ((Field × Val) × NMember),
      (fs.zip vs).filter (shown Γ) = l.map (·.1) ∧ l.map (fun x => x.2.out) = bs ∧
      ∀ x ∈ l, Decodes x.1.1.opts.jsonName x.2.name ∧ Spells x.2.name x.2.nameText ∧
        Stands Γ c J a x.1.1.ty x.1.1.opts x.1.2 x.2.doc ∧ Notation x.2.doc x.2.text := by
  induction fs generalizing vs bs with
  | nil =>
    cases vs with
    | nil => cases hb; exact ⟨rfl, [], rfl, rfl, by simp⟩
    | cons => cases hb
  | cons f fs ih =>
    cases vs with
    | nil => cases hb
    | cons v vs =>
      rw [jencFields] at hb
      split at hb
      · rename_i hv
        obtain ⟨_, _, hb⟩ := Res.bind_eq_ok hb
        split at hb
        · rename_i ho
          obtain ⟨hl, l, e1, e2, h3⟩ := ih hb
          refine ⟨by simp [hl], l, ?_, e2, h3⟩
          rw [List.zip_cons_cons, List.filter_cons_of_neg, e1]
          simp [shown, hv, leftOut_eq]
          simpa using ho
        · rename_i ho
          obtain ⟨b, h1, hb⟩ := Res.bind_eq_ok hb
          obtain ⟨bs', h2, hb⟩ := Res.bind_eq_ok hb
          cases hb
          obtain ⟨hl, l, e1, e2, h3⟩ := ih h2
          obtain ⟨d, hs, hn⟩ := h _ _ _ _ _ h1
          obtain ⟨cs, q, hd, hq, eq⟩ := quoteStr_spells f.opts.jsonName
          refine ⟨by simp [hl], ((f, v), ⟨cs, d, q, b⟩) :: l, ?_, ?_, ?_⟩
          · rw [List.zip_cons_cons, List.filter_cons_of_pos, e1, List.map_cons]
            have ho : (f.opts.omitEmpty && Γ.jsonEmpty f.ty v) = false := by simpa only [Bool.not_eq_true] using ho
            simp only [shown, hv, leftOut_eq, Bool.true_and, ho, Bool.not_false]
          · rw [List.map_cons, e2, eq]
            simp [NMember.out]
          · intro x hx
            rcases List.mem_cons.mp hx with rfl | hx
            · exact ⟨hd, hq, hs, hn⟩
            · exact h3 x hx
      · rename_i hv
        obtain ⟨hl, l, e1, e2, h3⟩ := ih hb
        refine ⟨by simp [hl], l, ?_, e2, h3⟩
        rw [List.zip_cons_cons, List.filter_cons_of_neg, e1]
        simp [shown, hv]

theorem jencEntries_doc (h : RecD Γ c J rec) {e : Ty} {fo : FOpts} {kvs : List (Bytes × Val)} {bs : List Bytes}
    (hb : jencEntries Γ c rec e fo kvs = .ok bs) : ∃ l : List ((Bytes × Val) × NMember),
      l.map (·.1) = kvs ∧ l.map (fun x => x.2.out) = bs ∧
      ∀ x ∈ l, Decodes x.1.1 x.2.name ∧ Spells x.2.name x.2.nameText ∧
        Stands Γ c J false e fo x.1.2 x.2.doc ∧ Notation x.2.doc x.2.text := by
  induction kvs generalizing bs with
  | nil => cases hb; exact ⟨[], rfl, rfl, by simp⟩
  | cons kv kvs ih =>
    obtain ⟨k, v⟩ := kv
    rw [jencEntries] at hb
    obtain ⟨b, h1, hb⟩ := Res.bind_eq_ok hb
    obtain ⟨bs', h2, hb⟩ := Res.bind_eq_ok hb
    cases hb
    have h1 : rec false e v fo = .ok b := by
      rw [jencEntry] at h1
      split at h1
      · exact h1
      · obtain ⟨_, _, h1⟩ := Res.bind_eq_ok h1
        exact h1
    obtain ⟨l, e1, e2, h3⟩ := ih h2
    obtain ⟨d, hs, hn⟩ := h _ _ _ _ _ h1
    obtain ⟨cs, q, hd, hq, eq⟩ := quoteStr_spells k
    refine ⟨((k, v), ⟨cs, d, q, b⟩) :: l, by simp [e1], ?_, ?_⟩
    · rw [List.map_cons, e2, eq]
      simp [NMember.out]
    · intro x hx
      rcases List.mem_cons.mp hx with rfl | hx
      · exact ⟨hd, hq, hs, hn⟩
      · exact h3 x hx

theorem intText_plain (i : Int) : ∀ x ∈ intText i, (0x20 : UInt8) ≤ x ∧ x < 0x80 ∧ x ≠ 0x22 ∧ x ≠ 0x5c := by
  have hd : ∀ {x : UInt8}, Digit x → (0x20 : UInt8) ≤ x ∧ x < 0x80 ∧ x ≠ 0x22 ∧ x ≠ 0x5c := fun h =>
    ⟨UInt8.le_trans (by decide) h.1, UInt8.lt_of_le_of_lt h.2 (by decide), digit_ne h (by decide), digit_ne h (by decide)⟩
  intro x hx
  generalize he : intText i = b at hx
  cases he ▸ decText_intText i with
  | pos h => exact hd ((intPart_digits h).2 x hx)
  | neg h _ =>
    rcases List.mem_cons.mp hx with rfl | hx
    · decide
    · exact hd ((intPart_digits h).2 x hx)

theorem intText_doc (i : Int) : ∃ cs, DecText i (utf8 cs) ∧ Spells cs (intText i) := by
  have hp := intText_plain i
  obtain ⟨cs, e, _, hs⟩ := spells_plain (utf8_ascii fun x hx => (hp x hx).2.1) fun x hx => ⟨(hp x hx).1, (hp x hx).2.2⟩
  exact ⟨cs, e ▸ decText_intText i, hs⟩

theorem ofOpt_inv {α : Type} {e : Err} {o : Option α} {x : α} (h : ofOpt e o = .ok x) : o = some x := by
  cases o with
  | none => cases h
  | some => cases h; rfl

theorem jencShape_doc (hp : PlainNames c) (h : RecD Γ c J rec) {a : Bool} {id : TId} {v : Val} {fo : FOpts} {b : Bytes}
    (hm : NoMarshal Γ J a id) (hb : jencShape Γ c J rec a id v fo = .ok b) :
    ∃ d, Stands Γ c J a (.base id) fo v d ∧ Notation d b := by
  unfold jencShape at hb
  split at hb
  case h_1 hs => cases hb; exact ⟨_, .nilIface hm hs, .null⟩
  case h_2 t v hs =>
    rw [jencIface] at hb
    split at hb
    · cases hb
    split at hb
    · cases hb
    rename_i dv hd
    obtain ⟨_, _, hb⟩ := Res.bind_eq_ok hb
    split at hb
    · cases hb
    rename_i ci hc
    obtain ⟨b', h1, hb⟩ := Res.bind_eq_ok hb
    cases hb
    obtain ⟨d, hst, hn⟩ := h _ _ _ _ _ h1
    obtain ⟨name, hdn, hw⟩ := notation_wrap (hp _ _ hc) hn
    exact ⟨_, .iface hm hs (by rw [pointee_eq]; exact hd) hc hdn hst, hw⟩
  case h_3 hs => cases hb; exact ⟨_, .nilSlice hm hs, .null⟩
  case h_4 e b' hs =>
    rw [jencBytes] at hb
    split at hb
    · cases hb
    cases hb
    exact ⟨_, .bytes hm (e := e) (by rw [hs]; rfl), .str (spells_b64 _)⟩
  case h_5 n e b' hs =>
    rw [jencBytes] at hb
    split at hb
    · cases hb
    cases hb
    exact ⟨_, .bytes hm (e := e) (by rw [hs]; rfl), .str (spells_b64 _)⟩
  case h_6 e vs hs =>
    obtain ⟨l, rfl, h1, h2⟩ := jencList_doc h hb
    exact ⟨_, .list hm hs h1, h2⟩
  case h_7 n e vs hs =>
    obtain ⟨l, rfl, h1, h2⟩ := jencList_doc h hb
    exact ⟨_, .array hm hs h1, h2⟩
  case h_8 fs vs hs =>
    obtain ⟨bs, h1, hb⟩ := Res.bind_eq_ok hb
    cases hb
    obtain ⟨hl, l, e1, e2, h3⟩ := jencFields_doc h h1
    refine ⟨_, .struct hm hs hl (l := l.map fun x => (x.1, x.2.name, x.2.doc)) (by rw [e1, List.map_map]; rfl) ?_ ?_,
      members_doc (fun x hx => (h3 x hx).2.1) (fun x hx => (h3 x hx).2.2.2) e2⟩
    · intro x hx
      obtain ⟨y, hy, rfl⟩ := List.mem_map.mp hx
      exact (h3 y hy).1
    · intro x hx
      obtain ⟨y, hy, rfl⟩ := List.mem_map.mp hx
      exact (h3 y hy).2.2.1
  case h_9 hs => cases hb; exact ⟨_, .nilMap hm hs, Notation.obj (l := []) (by simp) (by simp)⟩
  case h_10 e kvs hs =>
    obtain ⟨bs, h1, hb⟩ := Res.bind_eq_ok hb
    cases hb
    obtain ⟨l, e1, e2, h3⟩ := jencEntries_doc h h1
    have hst : Stands Γ c J a (.base id) fo (.map ((l.map fun x => (x.1, x.2.name, x.2.doc)).map (·.1)))
        (.obj ((l.map fun x => (x.1, x.2.name, x.2.doc)).map (·.2))) := by
      refine .map hm hs ?_ ?_
      · intro x hx
        obtain ⟨y, hy, rfl⟩ := List.mem_map.mp hx
        exact (h3 y hy).1
      · intro x hx
        obtain ⟨y, hy, rfl⟩ := List.mem_map.mp hx
        exact (h3 y hy).2.2.1
    rw [List.map_map, show ((fun x => x.1) ∘ fun (x : (Bytes × Val) × NMember) => (x.1, x.2.name, x.2.doc)) = (·.1) from rfl, e1]
      at hst
    exact ⟨_, hst, members_doc (fun x hx => (h3 x hx).2.1) (fun x hx => (h3 x hx).2.2.2) e2⟩
  case h_11 k i hs =>
    split at hb
    · rename_i hk
      cases hb
      obtain ⟨cs, h1, h2⟩ := intText_doc i
      exact ⟨_, .quoted hm hs (by cases k <;> simp [IntKind.bits] at hk ⊢) h1, .str h2⟩
    · rename_i hk
      cases hb
      exact ⟨_, .int hm hs (by cases k <;> simp [IntKind.bits] at hk ⊢), .num (decText_intText i)⟩
  case h_12 x hs =>
    split at hb
    · cases hb
    · rename_i hf
      exact ⟨_, .f32 hm hs (by simpa using hf) (ofOpt_inv hb), .lit⟩
  case h_13 x hs =>
    split at hb
    · cases hb
    · rename_i hf
      exact ⟨_, .f64 hm hs (by simpa using hf) (ofOpt_inv hb), .lit⟩
  case h_14 x hs =>
    cases x <;> cases hb
    · exact ⟨_, .bool hm hs, .false⟩
    · exact ⟨_, .bool hm hs, .true⟩
  case h_15 s hs =>
    cases hb
    obtain ⟨cs, q, hd, hq, eq⟩ := quoteStr_spells s
    rw [eq]
    exact ⟨_, .str hm hs hd, .str hq⟩
  case h_16 s ns hs => exact ⟨_, .time hs (ofOpt_inv hb), .lit⟩
  case h_17 => cases hb

theorem jencBase_doc (hp : PlainNames c) (h : RecD Γ c J rec) {a : Bool} {id : TId} {v : Val} {fo : FOpts} {b : Bytes}
    (hb : jencBase Γ c J rec a id v fo = .ok b) : ∃ d, Stands Γ c J a (.base id) fo v d ∧ Notation d b := by
  rw [jencBase] at hb
  split at hb
  · rename_i ht
    exact jencShape_doc hp h (.inl ht) hb
  rename_i ht
  split at hb
  · rename_i m hm
    exact ⟨_, .method ht hm hb, .lit⟩
  rename_i hm
  split at hb
  · rename_i rid m hM
    obtain ⟨r, h1, hb⟩ := Res.bind_eq_ok hb
    obtain ⟨_, _, hb⟩ := Res.bind_eq_ok hb
    obtain ⟨d, hs, hn⟩ := h _ _ _ _ _ hb
    exact ⟨d, .amino ht hm hM h1 hs, hn⟩
  · rename_i hM
    exact jencShape_doc hp h (.inr ⟨hM, hm⟩) hb

theorem jenc_doc (hp : PlainNames c) (f : Nat) : RecD Γ c J (jenc Γ c J f) := by
  induction f with
  | zero => intro a t v fo b h; cases h
  | succ f ih =>
    intro a t v fo b hb
    rw [jenc] at hb
    split at hb
    · rename_i hd
      cases hb
      induction t generalizing v a with
      | base => cases hd
      | ptr t iht =>
        cases v with
        | ptr w =>
          obtain ⟨d, hs, hn⟩ := iht true w hd
          exact ⟨d, .ptr hs, hn⟩
        | _ => exact ⟨_, .nil (by intro w h; cases h), .null⟩
    · rename_i dv hd
      obtain ⟨d, hs, hn⟩ := jencBase_doc hp ih hb
      refine ⟨d, ?_, hn⟩
      clear hb
      induction t generalizing v a with
      | base id =>
        cases hd
        simpa [Ty.isPtr, Ty.deref] using hs
      | ptr t iht =>
        cases v with
        | ptr w =>
          refine .ptr (iht true w hd ?_)
          simpa [Ty.isPtr, Ty.deref] using hs
        | _ => cases hd

end
end Amino
