import Verif.DocEnc

/-!
# A value stands for one document
-/

namespace Amino
open Spec

theorem toByteArray_app (a b : Bytes) : (a ++ b).toByteArray = a.toByteArray ++ b.toByteArray := by
  simp

theorem utf8_first {x y : Char} {r s : Bytes} (h : String.utf8EncodeChar x ++ r = String.utf8EncodeChar y ++ s) :
    x = y ∧ r = s := by
  have h1 := ByteArray.utf8DecodeChar?_utf8EncodeChar_append (b := r.toByteArray) (c := x)
  rw [← toByteArray_app, h, toByteArray_app, ByteArray.utf8DecodeChar?_utf8EncodeChar_append] at h1
  obtain rfl := Option.some.inj h1
  exact ⟨rfl, List.append_cancel_left h⟩

theorem utf8_ne_nil (x : Char) (r : Bytes) : String.utf8EncodeChar x ++ r ≠ [] := by
  intro h
  have h1 := congrArg List.length h
  rcases char_cases (utf8Char_char x) with ⟨a, ha, _⟩ | ⟨hl, _⟩
  · rw [ha] at h1; simp at h1
  · rw [List.length_append, List.length_nil] at h1; omega

theorem utf8_inj {cs ds : List Char} (h : utf8 cs = utf8 ds) : cs = ds := by
  induction cs generalizing ds with
  | nil =>
    cases ds with
    | nil => rfl
    | cons d ds => exact absurd h.symm (utf8_ne_nil d _)
  | cons c cs ih =>
    cases ds with
    | nil => exact absurd h (utf8_ne_nil c _)
    | cons d ds =>
      obtain ⟨rfl, h1⟩ := utf8_first h
      rw [ih h1]

theorem decodes_nil {cs : List Char} (h : Decodes [] cs) : cs = [] := by
  generalize he : ([] : Bytes) = b at h
  cases h with
  | nil => rfl
  | char => exact absurd he.symm (utf8_ne_nil _ _)
  | bad => cases he

theorem decodes_unique {b : Bytes} {cs ds : List Char} (h : Decodes b cs) (h' : Decodes b ds) : cs = ds := by
  induction h generalizing ds with
  | nil => rw [decodes_nil h']
  | @char ch r cs _ ih =>
    generalize he : String.utf8EncodeChar ch ++ r = b at h'
    cases h' with
    | nil => exact absurd he (utf8_ne_nil _ _)
    | char h' =>
      obtain ⟨rfl, rfl⟩ := utf8_first he
      rw [ih h']
    | bad hb => exact absurd he.symm (hb _ _)
  | @bad b r cs hb _ ih =>
    generalize he : b :: r = x at h'
    cases h' with
    | nil => cases he
    | char h' => exact absurd he (hb _ _)
    | bad _ h' => cases he; rw [ih h']

/-! ## Decimal notation -/

/-- No leading zero. -/
def NoLead (ds : Bytes) : Prop := ∀ d r, ds = d :: r → 0x31 ≤ d

theorem decVal_snoc (r : Bytes) (d : UInt8) : decVal (r ++ [d]) = 10 * decVal r + (d.toNat - 48) := by
  simp [decVal, List.foldl_append]

theorem decVal_pos {ds : Bytes} (hl : NoLead ds) (hn : ds ≠ []) : 0 < decVal ds := by
  obtain ⟨d, r, rfl⟩ := List.exists_cons_of_ne_nil hn
  have hd : 49 ≤ d.toNat := UInt8.le_iff_toNat_le.mp (hl d r rfl)
  have key : ∀ (r : Bytes) (n : Nat), 0 < n → 0 < r.foldl (fun n d => 10 * n + (d.toNat - 48)) n := by
    intro r
    induction r with
    | nil => exact fun n h => h
    | cons x r ih => exact fun n h => ih _ (show 0 < 10 * n + (x.toNat - 48) by omega)
  exact key r _ (show 0 < 10 * 0 + (d.toNat - 48) by omega)

theorem decVal_inj {n : Nat} {x y : Bytes} (hn : x.length ≤ n) (hx : NoLead x) (hy : NoLead y) (dx : ∀ d ∈ x, Digit d)
    (dy : ∀ d ∈ y, Digit d) (h : decVal x = decVal y) : x = y := by
  induction n generalizing x y with
  | zero =>
    have : x = [] := List.length_eq_zero_iff.mp (by omega)
    subst this
    apply Classical.byContradiction
    intro hne
    have := decVal_pos hy (Ne.symm hne)
    rw [← h] at this
    exact absurd this (by decide)
  | succ n ih =>
    rcases List.eq_nil_or_concat x with rfl | ⟨r, c, rfl⟩
    · apply Classical.byContradiction
      intro hne
      have := decVal_pos hy (Ne.symm hne)
      rw [← h] at this
      exact absurd this (by decide)
    rcases List.eq_nil_or_concat y with rfl | ⟨s, e, rfl⟩
    · have := decVal_pos hx (by simp)
      rw [h] at this
      exact absurd this (by decide)
    simp only [List.concat_eq_append] at *
    rw [decVal_snoc, decVal_snoc] at h
    have d1 := dx c (by simp)
    have d2 := dy e (by simp)
    have a1 := UInt8.le_iff_toNat_le.mp d1.1
    have a2 := UInt8.le_iff_toNat_le.mp d1.2
    have a3 := UInt8.le_iff_toNat_le.mp d2.1
    have a4 := UInt8.le_iff_toNat_le.mp d2.2
    simp at a1 a2 a3 a4
    have hc : c = e := UInt8.toNat_inj.mp (by omega)
    rw [ih (x := r) (y := s) (by simp at hn; omega) (fun d t ht => hx d (t ++ [c]) (by simp [ht]))
      (fun d t ht => hy d (t ++ [e]) (by simp [ht])) (fun d hd => dx d (by simp [hd])) (fun d hd => dy d (by simp [hd]))
      (by omega), hc]

theorem intPart_cases {x : Bytes} (h : IntPart x) : x = [0x30] ∨ NoLead x := by
  cases h with
  | zero => exact .inl rfl
  | pos h => exact .inr (by intro d r he; cases he; exact h)

theorem intPart_inj {x y : Bytes} (hx : IntPart x) (hy : IntPart y) (h : decVal x = decVal y) : x = y := by
  have nx := intPart_digits hx
  have ny := intPart_digits hy
  rcases intPart_cases hx with rfl | lx <;> rcases intPart_cases hy with rfl | ly
  · rfl
  · have := decVal_pos ly ny.1
    rw [← h] at this
    exact absurd this (by decide)
  · have := decVal_pos lx nx.1
    rw [h] at this
    exact absurd this (by decide)
  · exact decVal_inj (Nat.le_refl _) lx ly nx.2 ny.2 h

theorem decText_unique {i : Int} {x y : Bytes} (hx : DecText i x) (hy : DecText i y) : x = y := by
  cases hx with
  | pos h1 =>
    generalize he : (decVal x : Int) = i at hy
    cases hy with
    | pos h2 => exact intPart_inj h1 h2 (by omega)
    | neg h2 h0 => omega
  | @neg ds h1 h0 =>
    generalize he : -(decVal ds : Int) = i at hy
    cases hy with
    | pos h2 => omega
    | neg h2 h0 => rw [intPart_inj h1 h2 (by omega)]

/-! ## Documents -/

theorem docs_eq {α : Type} {l l' : List (α × JDoc)} (he : l.map (·.1) = l'.map (·.1))
    (h : ∀ x ∈ l, ∀ d, (x.1, d) ∈ l' → x.2 = d) : l.map (·.2) = l'.map (·.2) := by
  induction l generalizing l' with
  | nil =>
    cases l' with
    | nil => rfl
    | cons => cases he
  | cons x l ih =>
    cases l' with
    | nil => cases he
    | cons y l' =>
      obtain ⟨x1, x2⟩ := x
      obtain ⟨y1, y2⟩ := y
      simp only [List.map_cons, List.cons.injEq] at he ⊢
      obtain ⟨rfl, he⟩ := he
      exact ⟨h (x1, x2) (by simp) y2 (by simp), ih he fun z hz d hd => h z (by simp [hz]) d (by simp [hd])⟩

theorem members_eq {α : Type} {l l' : List (α × List Char × JDoc)} (he : l.map (·.1) = l'.map (·.1))
    (h : ∀ x ∈ l, ∀ d, (x.1, d) ∈ l' → x.2 = d) : l.map (·.2) = l'.map (·.2) := by
  induction l generalizing l' with
  | nil =>
    cases l' with
    | nil => rfl
    | cons => cases he
  | cons x l ih =>
    cases l' with
    | nil => cases he
    | cons y l' =>
      obtain ⟨x1, x2⟩ := x
      obtain ⟨y1, y2⟩ := y
      simp only [List.map_cons, List.cons.injEq] at he ⊢
      obtain ⟨rfl, he⟩ := he
      exact ⟨h (x1, x2) (by simp) y2 (by simp), ih he fun z hz d hd => h z (by simp [hz]) d (by simp [hd])⟩

variable {Γ : Prog} {c : Codec} {J : JLib}

theorem noMarshal_method {a : Bool} {id : TId} {m : Val → Res Bytes} (h : NoMarshal Γ J a id) (ht : Γ.shape id ≠ .time)
    (hm : J.marsh id a = some m) : False := by
  rcases h with h | h
  · exact ht h
  · rw [h.2] at hm; cases hm

theorem noMarshal_amino {a : Bool} {id : TId} {m : TId × (Val → Res Val)} (h : NoMarshal Γ J a id) (ht : Γ.shape id ≠ .time)
    (hm : Γ.marsh id = some m) : False := by
  rcases h with h | h
  · exact ht h
  · rw [h.1] at hm; cases hm

theorem stands_unique {a : Bool} {t : Ty} {fo : FOpts} {v : Val} {d d' : JDoc} (h : Stands Γ c J a t fo v d)
    (h' : Stands Γ c J a t fo v d') : d = d' := by
  induction h generalizing d' with
  | nil hn =>
    cases h' with
    | nil => rfl
    | ptr => exact absurd rfl (hn _)
  | ptr _ ih =>
    cases h' with
    | nil hn => exact absurd rfl (hn _)
    | ptr h' => exact ih h'
  | @method a id m fo v b ht hm hv =>
    cases h' with
    | method ht' hm' hv' => rw [hm] at hm'; cases hm'; rw [hv] at hv'; cases hv'; rfl
    | amino ht' hm' => rw [hm] at hm'; cases hm'
    | time hs => exact absurd hs ht
    | _ => exact (noMarshal_method (by assumption) ht hm).elim
  | @amino a id rid m fo v r d ht hm hM hv _ ih =>
    cases h' with
    | method ht' hm' => rw [hm] at hm'; cases hm'
    | amino ht' hm' hM' hv' h' =>
      rw [hM] at hM'; cases hM'; rw [hv] at hv'; cases hv'
      exact ih h'
    | time hs => exact absurd hs ht
    | _ => exact (noMarshal_amino (by assumption) ht hM).elim
  | nilIface hn hs =>
    cases h' <;> try (first | rfl | exact (noMarshal_method hn ‹_› ‹_›).elim | exact (noMarshal_amino hn ‹_› ‹_›).elim)
    all_goals simp_all
  | iface hn hs hp hc hd _ ih =>
    cases h' with
    | method ht hm => exact (noMarshal_method hn ht hm).elim
    | amino ht hm hM => exact (noMarshal_amino hn ht hM).elim
    | iface hn' hs' hp' hc' hd' h' =>
      rw [hp] at hp'; cases hp'
      rw [hc] at hc'; cases hc'
      rw [decodes_unique hd hd', ih h']
  | nilSlice hn hs =>
    cases h' <;> try (first | rfl | exact (noMarshal_method hn ‹_› ‹_›).elim | exact (noMarshal_amino hn ‹_› ‹_›).elim)
    all_goals simp_all
  | bytes hn hs =>
    cases h' <;> try (first | rfl | exact (noMarshal_method hn ‹_› ‹_›).elim | exact (noMarshal_amino hn ‹_› ‹_›).elim)
  | @list a id e fo l hn hs _ ih =>
    generalize hV : Val.list (l.map (·.1)) = V at h'
    cases h' with
    | method ht hm => exact (noMarshal_method hn ht hm).elim
    | amino ht hm hM => exact (noMarshal_amino hn ht hM).elim
    | list hn' hs' hl' =>
      rw [hs] at hs'; cases hs'
      rw [docs_eq (Val.list.inj hV) fun x hx d hd => ih x hx (hl' (x.1, d) hd)]
    | array hn' hs' => rw [hs] at hs'; cases hs'
    | _ => cases hV
  | @array a id n e fo l hn hs _ ih =>
    generalize hV : Val.list (l.map (·.1)) = V at h'
    cases h' with
    | method ht hm => exact (noMarshal_method hn ht hm).elim
    | amino ht hm hM => exact (noMarshal_amino hn ht hM).elim
    | list hn' hs' hl' => rw [hs] at hs'; cases hs'
    | array hn' hs' hl' =>
      rw [hs] at hs'; cases hs'
      rw [docs_eq (Val.list.inj hV) fun x hx d hd => ih x hx (hl' (x.1, d) hd)]
    | _ => cases hV
  | @struct a id fs fo vs l hn hs hlen he hd _ ih =>
    cases h' with
    | method ht hm => exact (noMarshal_method hn ht hm).elim
    | amino ht hm hM => exact (noMarshal_amino hn ht hM).elim
    | struct hn' hs' hlen' he' hd' hl' =>
      rw [hs] at hs'; cases hs'
      rw [members_eq (he.symm.trans he') fun x hx d hx' => ?_]
      have e1 := decodes_unique (hd x hx) (hd' (x.1, d) hx')
      have e2 := ih x hx (hl' (x.1, d) hx')
      exact Prod.ext e1 e2
  | nilMap hn hs =>
    cases h' <;> try (first | rfl | exact (noMarshal_method hn ‹_› ‹_›).elim | exact (noMarshal_amino hn ‹_› ‹_›).elim)
    all_goals simp_all
  | @map a id e fo l hn hs hd _ ih =>
    generalize hV : Val.map (l.map (·.1)) = V at h'
    cases h' with
    | method ht hm => exact (noMarshal_method hn ht hm).elim
    | amino ht hm hM => exact (noMarshal_amino hn ht hM).elim
    | map hn' hs' hd' hl' =>
      rw [hs] at hs'; cases hs'
      rw [members_eq (Val.map.inj hV) fun x hx d hx' => ?_]
      have e1 := decodes_unique (hd x hx) (hd' (x.1, d) hx')
      have e2 := ih x hx (hl' (x.1, d) hx')
      exact Prod.ext e1 e2
    | _ => cases hV
  | quoted hn hs hk hd =>
    cases h' with
    | method ht hm => exact (noMarshal_method hn ht hm).elim
    | amino ht hm hM => exact (noMarshal_amino hn ht hM).elim
    | quoted hn' hs' hk' hd' => rw [utf8_inj (decText_unique hd hd')]
    | int hn' hs' hk' =>
      rw [hs] at hs'; cases hs'
      simp only [List.mem_cons, List.not_mem_nil, or_false] at hk
      rcases hk with rfl | rfl | rfl | rfl <;> simp at hk'
  | int hn hs hk =>
    cases h' with
    | method ht hm => exact (noMarshal_method hn ht hm).elim
    | amino ht hm hM => exact (noMarshal_amino hn ht hM).elim
    | quoted hn' hs' hk' hd' =>
      rw [hs] at hs'; cases hs'
      simp only [List.mem_cons, List.not_mem_nil, or_false] at hk'
      rcases hk' with rfl | rfl | rfl | rfl <;> simp at hk
    | int hn' hs' hk' => rfl
  | f32 hn hs _ hx =>
    cases h' with
    | method ht hm => exact (noMarshal_method hn ht hm).elim
    | amino ht hm hM => exact (noMarshal_amino hn ht hM).elim
    | f32 _ _ _ hx' => rw [hx] at hx'; cases hx'; rfl
  | f64 hn hs _ hx =>
    cases h' with
    | method ht hm => exact (noMarshal_method hn ht hm).elim
    | amino ht hm hM => exact (noMarshal_amino hn ht hM).elim
    | f64 _ _ _ hx' => rw [hx] at hx'; cases hx'; rfl
  | bool hn hs =>
    cases h' with
    | method ht hm => exact (noMarshal_method hn ht hm).elim
    | amino ht hm hM => exact (noMarshal_amino hn ht hM).elim
    | bool => rfl
  | str hn hs hd =>
    cases h' with
    | method ht hm => exact (noMarshal_method hn ht hm).elim
    | amino ht hm hM => exact (noMarshal_amino hn ht hM).elim
    | str _ _ hd' => rw [decodes_unique hd hd']
  | time hs hx =>
    cases h' with
    | method ht hm => exact absurd hs ht
    | amino ht hm hM => exact absurd hs ht
    | time _ hx' => rw [hx] at hx'; cases hx'; rfl

end Amino
