import Verif.PropsReader

/-!
# Property C89: streams that break off
-/

namespace Amino
open Spec

variable {σ : Type} {R : Reader σ} {rest : σ → Bytes} {Γ : Prog} {c : Codec}

/-- The outcomes of the calls after the last complete message: the first reports `n` bytes and `e`, the others no bytes and
io.EOF. -/
def Spec.broken {α : Type} (n : Nat) (e : Err) : List α → List (Nat × Res Val)
  | [] => []
  | _ :: l => (n, .err e) :: l.map fun _ => (0, .err .ioEOF)

/-- What is reported when `q` is all there is of a message: io.ErrUnexpectedEOF if something follows the length prefix (the
bytes up to the first one without continuation bit), io.EOF otherwise. -/
def Spec.cutErr (q : Bytes) : Err := if q.dropLast.any (· < 0x80) then .unexpectedEOF else .ioEOF

theorem prefixOn_short (maxSize : Int) : ∀ (k : Nat) (ds bs : Bytes) (e : Option Err), ds.length < k → (∀ d ∈ ds, ¬ d < 0x80) →
    prefixOn maxSize k ds bs e = ([], bs ++ ds, some .ioEOF)
  | 0, _, _, _, hk, _ => by omega
  | k + 1, [], bs, e, _, _ => by simp [prefixOn]
  | k + 1, d :: ds, bs, e, hk, hd => by
    simp only [prefixOn]
    rw [if_neg (hd d (by simp)), prefixOn_short maxSize k ds _ _ (by simpa using hk) (fun d h => hd d (by simp [h]))]
    simp

/-- One call on a proper beginning of a message: an error, and `n` is 0 only if nothing was there. -/
theorem reader_short (hR : Streams R rest) {maxSize : Int} (hm : 0 ≤ maxSize) (fuel rf : Nat) (hrf : maxAlloc ≤ rf) (t : Ty)
    (p : Val) (s : σ) {b r : Bytes} (hs : rest s ++ r = varint b.length ++ b) (hr : r ≠ []) (hl : b.length ≤ maxAlloc)
    (hfit : maxSize = 0 ∨ ((varint b.length ++ b).length : Int) ≤ maxSize) :
    let o := unmarshalReader R Γ c fuel rf maxSize t p s
    o.out = .err (cutErr (rest s)) ∧ rest o.state = [] ∧ (o.n = 0 ↔ rest s = []) ∧ o.n ≤ (rest s).length := by
  obtain ⟨s1, h1, h2⟩ := unmarshalReader_stream (Γ := Γ) (c := c) hR hm fuel rf t p s hrf
  simp only [h1, h2]
  have hl' : b.length < 2 ^ 64 := by unfold maxAlloc at hl; omega
  have hvl := varint_u64_length b.length hl'
  obtain ⟨ds, x, hv, hds, hx⟩ := varint_split b.length
  by_cases hc : (rest s).length < (varint b.length).length
  · have hq : rest s = ds.take (rest s).length := by
      have := congrArg (List.take (rest s).length) hs
      rw [List.take_left, List.take_append_of_le_length (by omega), hv] at this
      rw [hv] at hc
      simp only [List.length_append, List.length_singleton] at hc
      rw [List.take_append_of_le_length (by omega)] at this
      exact this
    have hall : ∀ d ∈ rest s, ¬ d < 0x80 := fun d h => hds d (List.mem_of_mem_take (hq ▸ h))
    rw [prefixOn_short maxSize 10 (rest s) [] none (by omega) hall]
    simp only [bodyOn, List.nil_append]
    refine ⟨?_, trivial, ?_, Nat.le_refl _⟩
    · unfold cutErr
      rw [if_neg]
      simp only [List.any_eq_true, decide_eq_true_eq, not_exists, not_and]
      exact fun d hd => hall d (List.dropLast_subset _ hd)
    · cases rest s <;> simp
  · obtain ⟨q, hq, hq'⟩ : ∃ q, rest s = varint b.length ++ q ∧ q ++ r = b := by
      rcases List.append_eq_append_iff.1 hs with ⟨a, h3, h4⟩ | ⟨a, h3, h4⟩
      · rw [h3, List.length_append] at hc
        have : a = [] := List.eq_nil_of_length_eq_zero (by omega)
        subst this
        exact ⟨[], by simpa using h3.symm, by simpa using h4⟩
      · exact ⟨a, h3, h4.symm⟩
    rw [hq, prefixOn_varint _ hl']
    have hb : bodyLength maxSize (varint b.length).length (prefixValue (varint b.length)) = .ok b.length := by
      have hv := prefixValue_varint hl'
      have hi : intOfU64 (prefixValue (varint b.length)) = b.length := by
        unfold intOfU64
        rw [hv, if_pos (by unfold maxAlloc at hl; omega)]
      unfold bodyLength
      rw [hv, hi]
      simp only [List.length_append] at hfit
      rw [if_neg (by omega), if_neg (by omega), if_neg (by omega)]
    have hlt : q.length < b.length := by
      rw [← hq', List.length_append]
      have := List.length_pos_iff.2 hr
      omega
    have hpos : 0 < (varint b.length).length := by rw [hv]; simp
    simp only [bodyOn, hb, List.length_append]
    rw [if_neg (by omega)]
    refine ⟨?_, rfl, ⟨fun h => ?_, fun h => ?_⟩, by simp⟩
    · unfold endErr cutErr
      rw [hv]
      cases q with
      | nil =>
        rw [if_pos rfl, if_neg]
        simp only [List.append_nil, List.dropLast_concat, List.any_eq_true, decide_eq_true_eq, not_exists, not_and]
        exact hds
      | cons y q =>
        rw [if_neg (by simp), if_pos]
        rw [List.dropLast_append_of_ne_nil (by simp)]
        simp [hx]
    · simp only at h; omega
    · have := congrArg List.length h
      rw [List.length_append, List.length_nil] at this; omega

theorem readMany_end (hR : Streams R rest) {maxSize : Int} (hm : 0 ≤ maxSize) (fuel rf : Nat) (hrf : maxAlloc ≤ rf) :
    ∀ (ts : List (Ty × Val)) (s : σ), rest s = [] →
    (readMany R Γ c fuel rf maxSize ts s).1 = ts.map fun _ => (0, .err .ioEOF)
  | [], _, _ => rfl
  | (t, p) :: ts, s, hs => by
    obtain ⟨s1, h1, h2⟩ := unmarshalReader_stream (Γ := Γ) (c := c) hR hm fuel rf t p s hrf
    rw [hs] at h1 h2
    simp only [readMany, h1, List.map_cons]
    rw [readMany_end hR hm fuel rf hrf ts s1 (by rw [h2]; rfl)]
    rfl

/-- A message as `C19_sequence` has it: type, value and bytes. -/
def Spec.Sent (Γ : Prog) (c : Codec) (f : Nat) (maxSize : Int) (m : Ty × Val × Bytes) : Prop :=
  marshalLP Γ c f m.1 m.2.1 = .ok m.2.2 ∧ m.2.2.length ≤ maxAlloc ∧ (maxSize = 0 ∨ (m.2.2.length : Int) ≤ maxSize)

theorem readMany_cut (hR : Streams R rest) {maxSize : Int} (hm : 0 ≤ maxSize) (f fuel rf : Nat) (hrf : maxAlloc ≤ rf)
    {q : Bytes} (hq : q = [] ∨ ∃ m r, Sent Γ c f maxSize m ∧ m.2.2 = q ++ r ∧ r ≠ []) :
    ∀ (ms : List (Ty × Val × Bytes)) (ts : List (Ty × Val)) (s : σ), (∀ m ∈ ms, Sent Γ c f maxSize m) →
    rest s = (ms.map fun m => m.2.2).flatten ++ q →
    ∃ n, (n = 0 ↔ q = []) ∧ n ≤ q.length ∧ (readMany R Γ c fuel rf maxSize ts s).1 =
      (ms.zip ts).map (fun mt => (mt.1.2.2.length, unmarshalLP Γ c fuel mt.2.1 mt.2.2 mt.1.2.2)) ++ broken n (cutErr q) (ts.drop ms.length)
  | ms, [], s, _, _ => by
    cases q with
    | nil => exact ⟨0, by simp, by simp, by simp [readMany, broken]⟩
    | cons b q => exact ⟨1, by simp, by simp, by simp [readMany, broken]⟩
  | [], (t, p) :: ts, s, _, hs => by
    simp only [List.map_nil, List.flatten_nil, List.nil_append] at hs
    simp only [List.zip_nil_left, List.map_nil, List.nil_append, List.length_nil, List.drop_zero]
    rcases hq with rfl | ⟨m, r, ⟨h1, h2, h3⟩, hqr, hr⟩
    · exact ⟨0, by simp, by simp, readMany_end hR hm fuel rf hrf _ s hs⟩
    · obtain ⟨b, hb, hbz, _⟩ := C12_lengthPrefixed f fuel m.1 t m.2.1 p m.2.2 h1 (by unfold maxAlloc at h2; omega)
      rw [hbz] at h2 h3
      obtain ⟨e1, e2, e3, e4⟩ := reader_short (Γ := Γ) (c := c) hR hm fuel rf hrf t p s (b := b) (r := r)
        (by rw [hs, ← hqr, hbz]) hr (by simp only [List.length_append] at h2; omega) h3
      rw [hs] at e1 e3 e4
      refine ⟨_, e3, e4, ?_⟩
      simp only [readMany, broken, e1]
      rw [readMany_end hR hm fuel rf hrf ts _ e2]
  | m :: ms, (t, p) :: ts, s, hms, hs => by
    obtain ⟨h1, h2, h3⟩ := hms m (by simp)
    obtain ⟨b, hb, hbz, hu⟩ := C12_lengthPrefixed f fuel m.1 t m.2.1 p m.2.2 h1 (by unfold maxAlloc at h2; omega)
    simp only [List.map_cons, List.flatten_cons, List.append_assoc] at hs
    rw [hbz] at hs h2 h3
    obtain ⟨e1, e2, e3⟩ := C19_exact (Γ := Γ) (c := c) hR hm fuel rf hrf t p s hs
      (by simp only [List.length_append] at h2; omega) h3
    obtain ⟨n, i1, i2, i3⟩ := readMany_cut hR hm f fuel rf hrf hq ms ts _ (fun m h => hms m (by simp [h])) e3
    refine ⟨n, i1, i2, ?_⟩
    simp only [readMany, List.zip_cons_cons, List.map_cons, List.cons_append, List.length_cons, List.drop_succ_cons]
    rw [e1, e2, ← hu, ← hbz, i3]

theorem take_flatten : ∀ (ls : List Bytes) (k : Nat), ∃ i q, ls.flatten.take k = (ls.take i).flatten ++ q ∧
    i ≤ ls.length ∧ (q = [] ∨ ∃ x r, ls[i]? = some x ∧ x = q ++ r ∧ r ≠ [])
  | [], k => ⟨0, [], by simp⟩
  | l :: ls, k => by
    by_cases hk : k < l.length
    · refine ⟨0, l.take k, ?_, by simp, .inr ⟨l, l.drop k, by simp, by simp, ?_⟩⟩
      · simp [List.take_append_of_le_length (Nat.le_of_lt hk)]
      · intro h
        have := congrArg List.length h
        simp at this
        omega
    · obtain ⟨i, q, h1, h2, h3⟩ := take_flatten ls (k - l.length)
      refine ⟨i + 1, q, ?_, by simpa using h2, by simpa using h3⟩
      rw [List.flatten_cons, List.take_append, List.take_of_length_le (by omega), h1]
      simp

/-- C89: a stream of messages that breaks off anywhere: the messages that were complete (`i` of them) are read as if nothing
had happened, and every later call fails, whatever it reads into.  The first of these calls reports no bytes exactly if the
stream broke off between two messages (`q`, what is there of the next message, is empty); its error depends on `q` only.

Missing for the full statement: that the error is io.EOF only then, which is false (`C89_eof_refuted`). -/
theorem C89_cut_partial (hR : Streams R rest) {maxSize : Int} (hm : 0 ≤ maxSize) (f fuel rf : Nat) (hrf : maxAlloc ≤ rf)
    (ms : List (Ty × Val × Bytes)) (hms : ∀ m ∈ ms, Sent Γ c f maxSize m) (k : Nat) (s : σ)
    (hs : rest s = (ms.map fun m => m.2.2).flatten.take k) (ts : List (Ty × Val)) :
    ∃ i q n, rest s = ((ms.take i).map fun m => m.2.2).flatten ++ q ∧ i ≤ ms.length ∧
      (q = [] ∨ ∃ m r, ms[i]? = some m ∧ m.2.2 = q ++ r ∧ r ≠ []) ∧ (n = 0 ↔ q = []) ∧
      (readMany R Γ c fuel rf maxSize ts s).1 =
        ((ms.take i).zip ts).map (fun mt => (mt.1.2.2.length, unmarshalLP Γ c fuel mt.2.1 mt.2.2 mt.1.2.2)) ++ broken n (cutErr q) (ts.drop i) := by
  obtain ⟨i, q, h1, h2, h3⟩ := take_flatten (ms.map fun m => m.2.2) k
  rw [h1] at hs
  rw [← List.map_take] at hs
  rw [List.length_map] at h2
  have h3' : q = [] ∨ ∃ m r, ms[i]? = some m ∧ m.2.2 = q ++ r ∧ r ≠ [] := by
    rcases h3 with h3 | ⟨x, r, hx, hqr, hr⟩
    · exact .inl h3
    · rw [List.getElem?_map, Option.map_eq_some_iff] at hx
      obtain ⟨m, hm, rfl⟩ := hx
      exact .inr ⟨m, r, hm, hqr, hr⟩
  obtain ⟨n, g1, _, g3⟩ := readMany_cut (Γ := Γ) (c := c) hR hm f fuel rf hrf (q := q) (h3'.imp_right fun ⟨m, r, hm, hqr, hr⟩ =>
    ⟨m, r, hms m (List.mem_of_getElem? hm), hqr, hr⟩) (ms.take i) ts s (fun m h => hms m (List.mem_of_mem_take h)) hs
  rw [List.length_take, Nat.min_eq_left h2] at g3
  exact ⟨i, q, n, hs, h2, h3', g1, g3⟩

/-- Two messages `Sub{1, true}`, `Sub{2, false}`, of which the last byte is missing; three calls. -/
example :
    let t := (.base Demo.subT, .struct [.int 0, .bool false])
    (readMany chunkReader Demo.prog Demo.codecFoo 6 maxAlloc 100 [t, t, t] [(4, [8]), (1, [16, 1, 2]), (8, [])]).1 =
      [(5, .ok (.struct [.int 1, .bool true])), (1, .err .unexpectedEOF), (0, .err .ioEOF)] ∧
    ∀ m ∈ [(.base Demo.subT, .struct [.int 1, .bool true], [4, 8, 1, 16, 1]), (.base Demo.subT, .struct [.int 2, .bool false], [2, 8, 2])],
      Sent Demo.prog Demo.codecFoo 3 100 m := by
  refine ⟨by decide +kernel, ?_⟩
  unfold Sent
  decide +kernel

/-- C89: io.EOF alone does not tell that the stream ended between two messages: it is also reported when a message breaks off
within or right behind its length prefix. -/
theorem C89_eof_refuted : ∀ q ∈ [[], [2], [0x82]],
    (unmarshalReader memReader Demo.prog Demo.codecFoo 6 maxAlloc 0 (.base Demo.subT) (.struct [.int 0, .bool false]) q).out =
      .err .ioEOF := by
  decide +kernel

end Amino
