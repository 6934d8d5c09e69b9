import Verif.DecTyped

/-!
# The decoder terminates

The depth of the recursion and the number of loop iterations are bounded by the length of the input
(times the length of chains of representation types, which consume nothing).
-/

namespace Amino
open Spec

/-- `Typ3ByteLength` kinds (reflect.go:192-203); does not depend on field options. -/
def Prog.isLen (Γ : Prog) (id : TId) : Bool :=
  match Γ.shape id with
  | .iface | .array _ _ | .slice _ | .string | .struct _ | .time | .map _ => true
  | _ => false

theorem isLen_iff {Γ : Prog} {id : TId} {fo : FOpts} : Γ.isLen id = true ↔ Γ.typ3 id fo = typ3ByteLength := by
  unfold Prog.isLen Prog.typ3 typ3ByteLength typ3Varint typ38Byte typ34Byte
  split <;> simp_all
  rename_i h1 h2 h3 h4 h5 h6 h7
  cases h : Γ.shape id with
  | int k => cases k <;> simp <;> (try split) <;> simp
  | _ => simp_all

/-- A measure that decreases along the calls of the decoder that consume no input: to the
representation type, to a list field encoded without its own key, to the elements of a packed list. -/
structure DecRank (Γ : Prog) (rank : TId → Nat) (R : Nat) : Prop where
  bound : ∀ id, rank id ≤ R
  unmarsh : ∀ {id rid um}, Γ.unmarsh id = some (rid, um) → rank rid < rank id
  field : ∀ {id fs}, Γ.shape id = .struct fs → ∀ f ∈ fs, f.visible = true → Γ.unpackedList f = true →
    rank f.ty.deref < rank id
  elem : ∀ {id e}, (Γ.shape id).elem? = some e → Γ.isLen e.deref = false → rank e.deref < rank id

section
variable {α β : Type}

theorem andSlide_noOof {r : DRes α} {bz : Bytes} {n : Nat} {k : α → Bytes → Nat → DRes β}
    (hr : r ≠ .oof) (hk : ∀ a m, r = .ok m a → m ≤ bz.length → k a (bz.drop m) (n + m) ≠ .oof) :
    r.andSlide bz n k ≠ .oof := by
  unfold DRes.andSlide
  cases r with
  | ok m a => simp only; split
              · rename_i h; exact hk a m rfl h
              · simp
  | err m e => simp only; split <;> simp
  | panic p => simp
  | oof => exact absurd rfl hr

theorem slideThen_noOof {bz : Bytes} {m n : Nat} {k : Bytes → Nat → DRes β}
    (hk : m ≤ bz.length → k (bz.drop m) (n + m) ≠ .oof) : slideThen m bz n k ≠ .oof := by
  unfold slideThen; split
  · rename_i h; exact hk h
  · simp

theorem map_noOof {r : DRes α} {f : α → β} (h : r ≠ .oof) : r.map f ≠ .oof := by
  cases r <;> simp_all [DRes.map]

theorem getInfo_noOof {Γ : Prog} {c : Codec} {id : TId} : getInfo Γ c id ≠ .oof := by
  unfold getInfo; split
  · split <;> simp
  · split <;> simp
  · simp

theorem infoThen_noOof {Γ : Prog} {c : Codec} {id : TId} {n : Nat} {k : DRes β} (hk : k ≠ .oof) :
    infoThen Γ c id n k ≠ .oof := by
  unfold infoThen
  cases h : getInfo Γ c id with
  | ok => exact hk
  | err => simp
  | panic => simp
  | oof => exact absurd h getInfo_noOof

theorem unframe_noOof {bare : Bool} {bz : Bytes} {k : Bytes → Nat → DRes β}
    (hk : ∀ buf n, (bare = true → buf = bz) → (bare = false → buf.length < bz.length) → k buf n ≠ .oof) :
    unframe bare bz k ≠ .oof := by
  unfold unframe
  cases bare with
  | true => exact hk bz 0 (by simp) (by simp)
  | false =>
    simp only [Bool.false_eq_true, if_false]
    cases h : decodeByteSlice bz with
    | ok m buf =>
      have := uvarintSize_le h
      simp only; split
      · exact hk _ _ (by simp) (fun _ => by omega)
      · simp
    | err m e => simp only; split <;> simp
    | panic p => simp
    | oof => exact absurd h (decodeByteSlice_safe bz).noOof

end

theorem consumeAny_noOof (typ : Nat) (bz : Bytes) : consumeAny typ bz ≠ .oof := by
  have aux : ∀ {α : Type} (r : DRes α), Safe r bz → skipped r bz ≠ .oof := by
    intro α r hr
    unfold skipped
    cases r with
    | ok m a => exact slideThen_noOof fun _ => by simp
    | err => simp
    | panic => simp
    | oof => exact absurd rfl hr.noOof
  unfold consumeAny
  split
  · exact aux _ (decodeVarint_safe bz)
  split
  · exact aux _ (decodeInt64_safe bz)
  split
  · exact aux _ (decodeByteSlice_safe bz)
  split
  · exact aux _ (decodeInt32_safe bz)
  · simp

theorem consumeRest_noOof (k last : Nat) (bz : Bytes) (n : Nat) (hk : bz.length ≤ k) :
    consumeRest k last bz n ≠ .oof := by
  induction k generalizing last bz n with
  | zero =>
    cases bz with
    | nil => simp [consumeRest]
    | cons => simp at hk
  | succ k ih =>
    cases bz with
    | nil => simp [consumeRest]
    | cons b bs =>
      unfold consumeRest
      refine andSlide_noOof (decodeKey_safe _).noOof fun ft m hm hl => ?_
      have := (decodeKey_safe _).pos _ _ hm
      split
      · simp
      · refine andSlide_noOof (consumeAny_noOof _ _) fun _ m' hm' hl' => ih _ _ _ ?_
        simp only [List.length_drop, List.length_cons] at hk ⊢; omega

section
variable {Γ : Prog} {c : Codec} {rank : TId → Nat} {R B : Nat}
  {rec : Ty → Val → FOpts → Bool → Bytes → DRes Val}

/-- The recursive calls terminate on inputs whose measure is below `B`. -/
def RecTerm (rank : TId → Nat) (R B : Nat) (rec : Ty → Val → FOpts → Bool → Bytes → DRes Val) : Prop :=
  ∀ t p fo bare bz, bz.length * (R + 1) + rank t.deref < B → rec t p fo bare bz ≠ .oof

theorem RecFits.pos (h : RecFits rec) {t : Ty} {p : Val} {fo : FOpts} {bz : Bytes} {n : Nat} {v : Val}
    (hb : bz ≠ []) (hr : rec t p fo false bz = .ok n v) : 1 ≤ n := by
  have := h t p fo false bz
  rw [hr] at this
  have := this.1
  unfold lo at this
  simpa [hb] using this

theorem decPackedSlice_noOof (hf : RecFits rec) (e : Ty) (fo : FOpts)
    (k : Nat) (bz : Bytes) (n : Nat) (hk : bz.length ≤ k)
    (hrec : ∀ bz', bz'.length ≤ bz.length → rec e (Γ.zeroTy e) fo false bz' ≠ .oof) :
    decPackedSlice Γ rec e fo k bz n ≠ .oof := by
  induction k generalizing bz n with
  | zero =>
    cases bz with
    | nil => simp [decPackedSlice]
    | cons => simp at hk
  | succ k ih =>
    cases bz with
    | nil => simp [decPackedSlice]
    | cons b bs =>
      unfold decPackedSlice
      refine andSlide_noOof (hrec _ (by simp)) fun v m hm hl => map_noOof (ih _ _ ?_ ?_)
      · have := hf.pos (by simp) hm
        simp only [List.length_drop, List.length_cons] at hk ⊢; omega
      · intro bz' h'; exact hrec _ (by simp only [List.length_drop] at h'; omega)

theorem decUnpackedSlice_noOof (e : Ty) (fo : FOpts)
    (k : Nat) (bz : Bytes) (n : Nat) (hk : bz.length ≤ k)
    (hrec : ∀ bz' fo', bz'.length < bz.length → rec e (Γ.zeroTy e) fo' false bz' ≠ .oof) :
    decUnpackedSlice Γ rec e fo k bz n ≠ .oof := by
  induction k generalizing bz n with
  | zero =>
    cases bz with
    | nil => simp [decUnpackedSlice]
    | cons => simp at hk
  | succ k ih =>
    cases bz with
    | nil => simp [decUnpackedSlice]
    | cons b bs =>
      unfold decUnpackedSlice
      cases hd : decodeKey (b :: bs) with
      | panic p => simp
      | oof => exact absurd hd (decodeKey_safe _).noOof
      | err m e => simp
      | ok m ft =>
        obtain ⟨fnum, typ⟩ := ft
        have hp := (decodeKey_safe _).pos _ _ hd
        simp only
        split
        · simp
        split
        · simp
        split
        · simp
        refine slideThen_noOof fun hl => ?_
        have hlen : (List.drop m (b :: bs)).length + m = (b :: bs).length := by
          simp only [List.length_drop]; omega
        have hk' : (b :: bs).length ≤ k + 1 := hk
        split
        · refine slideThen_noOof fun hl' => map_noOof (ih _ _ ?_ ?_)
          · rw [List.length_drop]; omega
          · intro bz' fo' h'; exact hrec _ _ (by rw [List.length_drop] at h'; omega)
        · refine andSlide_noOof (hrec _ _ (by omega)) fun v m' hm hl' => map_noOof (ih _ _ ?_ ?_)
          · rw [List.length_drop]; omega
          · intro bz' fo' h'; exact hrec _ _ (by rw [List.length_drop] at h'; omega)

theorem decPackedArr_noOof (e : Ty) (fo : FOpts) (ps : List Val) (bz : Bytes) (n : Nat)
    (hrec : ∀ p bz', bz'.length ≤ bz.length → rec e p fo false bz' ≠ .oof) :
    decPackedArr Γ rec e fo ps bz n ≠ .oof := by
  induction ps generalizing bz n with
  | nil => unfold decPackedArr; split <;> simp
  | cons p ps ih =>
    unfold decPackedArr
    refine andSlide_noOof (hrec _ _ (by simp)) fun v m hm hl => map_noOof (ih _ _ ?_)
    intro p bz' h'; exact hrec _ _ (by rw [List.length_drop] at h'; omega)

theorem decUnpackedArr_noOof (e : Ty) (fo : FOpts) (ps : List Val) (bz : Bytes) (n : Nat)
    (hrec : ∀ p bz' fo', bz'.length < bz.length → rec e p fo' false bz' ≠ .oof) :
    decUnpackedArr Γ rec e fo ps bz n ≠ .oof := by
  induction ps generalizing bz n with
  | nil =>
    unfold decUnpackedArr
    split
    · cases hd : decodeKey bz with
      | panic p => simp
      | oof => exact absurd hd (decodeKey_safe _).noOof
      | err m e => simp
      | ok m ft => simp only; split <;> simp
    · simp
  | cons p ps ih =>
    unfold decUnpackedArr
    cases hd : decodeKey bz with
    | panic p => simp
    | oof => exact absurd hd (decodeKey_safe _).noOof
    | err m e => simp
    | ok m ft =>
      obtain ⟨fnum, typ⟩ := ft
      have hp := (decodeKey_safe _).pos _ _ hd
      simp only
      split
      · simp
      split
      · simp
      refine slideThen_noOof fun hl => ?_
      have hlen : (List.drop m bz).length + m = bz.length := by
        simp only [List.length_drop]; omega
      split
      · refine slideThen_noOof fun hl' => map_noOof (ih _ _ ?_)
        intro p bz' fo' h'; exact hrec _ _ _ (by rw [List.length_drop] at h'; omega)
      · refine andSlide_noOof (hrec _ _ _ (by omega)) fun v m' hm hl' => map_noOof (ih _ _ ?_)
        intro p bz' fo' h'; exact hrec _ _ _ (by rw [List.length_drop] at h'; omega)

theorem decFields_noOof (fs : List Field) (ps : List Val) (num last : Nat)
    (bz : Bytes) (n : Nat)
    (hrec1 : ∀ f ∈ fs, f.visible = true → Γ.unpackedList f = true → ∀ p fo' bz', bz'.length ≤ bz.length →
      rec f.ty p fo' true bz' ≠ .oof)
    (hrec2 : ∀ t p fo' bare bz', bz'.length < bz.length → rec t p fo' bare bz' ≠ .oof) :
    decFields Γ c rec fs ps num last bz n ≠ .oof := by
  induction fs generalizing ps num last bz n with
  | nil =>
    cases ps with
    | nil => exact map_noOof (consumeRest_noOof _ _ _ _ (by omega))
    | cons => simp [decFields]
  | cons f fs ih =>
    cases ps with
    | nil => simp [decFields]
    | cons p ps =>
      simp only [List.mem_cons, forall_eq_or_imp] at hrec1
      have ih' : ∀ num last (bz' : Bytes) n, bz'.length ≤ bz.length →
          decFields Γ c rec fs ps num last bz' n ≠ .oof := by
        intro num last bz' n hle
        refine ih _ _ _ _ _ ?_ ?_
        · intro f hf hv hu p fo' bz'' h''; exact hrec1.2 f hf hv hu _ _ _ (by omega)
        · intro t p fo' bare bz'' h''; exact hrec2 _ _ _ _ _ (by omega)
      unfold decFields
      split
      · exact map_noOof (ih' _ _ _ _ (by omega))
      rename_i hvis
      refine infoThen_noOof ?_
      split
      · exact map_noOof (ih' _ _ _ _ (by omega))
      split
      · rename_i hul
        refine andSlide_noOof (hrec1.1 (by simpa using hvis) hul _ _ _ (by omega)) fun v m hm hl => ?_
        exact map_noOof (ih' _ _ _ _ (by rw [List.length_drop]; omega))
      cases hd : decodeKey bz with
      | panic p => simp
      | oof => exact absurd hd (decodeKey_safe _).noOof
      | err m e => simp
      | ok m ft =>
        obtain ⟨fnum, typ⟩ := ft
        have hp := (decodeKey_safe _).pos _ _ hd
        simp only
        split
        · exact map_noOof (ih' _ _ _ _ (by omega))
        split
        · simp
        refine slideThen_noOof fun hl => ?_
        split
        · simp
        split
        · simp
        refine andSlide_noOof (hrec2 _ _ _ _ _ (by rw [List.length_drop]; omega)) fun v m' hm hl' => ?_
        exact map_noOof (ih' _ _ _ _ (by rw [List.length_drop, List.length_drop]; omega))

theorem decIface_noOof (id : TId) (prior : Val) (fo : FOpts) (bare : Bool) (bz : Bytes)
    (hrec : ∀ t p fo' bare bz', bz'.length < bz.length → rec t p fo' bare bz' ≠ .oof) :
    decIface Γ c rec id prior fo bare bz ≠ .oof := by
  unfold decIface
  split
  · cases c.iface? id with
    | none => simp
    | some ii =>
      refine unframe_noOof fun buf n h1 h2 => ?_
      have hbuf : buf.length ≤ bz.length := by
        cases bare with
        | true => rw [h1 rfl]; omega
        | false => have := h2 rfl; omega
      have hpost := decodeDisambPrefix_post (Q := fun _ => True) buf
      refine andSlide_noOof ?_ fun dp m hm hl => ?_
      · unfold decodeDisambPrefix
        split
        · simp
        split
        · split <;> simp
        · simp
      rw [hm] at hpost
      have h4 := hpost.1
      cases lookupConc c ii dp with
      | error e => simp
      | ok ci =>
        simp only
        have cont : ∀ (k : Bytes → Nat → DRes Val), (∀ bz' n', bz'.length < bz.length → k bz' n' ≠ .oof) →
            concKey Γ ci.tid fo (buf.drop m) (n + m) k ≠ .oof := by
          intro k hk
          unfold concKey
          split
          · cases hd : decodeKey (buf.drop m) with
            | panic p => simp
            | oof => exact absurd hd (decodeKey_safe _).noOof
            | err m e => simp
            | ok m' ft =>
              obtain ⟨fnum, typ⟩ := ft
              simp only
              split
              · simp
              split
              · simp
              refine slideThen_noOof fun hl' => hk _ _ ?_
              rw [List.length_drop, List.length_drop]; omega
          · exact hk _ _ (by rw [List.length_drop]; omega)
        refine cont _ fun bz' n' hlt => ?_
        cases hx : rec (.base ci.tid) (Γ.zero ci.tid) fo true bz' with
        | ok m2 v =>
          simp only
          split
          · split
            · simp
            split <;> simp
          · simp
        | err m2 e =>
          simp only
          split
          · split <;> simp
          · simp
        | panic p => simp
        | oof => exact absurd hx (hrec _ _ _ _ _ hlt)
  · simp

theorem decShape_noOof (hR : DecRank Γ rank R) (hf : RecFits rec) (h : RecTerm rank R B rec)
    (id : TId) (prior : Val) (fo : FOpts) (bare : Bool) (bz : Bytes)
    (hB : bz.length * (R + 1) + rank id ≤ B) : decShape Γ c rec id prior fo bare bz ≠ .oof := by
  have hlt : ∀ t p fo' bare' bz', bz'.length < bz.length → rec t p fo' bare' bz' ≠ .oof := by
    intro t p fo' bare' bz' hl
    refine h _ _ _ _ _ ?_
    have := hR.bound t.deref
    have : (bz'.length + 1) * (R + 1) ≤ bz.length * (R + 1) := Nat.mul_le_mul_right _ hl
    rw [Nat.add_mul] at this
    omega
  have hle : ∀ t p fo' bare' bz', rank t.deref < rank id → bz'.length ≤ bz.length →
      rec t p fo' bare' bz' ≠ .oof := by
    intro t p fo' bare' bz' hrk hl
    refine h _ _ _ _ _ ?_
    have : bz'.length * (R + 1) ≤ bz.length * (R + 1) := Nat.mul_le_mul_right _ hl
    omega
  have hb : ∀ buf : Bytes, (bare = true → buf = bz) → (bare = false → buf.length < bz.length) →
      buf.length ≤ bz.length := by
    intro buf h1 h2
    cases bare with
    | true => rw [h1 rfl]; omega
    | false => have := h2 rfl; omega
  have simple : ∀ {α : Type} (r : DRes α) (g : α → Val), Safe r bz →
      (r.andSlide bz 0 fun i _ n => DRes.ok n (g i)) ≠ .oof :=
    fun r g hr => andSlide_noOof hr.noOof fun _ _ _ _ => by simp
  unfold decShape
  split
  · exact decIface_noOof _ _ _ _ _ hlt
  · rename_i len e hsh
    split
    · unfold decByteArray
      split
      · simp
      · refine andSlide_noOof (decodeByteSlice_safe _).noOof fun b m hm hl => ?_
        split
        · simp
        split <;> simp
    · unfold decArray
      refine infoThen_noOof (unframe_noOof fun buf n h1 h2 => ?_)
      have hbb := hb buf h1 h2
      split
      · split
        · rename_i hty
          have : rank e.deref < rank id := hR.elem (by rw [hsh]; rfl) (by
            cases hl : Γ.isLen e.deref with
            | false => rfl
            | true => exact absurd (isLen_iff.mp hl) hty)
          exact map_noOof (decPackedArr_noOof _ _ _ _ _ fun p bz' h' => hle _ _ _ _ _ this (by omega))
        · exact map_noOof (decUnpackedArr_noOof _ _ _ _ _ fun p bz' fo' h' => hlt _ _ _ _ _ (by omega))
      · simp
  · rename_i e hsh
    split
    · unfold decByteSlice
      split
      · simp
      · refine andSlide_noOof (decodeByteSlice_safe _).noOof fun b m hm hl => ?_
        split
        · simp
        split <;> simp
    · unfold decSlice
      refine infoThen_noOof (unframe_noOof fun buf n h1 h2 => ?_)
      have hbb := hb buf h1 h2
      split
      · rename_i hty
        have : rank e.deref < rank id := hR.elem (by rw [hsh]; rfl) (by
          cases hl : Γ.isLen e.deref with
          | false => rfl
          | true => exact absurd (isLen_iff.mp hl) hty)
        exact map_noOof (decPackedSlice_noOof hf _ _ _ _ _ (by omega)
          fun bz' h' => hle _ _ _ _ _ this (by omega))
      · exact map_noOof (decUnpackedSlice_noOof _ _ _ _ _ (by omega)
          fun bz' fo' h' => hlt _ _ _ _ _ (by omega))
  · rename_i fs hsh
    refine unframe_noOof fun buf n h1 h2 => ?_
    have hbb := hb buf h1 h2
    split
    · refine map_noOof (decFields_noOof _ _ _ _ _ _ ?_ ?_)
      · intro f hf' hv hu p fo' bz' h'
        exact hle _ _ _ _ _ (hR.field hsh f hf' hv hu) (by omega)
      · intro t p fo' bare' bz' h'; exact hlt _ _ _ _ _ (by omega)
    · simp
  · refine unframe_noOof fun buf n h1 h2 => ?_
    exact andSlide_noOof (decodeTime_safe _).2.1 fun _ _ _ _ => by simp
  · refine map_noOof ?_
    rename_i k _
    unfold decInt
    cases k <;> simp only <;> (try split) <;>
      refine andSlide_noOof ?_ (fun _ _ _ _ => by first | (simp; done) | (split <;> simp))
    all_goals first
      | exact (decodeInt8_safe bz).noOof | exact (decodeInt16_safe bz).noOof
      | exact (decodeInt32_safe bz).noOof | exact (decodeInt64_safe bz).noOof
      | exact (decodeUvarint_safe bz).noOof | exact (decodeUint8_safe bz).noOof
      | exact (decodeUint16_safe bz).noOof | exact (decodeUint32_safe bz).noOof
      | exact (decodeUint64_safe bz).noOof
  · exact simple _ _ (decodeBool_safe bz)
  · split
    · simp
    · exact simple _ _ (decodeUint64_safe bz)
  · split
    · simp
    · exact simple _ _ (decodeUint32_safe bz)
  · exact simple _ _ (decodeByteSlice_safe bz)
  · simp

end

/-- With a fuel proportional to the input length, decoding terminates. -/
theorem dec_terminates {Γ : Prog} {c : Codec} {rank : TId → Nat} {R : Nat} (hu : Γ.UserOk)
    (hR : DecRank Γ rank R) (f : Nat) : RecTerm rank R f (dec Γ c f) := by
  induction f with
  | zero => intro t p fo bare bz h; omega
  | succ f ih =>
    intro t p fo bare bz h
    unfold dec decBody
    split
    · simp
    simp only
    refine map_noOof ?_
    split
    · rename_i rid um hum
      refine infoThen_noOof (andSlide_noOof (ih _ _ _ _ _ ?_) fun r m hm hl => ?_)
      · have := hR.unmarsh hum
        show _ + rank rid < f
        omega
      · cases hx : um (Γ.derefPrior t p) r with
        | ok => simp
        | err => simp
        | panic => simp
        | oof => exact absurd hx (hu.2 _ _ _ _ _ hum).1
    · exact decShape_noOof hR (dec_fits hu f) ih _ _ _ _ _ (by omega)

end Amino
