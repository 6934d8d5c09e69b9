import Verif.AminoApi
import Verif.PrimLemmas2

/-!
# Byte accounting of the decoder

`Post Q V L N r`: on success `r` reports a count between `L` and `N` and a value in `V`; on error a
count at most `N`; a panic satisfies `Q`.
-/

namespace Amino
open Spec

variable {α β : Type}

def Post (Q : Pan → Prop) (V : α → Prop) (L N : Nat) : DRes α → Prop
  | .ok n a => L ≤ n ∧ n ≤ N ∧ V a
  | .err n _ => n ≤ N
  | .panic p => Q p
  | .oof => True

namespace Post
variable {Q : Pan → Prop} {V : α → Prop} {W : β → Prop} {L N : Nat}

theorem mono {V' : α → Prop} {L' N' : Nat} {r : DRes α} (h : Post Q V L N r)
    (hv : ∀ a, V a → V' a) (hl : L' ≤ L) (hn : N ≤ N') : Post Q V' L' N' r := by
  cases r <;> simp only [Post] at h ⊢
  · exact ⟨by omega, by omega, hv _ h.2.2⟩
  · omega
  · exact h

theorem map {r : DRes α} {f : α → β} (h : Post Q V L N r) (hv : ∀ a, V a → W (f a)) :
    Post Q W L N (r.map f) := by
  cases r <;> simp only [Post, DRes.map] at h ⊢
  · exact ⟨h.1, h.2.1, hv _ h.2.2⟩
  · exact h
  · exact h

theorem andSlide {r : DRes α} {bz : Bytes} {n L' M : Nat} {k : α → Bytes → Nat → DRes β}
    (hr : Post Q V L bz.length r) (hM : n + bz.length ≤ M)
    (hk : ∀ a m, L ≤ m → m ≤ bz.length → V a → Post Q W L' M (k a (bz.drop m) (n + m))) :
    Post Q W L' M (r.andSlide bz n k) := by
  cases r <;> simp only [Post] at hr
  · rename_i m a
    unfold DRes.andSlide
    simp only [if_pos hr.2.1]
    exact hk a m hr.1 hr.2.1 hr.2.2
  · unfold DRes.andSlide
    simp only [if_pos hr, Post]; omega
  · exact hr
  · trivial

theorem slideThen {bz : Bytes} {m n L' M : Nat} {k : Bytes → Nat → DRes β}
    (hm : m ≤ bz.length) (hk : Post Q W L' M (k (bz.drop m) (n + m))) :
    Post Q W L' M (slideThen m bz n k) := by
  unfold Amino.slideThen; rw [if_pos hm]; exact hk

theorem infoThen {Γ : Prog} {c : Codec} {id : TId} {n L' M : Nat} {k : DRes β} (hn : n ≤ M)
    (hq : ∀ p, getInfo Γ c id = .panic p → Q p) (hk : Post Q W L' M k) :
    Post Q W L' M (infoThen Γ c id n k) := by
  unfold Amino.infoThen
  cases h : getInfo Γ c id <;> simp only [Post]
  · exact hk
  · exact hn
  · exact hq _ h

theorem ofSafe {r : DRes α} {bz : Bytes} (h : Safe r bz) : Post Q (fun _ => True) 1 bz.length r := by
  obtain ⟨h1, h2, h3, h4⟩ := h
  cases r with
  | ok n a => exact ⟨h4 n a rfl, h3, trivial⟩
  | err n e => exact h3
  | panic p => exact absurd rfl (h1 p)
  | oof => trivial

end Post

theorem getInfo_panic {Γ : Prog} {c : Codec} {id : TId} {p : Pan} (h : getInfo Γ c id = .panic p) :
    p = .unsafeFloat := by
  unfold getInfo at h
  split at h
  · split at h <;> simp at h
  · split at h <;> simp at h; exact h.symm
  · simp at h

theorem uvarintSize_le {bz buf : Bytes} {m : Nat} (h : decodeByteSlice bz = .ok m buf) :
    uvarintSize (UInt64.ofNat buf.length) + buf.length ≤ bz.length ∧
    1 ≤ uvarintSize (UInt64.ofNat buf.length) ∧ uvarintSize (UInt64.ofNat buf.length) ≤ 10 ∧
    m ≤ bz.length := by
  obtain ⟨l, h1, h2, h3, h4, -, h5, -⟩ := decodeByteSlice_ok h
  rw [uvarintSize_eq]
  have hb : (UInt64.ofNat buf.length).toNat = buf.length := by
    simp; omega
  rw [hb]
  have := (readVarint_minimal h1).1
  have := varint_length_pos buf.length
  omega

/-- Unframing: the content is shorter than the input by at least the counted prefix. -/
theorem Post.unframe {Q : Pan → Prop} {W : β → Prop} {L : Nat} {bare : Bool} {bz : Bytes}
    {k : Bytes → Nat → DRes β}
    (hk : ∀ buf n, n + buf.length ≤ bz.length → (bare = false → 1 ≤ n) → (bare = true → buf = bz ∧ n = 0) →
      Post Q W L bz.length (k buf n)) :
    Post Q W L bz.length (unframe bare bz k) := by
  unfold Amino.unframe
  cases bare with
  | true => exact hk bz 0 (by omega) (by simp) (by simp)
  | false =>
    simp only [Bool.false_eq_true, if_false]
    have hs := decodeByteSlice_safe bz
    cases h : decodeByteSlice bz with
    | ok m buf =>
      have := uvarintSize_le h
      simp only [if_pos this.2.2.2]
      exact hk buf _ (by omega) (fun _ => this.2.1) (by simp)
    | err m e =>
      have hw := hs.within; rw [h] at hw
      simp only [DRes.within] at hw
      simp only [if_pos hw, Post]; omega
    | panic p => exact absurd h (hs.noPanic p)
    | oof => trivial

theorem consumeAny_post {Q : Pan → Prop} (typ : Nat) (bz : Bytes) :
    Post Q (fun _ => True) 1 bz.length (consumeAny typ bz) := by
  unfold consumeAny
  have aux : ∀ {α : Type} (r : DRes α), Safe r bz →
      Post Q (fun _ : Unit => True) 1 bz.length (skipped r bz) := by
    intro α r hr
    have := Post.ofSafe (Q := Q) hr
    cases r <;> simp only [Post, skipped] at this ⊢
    · exact Post.slideThen this.2.1 ⟨by omega, by omega, trivial⟩
    · omega
    · exact this
  split
  · exact aux _ (decodeVarint_safe bz)
  split
  · exact aux _ (decodeInt64_safe bz)
  split
  · exact aux _ (decodeByteSlice_safe bz)
  split
  · exact aux _ (decodeInt32_safe bz)
  · simp [Post]

theorem consumeRest_post {Q : Pan → Prop} (k last : Nat) (bz : Bytes) (n M : Nat) (h : n + bz.length ≤ M) :
    Post Q (fun _ => True) n M (consumeRest k last bz n) := by
  induction k generalizing last bz n with
  | zero =>
    cases bz with
    | nil => exact ⟨by omega, by simpa using h, trivial⟩
    | cons b bs => trivial
  | succ k ih =>
    cases bz with
    | nil => exact ⟨by omega, by simpa using h, trivial⟩
    | cons b bs =>
      unfold consumeRest
      refine Post.andSlide (Post.ofSafe (decodeKey_safe _)) h fun ft m h1 h2 _ => ?_
      split
      · simp only [Post]; omega
      · refine Post.andSlide (consumeAny_post _ _) (by simp only [List.length_drop]; omega)
          fun _ m' h3 h4 _ => ?_
        refine (ih _ _ _ ?_).mono (fun _ h => h) (by omega) (by omega)
        simp only [List.length_drop] at h4 ⊢; omega

theorem decodeDisambPrefix_post {Q : Pan → Prop} (bz : Bytes) :
    Post Q (fun _ => True) 4 bz.length (decodeDisambPrefix bz) := by
  unfold decodeDisambPrefix
  split
  · simp [Post]
  split
  · split
    · simp [Post]
    · exact ⟨by omega, by omega, trivial⟩
  · exact ⟨by omega, by omega, trivial⟩

theorem decInt_post {Q : Pan → Prop} (k : IntKind) (fo : FOpts) (bz : Bytes) :
    Post Q (fun _ => True) 1 bz.length (decInt k fo bz) := by
  have base : ∀ {α : Type} (r : DRes α) (g : α → Int), Safe r bz →
      Post Q (fun _ => True) 1 bz.length (r.andSlide bz 0 fun i _ n => .ok n (g i)) := by
    intro α r g hr
    exact Post.andSlide (Post.ofSafe hr) (by omega) fun a m h1 h2 _ => ⟨by omega, by omega, trivial⟩
  unfold decInt
  cases k <;> simp only
  · exact base _ id (decodeInt8_safe bz)
  · exact base _ id (decodeInt16_safe bz)
  · split
    · exact base _ id (decodeInt32_safe bz)
    · refine Post.andSlide (Post.ofSafe (decodeUvarint_safe bz)) (by omega) fun a m h1 h2 _ => ?_
      split
      · simp only [Post]; omega
      · exact ⟨by omega, by omega, trivial⟩
  · split
    · exact base _ id (decodeInt64_safe bz)
    · exact base _ intOfU64 (decodeUvarint_safe bz)
  · refine Post.andSlide (Post.ofSafe (decodeUvarint_safe bz)) (by omega) fun a m h1 h2 _ => ?_
    split
    · simp only [Post]; omega
    · exact ⟨by omega, by omega, trivial⟩
  · exact base _ (fun u => u.toNat) (decodeUint8_safe bz)
  · exact base _ (fun u => u.toNat) (decodeUint16_safe bz)
  · split
    · exact base _ (fun u => u.toNat) (decodeUint32_safe bz)
    · exact base _ (fun u => ((u.toNat % 2 ^ 32 : Nat) : Int)) (decodeUvarint_safe bz)
  · split
    · exact base _ (fun u => u.toNat) (decodeUint64_safe bz)
    · exact base _ (fun u => u.toNat) (decodeUvarint_safe bz)
  · exact base _ (fun u => u.toNat) (decodeUvarint_safe bz)

theorem decodeTime_post {Q : Pan → Prop} (bz : Bytes) :
    Post Q (fun t => minSeconds ≤ t.1 ∧ t.1 < maxSeconds ∧ 0 ≤ t.2 ∧ t.2 ≤ maxNanos) 0 bz.length
      (decodeTime bz) := by
  obtain ⟨h1, h2, h3, h4⟩ := decodeTime_safe bz
  cases h : decodeTime bz with
  | ok n t =>
    rw [h] at h3
    have := h4 n t.1 t.2 (by rw [h])
    exact ⟨by omega, h3, this.1, this.2.1, this.2.2.1, this.2.2.2.1⟩
  | err n e => rw [h] at h3; exact h3
  | panic p => exact absurd h (h1 p)
  | oof => trivial

/-! ## The untyped theorem: counts stay within the input, `slide` never panics -/

/-- User methods can fail or panic, with a panic of their own. -/
def Prog.UserOk (Γ : Prog) : Prop :=
  (∀ id rid m v, Γ.marsh id = some (rid, m) → m v ≠ .oof ∧ ∀ p, m v = .panic p → p = .user) ∧
  (∀ id rid um p r, Γ.unmarsh id = some (rid, um) → um p r ≠ .oof ∧ ∀ q, um p r = .panic q → q = .user)

/-- Least count of a successful call: a length delimited value takes at least one byte. -/
def lo (bare : Bool) (bz : Bytes) : Nat := if bare = false ∧ bz ≠ [] then 1 else 0

/-- What the recursive calls are assumed to satisfy. -/
def RecFits (rec : Ty → Val → FOpts → Bool → Bytes → DRes Val) : Prop :=
  ∀ t p fo bare bz, Post (· ≠ .slide) (fun _ => True) (lo bare bz) bz.length (rec t p fo bare bz)

section
variable {Γ : Prog} {c : Codec} {rec : Ty → Val → FOpts → Bool → Bytes → DRes Val}

theorem RecFits.post (h : RecFits rec) (t : Ty) (p : Val) (fo : FOpts) (bare : Bool) (bz : Bytes) :
    Post (· ≠ .slide) (fun _ => True) 0 bz.length (rec t p fo bare bz) :=
  (h t p fo bare bz).mono (fun _ h => h) (by omega) (by omega)

theorem infoPanic {id : TId} : ∀ p, getInfo Γ c id = .panic p → p ≠ .slide := by
  intro p h; rw [getInfo_panic h]; simp

theorem decPackedSlice_post (h : RecFits rec) (e : Ty) (fo : FOpts) (k : Nat) (bz : Bytes) (n M : Nat)
    (hM : n + bz.length ≤ M) :
    Post (· ≠ .slide) (fun _ => True) n M (decPackedSlice Γ rec e fo k bz n) := by
  induction k generalizing bz n with
  | zero =>
    cases bz with
    | nil => exact ⟨by omega, by simpa using hM, trivial⟩
    | cons b bs => trivial
  | succ k ih =>
    cases bz with
    | nil => exact ⟨by omega, by simpa using hM, trivial⟩
    | cons b bs =>
      unfold decPackedSlice
      refine Post.andSlide (h.post _ _ _ _ _) hM fun v m h1 h2 _ => ?_
      refine Post.map (V := fun _ => True) ?_ fun _ _ => trivial
      exact (ih _ _ (by simp only [List.length_drop]; omega)).mono (fun _ h => h) (by omega) (by omega)

theorem decUnpackedSlice_post (h : RecFits rec) (e : Ty) (fo : FOpts) (k : Nat) (bz : Bytes) (n M : Nat)
    (hM : n + bz.length ≤ M) :
    Post (· ≠ .slide) (fun _ => True) n M (decUnpackedSlice Γ rec e fo k bz n) := by
  induction k generalizing bz n with
  | zero =>
    cases bz with
    | nil => exact ⟨by omega, by simpa using hM, trivial⟩
    | cons b bs => trivial
  | succ k ih =>
    cases bz with
    | nil => exact ⟨by omega, by simpa using hM, trivial⟩
    | cons b bs =>
      unfold decUnpackedSlice
      have hs := decodeKey_safe (b :: bs)
      cases hd : decodeKey (b :: bs) with
      | panic p => exact absurd hd (hs.noPanic p)
      | oof => trivial
      | err m e => simp only [Post]; omega
      | ok m ft =>
        obtain ⟨fnum, typ⟩ := ft
        have hk := decodeKey_ok hd
        simp only
        split
        · simp only [Post]; omega
        split
        · exact ⟨by omega, by omega, trivial⟩
        split
        · simp only [Post]; omega
        refine Post.slideThen hk.2.2.2.2.2 ?_
        split
        · rename_i hz
          have hne : 1 ≤ ((b :: bs).drop m).length := by
            cases hx : (b :: bs).drop m with
            | nil => rw [hx] at hz; simp at hz
            | cons => simp
          refine Post.slideThen hne (Post.map (V := fun _ => True) ?_ fun _ _ => trivial)
          refine (ih _ _ ?_).mono (fun _ h => h) (by omega) (by omega)
          simp only [List.length_drop] at hne ⊢; omega
        · refine Post.andSlide (h.post _ _ _ _ _) (by simp only [List.length_drop]; omega)
            fun v m' h1 h2 _ => Post.map (V := fun _ => True) ?_ fun _ _ => trivial
          refine (ih _ _ ?_).mono (fun _ h => h) (by omega) (by omega)
          simp only [List.length_drop] at h2 ⊢; omega

theorem decPackedArr_post (h : RecFits rec) (e : Ty) (fo : FOpts) (ps : List Val) (bz : Bytes) (n M : Nat)
    (hM : n + bz.length ≤ M) :
    Post (· ≠ .slide) (fun _ => True) n M (decPackedArr Γ rec e fo ps bz n) := by
  induction ps generalizing bz n with
  | nil =>
    unfold decPackedArr
    split
    · simp only [Post]; omega
    · exact ⟨by omega, by omega, trivial⟩
  | cons p ps ih =>
    unfold decPackedArr
    refine Post.andSlide (h.post _ _ _ _ _) hM fun v m h1 h2 _ => ?_
    refine Post.map (V := fun _ => True) ?_ fun _ _ => trivial
    exact (ih _ _ (by simp only [List.length_drop]; omega)).mono (fun _ h => h) (by omega) (by omega)

theorem decUnpackedArr_post (h : RecFits rec) (e : Ty) (fo : FOpts) (ps : List Val) (bz : Bytes) (n M : Nat)
    (hM : n + bz.length ≤ M) :
    Post (· ≠ .slide) (fun _ => True) n M (decUnpackedArr Γ rec e fo ps bz n) := by
  induction ps generalizing bz n with
  | nil =>
    unfold decUnpackedArr
    split
    · have hs := decodeKey_safe bz
      cases hd : decodeKey bz with
      | panic p => exact absurd hd (hs.noPanic p)
      | oof => trivial
      | err m e => simp only [Post]; omega
      | ok m ft =>
        simp only
        split
        · simp only [Post]; omega
        · exact ⟨by omega, by omega, trivial⟩
    · exact ⟨by omega, by omega, trivial⟩
  | cons p ps ih =>
    unfold decUnpackedArr
    have hs := decodeKey_safe bz
    cases hd : decodeKey bz with
    | panic p => exact absurd hd (hs.noPanic p)
    | oof => trivial
    | err m e => simp only [Post]; omega
    | ok m ft =>
      obtain ⟨fnum, typ⟩ := ft
      have hk := decodeKey_ok hd
      simp only
      split
      · simp only [Post]; omega
      split
      · simp only [Post]; omega
      refine Post.slideThen hk.2.2.2.2.2 ?_
      split
      · rename_i hz
        have hne : 1 ≤ (bz.drop m).length := by
          cases hx : bz.drop m with
          | nil => rw [hx] at hz; simp at hz
          | cons => simp
        refine Post.slideThen hne (Post.map (V := fun _ => True) ?_ fun _ _ => trivial)
        refine (ih _ _ ?_).mono (fun _ h => h) (by omega) (by omega)
        simp only [List.length_drop] at hne ⊢; omega
      · refine Post.andSlide (h.post _ _ _ _ _) (by simp only [List.length_drop]; omega)
          fun v m' h1 h2 _ => Post.map (V := fun _ => True) ?_ fun _ _ => trivial
        refine (ih _ _ ?_).mono (fun _ h => h) (by omega) (by omega)
        simp only [List.length_drop] at h2 ⊢; omega

theorem decFields_post (h : RecFits rec) (fs : List Field) (ps : List Val) (num last : Nat) (bz : Bytes)
    (n M : Nat) (hM : n + bz.length ≤ M) :
    Post (· ≠ .slide) (fun _ => True) n M (decFields Γ c rec fs ps num last bz n) := by
  induction fs generalizing ps num last bz n with
  | nil =>
    cases ps with
    | nil => exact Post.map (consumeRest_post _ _ _ _ _ hM) fun _ _ => trivial
    | cons => simp [decFields, Post]
  | cons f fs ih =>
    cases ps with
    | nil => simp [decFields, Post]
    | cons p ps =>
      unfold decFields
      split
      · exact Post.map (ih _ _ _ _ _ hM) fun _ _ => trivial
      refine Post.infoThen (by omega) infoPanic ?_
      split
      · exact Post.map (ih _ _ _ _ _ hM) fun _ _ => trivial
      split
      · refine Post.andSlide (h.post _ _ _ _ _) hM fun v m h1 h2 _ => ?_
        refine Post.map (V := fun _ => True) ?_ fun _ _ => trivial
        exact (ih _ _ _ _ _ (by simp only [List.length_drop]; omega)).mono
          (fun _ h => h) (by omega) (by omega)
      have hs := decodeKey_safe bz
      cases hd : decodeKey bz with
      | panic p => exact absurd hd (hs.noPanic p)
      | oof => trivial
      | err m e => simp only [Post]; omega
      | ok m ft =>
        obtain ⟨fnum, typ⟩ := ft
        have hk := decodeKey_ok hd
        simp only
        split
        · exact Post.map (ih _ _ _ _ _ hM) fun _ _ => trivial
        split
        · simp only [Post]; omega
        refine Post.slideThen hk.2.2.2.2.2 ?_
        split
        · simp only [Post]; omega
        split
        · simp only [Post]; omega
        refine Post.andSlide (h.post _ _ _ _ _) (by simp only [List.length_drop]; omega)
          fun v m' h1 h2 _ => Post.map (V := fun _ => True) ?_ fun _ _ => trivial
        refine (ih _ _ _ _ _ ?_).mono (fun _ h => h) (by omega) (by omega)
        simp only [List.length_drop] at h2 ⊢; omega

theorem concKey_post {Q : Pan → Prop} {W : β → Prop} {cid : TId} {fo : FOpts} {bz : Bytes} {n L M : Nat}
    {k : Bytes → Nat → DRes β} (hM : n + bz.length ≤ M)
    (hk : ∀ m, m ≤ bz.length → Post Q W L M (k (bz.drop m) (n + m))) :
    Post Q W L M (concKey Γ cid fo bz n k) := by
  unfold concKey
  split
  · have hs := decodeKey_safe bz
    cases hd : decodeKey bz with
    | panic p => exact absurd hd (hs.noPanic p)
    | oof => trivial
    | err m e => simp only [Post]; omega
    | ok m ft =>
      obtain ⟨fnum, typ⟩ := ft
      have := decodeKey_ok hd
      simp only
      split
      · simp only [Post]; omega
      split
      · simp only [Post]; omega
      exact Post.slideThen this.2.2.2.2.2 (hk m this.2.2.2.2.2)
  · simpa using hk 0 (by omega)

theorem decIface_post (h : RecFits rec) (id : TId) (prior : Val) (fo : FOpts) (bare : Bool) (bz : Bytes) :
    Post (· ≠ .slide) (fun _ => True) 1 bz.length (decIface Γ c rec id prior fo bare bz) := by
  unfold decIface
  split
  · cases c.iface? id with
    | none => simp [Post]
    | some ii =>
      refine Post.unframe fun buf n h1 h2 _ => ?_
      refine Post.andSlide (decodeDisambPrefix_post _) h1 fun dp m h3 h4 _ => ?_
      cases lookupConc c ii dp with
      | error e => simp only [Post]; omega
      | ok ci =>
        refine concKey_post (by simp only [List.length_drop]; omega) fun m' h5 => ?_
        have hr := h.post (.base ci.tid) (Γ.zero ci.tid) fo true (List.drop m' (List.drop m buf))
        simp only [List.length_drop] at h5
        cases hx : rec (.base ci.tid) (Γ.zero ci.tid) fo true (List.drop m' (List.drop m buf)) with
        | ok m2 v =>
          rw [hx] at hr
          simp only [Post] at hr
          simp only [if_pos hr.2.1]
          simp only [List.length_drop] at hr
          split
          · simp only [Post]; omega
          split
          · simp only [Post]; refine ⟨by omega, by omega, trivial⟩
          · simp [Post]
        | err m2 e =>
          rw [hx] at hr
          simp only [Post] at hr
          simp only [if_pos hr]
          simp only [List.length_drop] at hr
          split
          · simp only [Post]; omega
          · simp [Post]
        | panic p => rw [hx] at hr; exact hr
        | oof => trivial
  · simp [Post]

theorem decShape_post (h : RecFits rec) (id : TId) (prior : Val) (fo : FOpts) (bare : Bool) (bz : Bytes) :
    Post (· ≠ .slide) (fun _ => True) (lo bare bz) bz.length
      (decShape Γ c rec id prior fo bare bz) := by
  have hL : lo bare bz ≤ 1 := by unfold lo; split <;> omega
  have hfr : ∀ n, (bare = false → 1 ≤ n) → lo bare bz ≤ n := by
    intro n hn; unfold lo; split
    · rename_i hh; exact hn hh.1
    · omega
  have simple : ∀ {α : Type} (r : DRes α) (g : α → Val), Safe r bz →
      Post (· ≠ .slide) (fun _ => True) (lo bare bz) bz.length
        (r.andSlide bz 0 fun i _ n => .ok n (g i)) := by
    intro α r g hr
    exact Post.andSlide (Post.ofSafe hr) (by omega) fun a m h1 h2 _ => ⟨by omega, by omega, trivial⟩
  unfold decShape
  split
  · exact (decIface_post h _ _ _ _ _).mono (fun _ h => h) hL (by omega)
  · split
    · unfold decByteArray
      split
      · simp [Post]
      · refine Post.andSlide (Post.ofSafe (decodeByteSlice_safe bz)) (by omega) fun b m h1 h2 _ => ?_
        split
        · simp only [Post]; omega
        split
        · exact ⟨by omega, by omega, trivial⟩
        · simp [Post]
    · unfold decArray
      refine Post.infoThen (by omega) infoPanic (Post.unframe fun buf n h1 h2 _ => ?_)
      have := hfr n h2
      split
      · split
        · exact Post.map ((decPackedArr_post h _ _ _ _ _ _ h1).mono (fun _ h => h) this (by omega))
            fun _ _ => trivial
        · exact Post.map ((decUnpackedArr_post h _ _ _ _ _ _ h1).mono (fun _ h => h) this (by omega))
            fun _ _ => trivial
      · simp [Post]
  · split
    · unfold decByteSlice
      split
      · rename_i hz
        have : bz = [] := List.eq_nil_of_length_eq_zero hz
        simp [Post, this, lo]
      · refine Post.andSlide (Post.ofSafe (decodeByteSlice_safe bz)) (by omega) fun b m h1 h2 _ => ?_
        split
        · exact ⟨by omega, by omega, trivial⟩
        split
        · exact ⟨by omega, by omega, trivial⟩
        · simp [Post]
    · unfold decSlice
      refine Post.infoThen (by omega) infoPanic (Post.unframe fun buf n h1 h2 _ => ?_)
      have := hfr n h2
      split
      · exact Post.map ((decPackedSlice_post h _ _ _ _ _ _ h1).mono (fun _ h => h) this (by omega))
          fun _ _ => trivial
      · exact Post.map ((decUnpackedSlice_post h _ _ _ _ _ _ h1).mono (fun _ h => h) this (by omega))
          fun _ _ => trivial
  · refine Post.unframe fun buf n h1 h2 _ => ?_
    have := hfr n h2
    split
    · exact Post.map ((decFields_post h _ _ _ _ _ _ _ h1).mono (fun _ h => h) this (by omega))
        fun _ _ => trivial
    · simp [Post]
  · refine Post.unframe fun buf n h1 h2 _ => ?_
    have := hfr n h2
    refine Post.andSlide (decodeTime_post buf) h1 fun t m h3 h4 _ => ⟨by omega, by omega, trivial⟩
  · exact Post.map ((decInt_post _ _ _).mono (fun _ h => h) hL (by omega)) fun _ _ => trivial
  · exact simple _ _ (decodeBool_safe bz)
  · split
    · simp [Post]
    · exact simple _ _ (decodeUint64_safe bz)
  · split
    · simp [Post]
    · exact simple _ _ (decodeUint32_safe bz)
  · exact simple _ _ (decodeByteSlice_safe bz)
  · simp [Post]

theorem decBody_post (hu : Γ.UserOk) (h : RecFits rec) : RecFits (decBody Γ c rec) := by
  intro t p fo bare bz
  unfold decBody
  split
  · simp [Post]
  · simp only
    refine Post.map (V := fun _ => True) ?_ fun _ _ => trivial
    split
    · rename_i rid um hum
      refine Post.infoThen (by omega) infoPanic ?_
      refine Post.andSlide (h _ _ _ _ _) (by omega) fun r m h1 h2 _ => ?_
      cases hx : um (Γ.derefPrior t p) r with
      | ok v => exact ⟨by omega, by omega, trivial⟩
      | err e => simp only [Post]; omega
      | panic q => simp only [Post]; rw [(hu.2 _ _ _ _ _ hum).2 q hx]; simp
      | oof => trivial
    · exact decShape_post h _ _ _ _ _

end

/-- Every decoding call reports a count within its input, at least 1 for a length delimited value read
from a non-empty input, and never makes an "impossible slide". -/
theorem dec_fits {Γ : Prog} {c : Codec} (hu : Γ.UserOk) (f : Nat) : RecFits (dec Γ c f) := by
  induction f with
  | zero => intro t p fo bare bz; simp [dec, Post]
  | succ f ih => exact decBody_post hu ih

end Amino
