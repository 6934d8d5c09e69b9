import Verif.SpecJWrite
import Verif.WriteLemmas
import Verif.DocEnc

/-!
# The JSON encoder succeeds exactly on writable values
-/

namespace Amino
open Spec

variable {Γ : Prog} {c : Codec} {J : JLib}

/-! ## Success implies writable -/

def RecJW (Γ : Prog) (c : Codec) (J : JLib) (rec : Bool → Ty → Val → FOpts → Res Bytes) : Prop :=
  ∀ a t v fo b, rec a t v fo = .ok b → JWritable Γ c J a t fo v

section
variable {rec : Bool → Ty → Val → FOpts → Res Bytes}

theorem jencElems_w (h : RecJW Γ c J rec) {a : Bool} {e : Ty} {fo : FOpts} {vs : List Val} {bs : List Bytes}
    (hb : jencElems rec a e fo vs = .ok bs) : ∀ v ∈ vs, JWritable Γ c J a e fo v := by
  induction vs generalizing bs with
  | nil => simp
  | cons v vs ih =>
    rw [jencElems] at hb
    obtain ⟨b, h1, hb⟩ := Res.bind_eq_ok hb
    obtain ⟨bs', h2, hb⟩ := Res.bind_eq_ok hb
    intro w hw
    rcases List.mem_cons.1 hw with rfl | hw
    · exact h _ _ _ _ _ h1
    · exact ih h2 w hw

theorem jencList_w (h : RecJW Γ c J rec) {a : Bool} {e : Ty} {fo : FOpts} {vs : List Val} {b : Bytes}
    (hb : jencList Γ c rec a e fo vs = .ok b) : Known Γ c e.deref ∧ ∀ v ∈ vs, JWritable Γ c J a e fo v := by
  rw [jencList] at hb
  obtain ⟨_, hi, hb⟩ := Res.bind_eq_ok hb
  obtain ⟨bs, h1, hb⟩ := Res.bind_eq_ok hb
  exact ⟨known_iff.2 hi, jencElems_w h h1⟩

theorem jencFields_w (h : RecJW Γ c J rec) {a : Bool} {fs : List Field} {vs : List Val} {bs : List Bytes}
    (hb : jencFields Γ c rec a fs vs = .ok bs) : fs.length = vs.length ∧
      (∀ p ∈ fs.zip vs, p.1.visible = true → Known Γ c p.1.ty.deref) ∧
      (∀ p ∈ fs.zip vs, shown Γ p = true → JWritable Γ c J a p.1.ty p.1.opts p.2) := by
  induction fs generalizing vs bs with
  | nil =>
    cases vs with
    | nil => simp
    | cons => cases hb
  | cons f fs ih =>
    cases vs with
    | nil => cases hb
    | cons v vs =>
      rw [jencFields] at hb
      simp only [List.zip_cons_cons, List.mem_cons, forall_eq_or_imp, List.length_cons, Nat.add_right_cancel_iff]
      split at hb
      · rename_i hv
        obtain ⟨_, hi, hb⟩ := Res.bind_eq_ok hb
        split at hb
        · rename_i ho
          obtain ⟨hl, h1, h2⟩ := ih hb
          refine ⟨hl, ⟨fun _ => known_iff.2 hi, h1⟩, fun hs => ?_, h2⟩
          simp only [shown, hv, leftOut_eq, ho, Bool.not_true, Bool.and_false] at hs
          cases hs
        · obtain ⟨b, h0, hb⟩ := Res.bind_eq_ok hb
          obtain ⟨bs', hb', hb⟩ := Res.bind_eq_ok hb
          obtain ⟨hl, h1, h2⟩ := ih hb'
          exact ⟨hl, ⟨fun _ => known_iff.2 hi, h1⟩, fun _ => h _ _ _ _ _ h0, h2⟩
      · rename_i hv
        obtain ⟨hl, h1, h2⟩ := ih hb
        refine ⟨hl, ⟨fun hv' => absurd hv' hv, h1⟩, fun hs => ?_, h2⟩
        simp [shown, hv] at hs

theorem jencEntries_w (h : RecJW Γ c J rec) {e : Ty} {fo : FOpts} {kvs : List (Bytes × Val)} {bs : List Bytes}
    (hb : jencEntries Γ c rec e fo kvs = .ok bs) :
      (∀ p ∈ kvs, pointee e p.2 ≠ none → Known Γ c e.deref) ∧ ∀ p ∈ kvs, JWritable Γ c J false e fo p.2 := by
  induction kvs generalizing bs with
  | nil => simp
  | cons kv kvs ih =>
    obtain ⟨k, v⟩ := kv
    rw [jencEntries] at hb
    obtain ⟨b, h1, hb⟩ := Res.bind_eq_ok hb
    obtain ⟨bs', h2, hb⟩ := Res.bind_eq_ok hb
    obtain ⟨g1, g2⟩ := ih h2
    simp only [List.mem_cons, forall_eq_or_imp]
    rw [jencEntry] at h1
    split at h1
    · rename_i hd
      exact ⟨⟨fun hn => absurd (by rw [pointee_eq]; exact hd) hn, g1⟩, h _ _ _ _ _ h1, g2⟩
    · obtain ⟨_, hi, h1⟩ := Res.bind_eq_ok h1
      exact ⟨⟨fun _ => known_iff.2 hi, g1⟩, h _ _ _ _ _ h1, g2⟩

theorem jencBytes_w {a : Bool} {e : Ty} {b x : Bytes} (h : jencBytes Γ a e b = .ok x) : a = true ∨ e = .base Γ.byteId := by
  rw [jencBytes] at h
  split at h
  · cases h
  · rename_i hn
    simp at hn
    cases a
    · exact .inr (hn rfl)
    · exact .inl rfl

theorem jencShape_w (h : RecJW Γ c J rec) {a : Bool} {id : TId} {v : Val} {fo : FOpts} {b : Bytes}
    (hm : NoMarshal Γ J a id) (hb : jencShape Γ c J rec a id v fo = .ok b) : JWritable Γ c J a (.base id) fo v := by
  unfold jencShape at hb
  split at hb
  case h_1 hs => exact .null hm (.inl hs)
  case h_2 t v hs =>
    rw [jencIface] at hb
    split at hb
    · cases hb
    rename_i hif
    split at hb
    · cases hb
    rename_i dv hd
    obtain ⟨_, hi, hb⟩ := Res.bind_eq_ok hb
    split at hb
    · cases hb
    rename_i ci hc
    obtain ⟨b', h1, hb⟩ := Res.bind_eq_ok hb
    refine .iface hm hs (by rw [pointee_eq]; exact hd) (fun hp => ?_) (known_iff.2 hi) hc (h _ _ _ _ _ h1)
    rw [hp] at hif
    simpa using hif
  case h_3 hs => exact .null hm (.inr (.inl ⟨_, hs⟩))
  case h_4 e b' hs => exact .bytes hm (by rw [hs]; rfl) (jencBytes_w hb)
  case h_5 n e b' hs => exact .bytes hm (by rw [hs]; rfl) (jencBytes_w hb)
  case h_6 e vs hs =>
    obtain ⟨h1, h2⟩ := jencList_w h hb
    exact .list hm hs h1 h2
  case h_7 n e vs hs =>
    obtain ⟨h1, h2⟩ := jencList_w h hb
    exact .array hm hs h1 h2
  case h_8 fs vs hs =>
    obtain ⟨bs, h1, hb⟩ := Res.bind_eq_ok hb
    obtain ⟨g1, g2, g3⟩ := jencFields_w h h1
    exact .struct hm hs g1 g2 g3
  case h_9 hs => exact .null hm (.inr (.inr ⟨_, hs⟩))
  case h_10 e kvs hs =>
    obtain ⟨bs, h1, hb⟩ := Res.bind_eq_ok hb
    obtain ⟨g1, g2⟩ := jencEntries_w h h1
    exact .map hm hs g1 g2
  case h_11 k i hs => exact .int hm hs
  case h_12 x hs =>
    split at hb
    · cases hb
    · rename_i hf
      exact .f32 hm hs (by simpa using hf) (ofOpt_inv hb)
  case h_13 x hs =>
    split at hb
    · cases hb
    · rename_i hf
      exact .f64 hm hs (by simpa using hf) (ofOpt_inv hb)
  case h_14 x hs => exact .bool hm hs
  case h_15 s hs => exact .str hm hs
  case h_16 s ns hs => exact .time hs (ofOpt_inv hb)
  case h_17 => cases hb

theorem jencBase_w (h : RecJW Γ c J rec) {a : Bool} {id : TId} {v : Val} {fo : FOpts} {b : Bytes}
    (hb : jencBase Γ c J rec a id v fo = .ok b) : JWritable Γ c J a (.base id) fo v := by
  rw [jencBase] at hb
  split at hb
  · rename_i ht
    exact jencShape_w h (.inl ht) hb
  rename_i ht
  split at hb
  · rename_i m hm
    exact .method ht hm hb
  rename_i hm
  split at hb
  · rename_i rid m hM
    obtain ⟨r, h1, hb⟩ := Res.bind_eq_ok hb
    obtain ⟨_, hi, hb⟩ := Res.bind_eq_ok hb
    exact .amino ht hm hM h1 (known_iff.2 hi) (h _ _ _ _ _ hb)
  · rename_i hM
    exact jencShape_w h (.inr ⟨hM, hm⟩) hb

end

theorem jwritable_none {a : Bool} {t : Ty} {fo : FOpts} {v : Val} (h : derefVal t v = none) : JWritable Γ c J a t fo v := by
  induction t generalizing v a with
  | base => cases h
  | ptr t iht =>
    cases v with
    | ptr w => exact .ptr (iht h)
    | _ => exact .nil (by intro w h; cases h)

theorem jwritable_some {a : Bool} {t : Ty} {fo : FOpts} {v dv : Val} (h : derefVal t v = some dv) :
    JWritable Γ c J (a || t.isPtr) (.base t.deref) fo dv ↔ JWritable Γ c J a t fo v := by
  induction t generalizing v a with
  | base id =>
    cases h
    simp [Ty.isPtr, Ty.deref]
  | ptr t iht =>
    cases v with
    | ptr w =>
      have := iht (a := true) (v := w) h
      simp only [Ty.isPtr, Bool.or_true, Bool.true_or, Ty.deref] at this ⊢
      rw [this]
      constructor
      · exact .ptr
      · intro hp
        cases hp with
        | nil hn => exact absurd rfl (hn _)
        | ptr hp => exact hp
    | _ => cases h

theorem jenc_w (f : Nat) : RecJW Γ c J (jenc Γ c J f) := by
  induction f with
  | zero => intro a t v fo b h; cases h
  | succ f ih =>
    intro a t v fo b hb
    rw [jenc] at hb
    split at hb
    · rename_i hd
      exact jwritable_none hd
    · rename_i dv hd
      exact (jwritable_some hd).1 (jencBase_w ih hb)

/-! ## Writable implies success -/

/-- Succeeds with enough fuel. -/
def Succ (Γ : Prog) (c : Codec) (J : JLib) (a : Bool) (t : Ty) (fo : FOpts) (v : Val) (f : Nat) : Prop :=
  ∀ g, f ≤ g → ∃ b, jenc Γ c J g a t v fo = .ok b

theorem Succ.le {a : Bool} {t : Ty} {fo : FOpts} {v : Val} {f f' : Nat} (h : Succ Γ c J a t fo v f) (hf : f ≤ f') :
    Succ Γ c J a t fo v f' := fun g hg => h g (Nat.le_trans hf hg)

/-- One bound for all members of a list. -/
theorem common {α : Type} {P : α → Nat → Prop} (hm : ∀ x f f', P x f → f ≤ f' → P x f') {l : List α}
    (h : ∀ x ∈ l, ∃ f, P x f) : ∃ f, ∀ x ∈ l, P x f := by
  induction l with
  | nil => exact ⟨0, by simp⟩
  | cons x l ih =>
    obtain ⟨f, hf⟩ := ih fun y hy => h y (by simp [hy])
    obtain ⟨k, hk⟩ := h x (by simp)
    refine ⟨max f k, ?_⟩
    intro y hy
    rcases List.mem_cons.1 hy with rfl | hy
    · exact hm _ _ _ hk (by omega)
    · exact hm _ _ _ (hf y hy) (by omega)

section
variable {rec : Bool → Ty → Val → FOpts → Res Bytes}

theorem jencElems_ok {a : Bool} {e : Ty} {fo : FOpts} {vs : List Val} (h : ∀ v ∈ vs, ∃ b, rec a e v fo = .ok b) :
    ∃ bs, jencElems rec a e fo vs = .ok bs := by
  induction vs with
  | nil => exact ⟨_, rfl⟩
  | cons v vs ih =>
    obtain ⟨b, hb⟩ := h v (by simp)
    obtain ⟨bs, hbs⟩ := ih fun w hw => h w (by simp [hw])
    exact ⟨b :: bs, by rw [jencElems, hb, Res.bind_ok, hbs, Res.bind_ok]⟩

theorem jencList_ok {a : Bool} {e : Ty} {fo : FOpts} {vs : List Val} (hk : Known Γ c e.deref)
    (h : ∀ v ∈ vs, ∃ b, rec a e v fo = .ok b) : ∃ b, jencList Γ c rec a e fo vs = .ok b := by
  obtain ⟨bs, hbs⟩ := jencElems_ok h
  exact ⟨_, by rw [jencList, known_iff.1 hk, Res.bind_ok, hbs, Res.bind_ok]⟩

theorem jencFields_ok {a : Bool} {fs : List Field} {vs : List Val} (hl : fs.length = vs.length)
    (hk : ∀ p ∈ fs.zip vs, p.1.visible = true → Known Γ c p.1.ty.deref)
    (h : ∀ p ∈ fs.zip vs, shown Γ p = true → ∃ b, rec a p.1.ty p.2 p.1.opts = .ok b) :
    ∃ bs, jencFields Γ c rec a fs vs = .ok bs := by
  induction fs generalizing vs with
  | nil =>
    cases vs with
    | nil => exact ⟨_, rfl⟩
    | cons => cases hl
  | cons f fs ih =>
    cases vs with
    | nil => cases hl
    | cons v vs =>
      simp only [List.zip_cons_cons, List.mem_cons, forall_eq_or_imp, List.length_cons, Nat.add_right_cancel_iff] at hl hk h
      obtain ⟨bs, hbs⟩ := ih hl hk.2 h.2
      rw [jencFields]
      split
      · rename_i hv
        rw [known_iff.1 (hk.1 hv), Res.bind_ok]
        split
        · exact ⟨_, hbs⟩
        · rename_i ho
          have hs : shown Γ (f, v) = true := by
            have ho : (f.opts.omitEmpty && Γ.jsonEmpty f.ty v) = false := by simpa only [Bool.not_eq_true] using ho
            simp only [shown, hv, leftOut_eq, Bool.true_and, ho, Bool.not_false]
          obtain ⟨b, hb⟩ := h.1 hs
          exact ⟨_, by rw [hb, Res.bind_ok, hbs, Res.bind_ok]⟩
      · exact ⟨_, hbs⟩

theorem jencEntries_ok {e : Ty} {fo : FOpts} {kvs : List (Bytes × Val)}
    (hk : ∀ p ∈ kvs, pointee e p.2 ≠ none → Known Γ c e.deref) (h : ∀ p ∈ kvs, ∃ b, rec false e p.2 fo = .ok b) :
    ∃ bs, jencEntries Γ c rec e fo kvs = .ok bs := by
  induction kvs with
  | nil => exact ⟨_, rfl⟩
  | cons kv kvs ih =>
    obtain ⟨k, v⟩ := kv
    simp only [List.mem_cons, forall_eq_or_imp] at hk h
    obtain ⟨bs, hbs⟩ := ih hk.2 h.2
    obtain ⟨b, hb⟩ := h.1
    have : jencEntry Γ c rec e fo v = .ok b := by
      rw [jencEntry]
      split
      · exact hb
      · rename_i hd
        rw [known_iff.1 (hk.1 (by rw [pointee_eq, hd]; simp)), Res.bind_ok, hb]
    exact ⟨_, by rw [jencEntries, this, Res.bind_ok, hbs, Res.bind_ok]⟩

theorem jencBase_shape {a : Bool} {id : TId} {v : Val} {fo : FOpts} (h : NoMarshal Γ J a id) :
    jencBase Γ c J rec a id v fo = jencShape Γ c J rec a id v fo := by
  rw [jencBase]
  rcases h with h | ⟨h1, h2⟩
  · rw [if_pos h]
  · rw [h1, h2]
    simp

end

theorem jenc_base {f : Nat} {a : Bool} {id : TId} {v : Val} {fo : FOpts} :
    jenc Γ c J (f + 1) a (.base id) v fo = jencBase Γ c J (jenc Γ c J f) a id v fo := by
  simp [jenc, derefVal, Ty.isPtr, Ty.deref]

theorem succ_base {a : Bool} {id : TId} {v : Val} {fo : FOpts} {f : Nat}
    (h : ∀ g, f ≤ g → ∃ b, jencBase Γ c J (jenc Γ c J g) a id v fo = .ok b) : Succ Γ c J a (.base id) fo v (f + 1) := by
  intro g hg
  obtain ⟨g, rfl⟩ : ∃ i, g = i + 1 := ⟨g - 1, by omega⟩
  rw [jenc_base]
  exact h g (by omega)

theorem jenc_ptr {f : Nat} {a : Bool} {t : Ty} {v : Val} {fo : FOpts} :
    jenc Γ c J f a (.ptr t) (.ptr v) fo = jenc Γ c J f true t v fo := by
  cases f with
  | zero => rfl
  | succ f =>
    rw [jenc, jenc]
    simp [derefVal, Ty.isPtr, Ty.deref]

theorem succ_of {a : Bool} {t : Ty} {v : Val} {fo : FOpts} (h : JWritable Γ c J a t fo v) : ∃ f, Succ Γ c J a t fo v f := by
  induction h with
  | @nil a t fo v hn =>
    refine ⟨1, fun g hg => ?_⟩
    obtain ⟨g, rfl⟩ : ∃ i, g = i + 1 := ⟨g - 1, by omega⟩
    have : derefVal (.ptr t) v = none := by
      cases v with
      | ptr w => exact absurd rfl (hn w)
      | _ => rfl
    exact ⟨_, by rw [jenc, this]⟩
  | ptr _ ih =>
    obtain ⟨f, hf⟩ := ih
    exact ⟨f, fun g hg => by rw [jenc_ptr]; exact hf g hg⟩
  | method ht hm hv => exact ⟨1, succ_base fun g _ => ⟨_, by rw [jencBase, if_neg ht, hm]; exact hv⟩⟩
  | amino ht hm hM hv hk _ ih =>
    obtain ⟨f, hf⟩ := ih
    refine ⟨f + 1, succ_base fun g hg => ?_⟩
    obtain ⟨b, hb⟩ := hf g hg
    exact ⟨b, by rw [jencBase, if_neg ht, hm]; simp only; rw [hM]; simp only; rw [hv, Res.bind_ok, known_iff.1 hk, Res.bind_ok, hb]⟩
  | null hn hs =>
    refine ⟨1, succ_base fun g _ => ?_⟩
    rw [jencBase_shape hn]
    unfold jencShape
    rcases hs with hs | ⟨e, hs⟩ | ⟨e, hs⟩ <;> rw [hs] <;> exact ⟨_, rfl⟩
  | iface hn hs hp hi hk hc _ ih =>
    obtain ⟨f, hf⟩ := ih
    refine ⟨f + 1, succ_base fun g hg => ?_⟩
    obtain ⟨b, hb⟩ := hf g hg
    rw [jencBase_shape hn]
    unfold jencShape
    rw [hs]
    simp only
    rw [jencIface, if_neg (by
      intro h
      simp only [Bool.and_eq_true] at h
      rw [hi h.1] at h
      cases h.2), ← pointee_eq, hp]
    simp only
    rw [known_iff.1 hk, Res.bind_ok, hc]
    simp only
    rw [hb, Res.bind_ok]
    exact ⟨_, rfl⟩
  | @bytes a id e fo b hn he hb =>
    refine ⟨1, succ_base fun g _ => ?_⟩
    have : ∃ x, jencBytes Γ a e b = .ok x := by
      rw [jencBytes, if_neg]
      · exact ⟨_, rfl⟩
      · rcases hb with rfl | rfl <;> simp
    rw [jencBase_shape hn]
    unfold jencShape
    cases hs : Γ.shape id <;> rw [hs] at he <;> simp [Shape.elem?] at he <;> subst he <;> simpa using this
  | list hn hs hk _ ih =>
    obtain ⟨f, hf⟩ := common (P := fun (v : Val) f => Succ Γ c J _ _ _ v f) (fun _ _ _ => Succ.le) ih
    refine ⟨f + 1, succ_base fun g hg => ?_⟩
    rw [jencBase_shape hn]
    unfold jencShape
    rw [hs]
    exact jencList_ok hk fun v hv => hf v hv g hg
  | array hn hs hk _ ih =>
    obtain ⟨f, hf⟩ := common (P := fun (v : Val) f => Succ Γ c J _ _ _ v f) (fun _ _ _ => Succ.le) ih
    refine ⟨f + 1, succ_base fun g hg => ?_⟩
    rw [jencBase_shape hn]
    unfold jencShape
    rw [hs]
    exact jencList_ok hk fun v hv => hf v hv g hg
  | @struct a id fs fo vs hn hs hl hk _ ih =>
    obtain ⟨f, hf⟩ := common (P := fun p f => shown Γ p = true → Succ Γ c J a p.1.ty p.1.opts p.2 f)
      (fun _ _ _ h hle hs => (h hs).le hle) (l := fs.zip vs) (by
        intro p hp
        by_cases hs : shown Γ p = true
        · obtain ⟨f, hf⟩ := ih p hp hs
          exact ⟨f, fun _ => hf⟩
        · exact ⟨0, fun h => absurd h hs⟩)
    refine ⟨f + 1, succ_base fun g hg => ?_⟩
    rw [jencBase_shape hn]
    unfold jencShape
    rw [hs]
    simp only
    obtain ⟨bs, hbs⟩ := jencFields_ok hl hk fun p hp hs => hf p hp hs g hg
    exact ⟨_, by rw [hbs, Res.bind_ok]⟩
  | @map a id e fo kvs hn hs hk _ ih =>
    obtain ⟨f, hf⟩ := common (P := fun (p : Bytes × Val) f => Succ Γ c J false e fo p.2 f) (fun _ _ _ => Succ.le) ih
    refine ⟨f + 1, succ_base fun g hg => ?_⟩
    rw [jencBase_shape hn]
    unfold jencShape
    rw [hs]
    simp only
    obtain ⟨bs, hbs⟩ := jencEntries_ok hk fun p hp => hf p hp g hg
    exact ⟨_, by rw [hbs, Res.bind_ok]⟩
  | int hn hs =>
    refine ⟨1, succ_base fun g _ => ?_⟩
    rw [jencBase_shape hn]
    unfold jencShape
    rw [hs]
    simp only
    split <;> exact ⟨_, rfl⟩
  | f32 hn hs hf hx =>
    refine ⟨1, succ_base fun g _ => ?_⟩
    rw [jencBase_shape hn]
    unfold jencShape
    rw [hs]
    simp only
    rw [hf, hx]
    exact ⟨_, rfl⟩
  | f64 hn hs hf hx =>
    refine ⟨1, succ_base fun g _ => ?_⟩
    rw [jencBase_shape hn]
    unfold jencShape
    rw [hs]
    simp only
    rw [hf, hx]
    exact ⟨_, rfl⟩
  | bool hn hs =>
    refine ⟨1, succ_base fun g _ => ?_⟩
    rw [jencBase_shape hn]
    unfold jencShape
    rw [hs]
    exact ⟨_, rfl⟩
  | str hn hs =>
    refine ⟨1, succ_base fun g _ => ?_⟩
    rw [jencBase_shape hn]
    unfold jencShape
    rw [hs]
    exact ⟨_, rfl⟩
  | time hs hx =>
    refine ⟨1, succ_base fun g _ => ?_⟩
    rw [jencBase_shape (.inl hs)]
    unfold jencShape
    rw [hs]
    simp only
    rw [hx]
    exact ⟨_, rfl⟩

end Amino
