import Verif.JWriteLemmas
import Verif.ReadWrite

/-!
# What UnmarshalJSON has read can be written by MarshalJSON
-/

namespace Amino
open Spec

variable {Γ : Prog} {c : Codec} {J : JLib} {S : TId → FOpts → Prop}

/-- Values of type `t` read into zero variables can be written. -/
def RecJRW (Γ : Prog) (c : Codec) (J : JLib) (S : TId → FOpts → Prop) (rec : Ty → Val → FOpts → Bytes → Res Val) : Prop :=
  ∀ t fo fo' bz v, S t.deref fo → fo'.floatOk = false → rec t (Γ.zeroTy t) fo' bz = .ok v → ∀ a, JWritable Γ c J a t fo v

theorem jzero (hR : JRewritable Γ c J S) {t : Ty} {fo : FOpts} (h : S t.deref fo) (a : Bool) :
    JWritable Γ c J a t fo (Γ.zeroTy t) := by
  cases t with
  | base id => exact hR.zero a h
  | ptr t => exact .nil (by intro w h; cases h)

section
variable {rec : Ty → Val → FOpts → Bytes → Res Val}

theorem jdecElems_rw (h : RecJRW Γ c J S rec) {e : Ty} {fo fo' : FOpts} (hS : S e.deref fo) (hf : fo'.floatOk = false)
    {bs : List Bytes} {vs : List Val} (hd : jdecElems Γ rec e fo' bs = .ok vs) : ∀ v ∈ vs, ∀ a, JWritable Γ c J a e fo v := by
  induction bs generalizing vs with
  | nil => cases hd; simp
  | cons b bs ih =>
    rw [jdecElems] at hd
    obtain ⟨v, h1, hd⟩ := Res.bind_eq_ok hd
    obtain ⟨vs', h2, hd⟩ := Res.bind_eq_ok hd
    cases hd
    intro w hw
    rcases List.mem_cons.1 hw with rfl | hw
    · exact h _ _ _ _ _ hS hf h1
    · exact ih h2 w hw

theorem jdecArr_rw (h : RecJRW Γ c J S rec) {e : Ty} {fo fo' : FOpts} (hS : S e.deref fo) (hf : fo'.floatOk = false)
    {n : Nat} {bs : List Bytes} {vs : List Val} (hd : jdecArr rec e fo' (List.replicate n (Γ.zeroTy e)) bs = .ok vs) :
    ∀ v ∈ vs, ∀ a, JWritable Γ c J a e fo v := by
  induction bs generalizing vs n with
  | nil => cases n <;> (cases hd; simp)
  | cons b bs ih =>
    cases n with
    | zero => cases hd; simp
    | succ n =>
      rw [List.replicate_succ, jdecArr] at hd
      obtain ⟨v, h1, hd⟩ := Res.bind_eq_ok hd
      obtain ⟨vs', h2, hd⟩ := Res.bind_eq_ok hd
      cases hd
      intro w hw
      rcases List.mem_cons.1 hw with rfl | hw
      · exact h _ _ _ _ _ hS hf h1
      · exact ih h2 w hw

theorem jdecFields_rw (hR : JRewritable Γ c J S) (h : RecJRW Γ c J S rec) {fo' : FOpts} (hf : fo'.floatOk = false)
    {m : List (Bytes × Bytes)} {fs : List Field} {vs : List Val} (hS : ∀ f ∈ fs, f.visible = true → S f.ty.deref f.opts)
    (hd : jdecFields Γ c rec fo' m fs (fs.map fun f => Γ.zeroTy f.ty) = .ok vs) : fs.length = vs.length ∧
    (∀ p ∈ fs.zip vs, p.1.visible = true → Known Γ c p.1.ty.deref) ∧
    ∀ p ∈ fs.zip vs, p.1.visible = true → ∀ a, JWritable Γ c J a p.1.ty p.1.opts p.2 := by
  induction fs generalizing vs with
  | nil => cases hd; simp
  | cons f fs ih =>
    rw [List.map_cons, jdecFields] at hd
    split at hd
    · rename_i hv
      obtain ⟨_, hi, hd⟩ := Res.bind_eq_ok hd
      obtain ⟨v, h1, hd⟩ := Res.bind_eq_ok hd
      obtain ⟨vs', h2, hd⟩ := Res.bind_eq_ok hd
      cases hd
      obtain ⟨g1, g2, g3⟩ := ih (fun f hf => hS f (by simp [hf])) h2
      simp only [List.zip_cons_cons, List.mem_cons, forall_eq_or_imp, List.length_cons, Nat.add_right_cancel_iff]
      refine ⟨g1, ⟨fun _ => known_iff.2 hi, g2⟩, ⟨fun _ => ?_, g3⟩⟩
      have hS' := hS f (by simp) hv
      rw [jdecField] at h1
      split at h1
      · cases h1
        simpa using jzero hR hS'
      · split at h1
        · cases h1
          simpa using jzero hR hS'
        · exact h _ _ _ _ _ hS' hf h1
    · rename_i hv
      obtain ⟨vs', h2, hd⟩ := Res.bind_eq_ok hd
      cases hd
      obtain ⟨g1, g2, g3⟩ := ih (fun f hf => hS f (by simp [hf])) h2
      simp only [List.zip_cons_cons, List.mem_cons, forall_eq_or_imp, List.length_cons, Nat.add_right_cancel_iff]
      exact ⟨g1, ⟨fun h => absurd h hv, g2⟩, ⟨fun h => absurd h hv, g3⟩⟩

theorem jdecEntries_rw (h : RecJRW Γ c J S rec) {e : Ty} {fo fo' : FOpts} (hS : S e.deref fo) (hf : fo'.floatOk = false)
    {bs : List (Bytes × Bytes)} {l : List (Bytes × Val)} (hd : jdecEntries Γ rec e fo' bs = .ok l) :
    ∀ p ∈ l, ∀ a, JWritable Γ c J a e fo p.2 := by
  induction bs generalizing l with
  | nil => cases hd; simp
  | cons b bs ih =>
    obtain ⟨k, b⟩ := b
    rw [jdecEntries] at hd
    obtain ⟨v, h1, hd⟩ := Res.bind_eq_ok hd
    obtain ⟨vs', h2, hd⟩ := Res.bind_eq_ok hd
    cases hd
    intro w hw
    rcases List.mem_cons.1 hw with rfl | hw
    · exact h _ _ _ _ _ hS hf h1
    · exact ih h2 w hw

theorem jdecInt_is {k : IntKind} {bz : Bytes} {v : Val} (h : jdecInt k bz = .ok v) : ∃ i, v = .int i := by
  rw [jdecInt] at h
  split at h
  · split at h
    · cases h
    split at h
    · cases h
    split at h
    · cases h
    obtain ⟨i, _, h⟩ := Res.bind_eq_ok h
    cases h
    exact ⟨_, rfl⟩
  · obtain ⟨i, _, h⟩ := Res.bind_eq_ok h
    cases h
    exact ⟨_, rfl⟩

theorem jdecIface_rw (hR : JRewritable Γ c J S) (h : RecJRW Γ c J S rec) {id : TId} {fo fo' : FOpts} (hS : S id fo)
    (hs : Γ.shape id = .iface) (hm : ∀ a, NoMarshal Γ J a id) (hf : fo'.floatOk = false) {bz : Bytes} {v : Val}
    (hd : jdecIface Γ c rec id fo' bz = .ok v) (a : Bool) : JWritable Γ c J a (.base id) fo v := by
  rw [jdecIface] at hd
  obtain ⟨nd, _, hd⟩ := Res.bind_eq_ok hd
  split at hd
  · cases hd
  rename_i ci hn
  split at hd
  · rename_i w hw
    split at hd
    · rename_i hi
      cases hd
      obtain ⟨g1, g2, g3, g4⟩ := hR.iface hS hs hn hi
      have hdt : ci.dynTy.deref = ci.tid := by unfold ConcInfo.dynTy; split <;> rfl
      refine .iface (hm a) hs (by rw [pointee_eq]; exact derefVal_wrapTy _ _) (fun _ => by rw [hdt]; exact g4)
        (by rw [hdt]; exact g3) (by rw [hdt]; exact g2) ?_
      rw [hdt]
      exact h (.base ci.tid) _ _ _ _ g1 hf hw _
    · cases hd
  · split at hd <;> cases hd
  · cases hd
  · cases hd

theorem jdecShape_rw (hZ : ZeroOk Γ) (hR : JRewritable Γ c J S) (h : RecJRW Γ c J S rec) {id : TId} {fo fo' : FOpts}
    (hS : S id fo) (hm : ∀ a, NoMarshal Γ J a id) (hf : fo'.floatOk = false) {bz : Bytes} {v : Val}
    (hd : jdecShape Γ c J rec id (Γ.zero id) fo' bz = .ok v) (a : Bool) : JWritable Γ c J a (.base id) fo v := by
  unfold jdecShape at hd
  split at hd
  case h_1 hs => exact jdecIface_rw hR h hS hs hm hf hd a
  case h_2 n e hs =>
    have hl := hR.list hS (e := e) (by rw [hs]; rfl)
    split at hd
    · rename_i hb
      rw [if_pos hb] at hl
      rw [jdecByteArr] at hd
      obtain ⟨b, _, hd⟩ := Res.bind_eq_ok hd
      split at hd
      · cases hd
      split at hd
      · cases hd
      cases hd
      exact .bytes (hm a) (e := e) (by rw [hs]; rfl) (.inr hl)
    · rename_i hb
      rw [if_neg hb] at hl
      obtain ⟨_, hi, hd⟩ := Res.bind_eq_ok hd
      obtain ⟨raws, _, hd⟩ := Res.bind_eq_ok hd
      split at hd
      · cases hd
      rw [hZ.array hs (by simpa using hb)] at hd
      simp only at hd
      obtain ⟨vs, hv, hd⟩ := Res.bind_eq_ok hd
      cases hd
      exact .array (hm a) hs (known_iff.2 hi) fun v hv' => jdecArr_rw h hl hf hv v hv' a
  case h_3 e hs =>
    have hl := hR.list hS (e := e) (by rw [hs]; rfl)
    split at hd
    · rename_i hb
      rw [if_pos hb] at hl
      obtain ⟨b, _, hd⟩ := Res.bind_eq_ok hd
      cases hd
      split
      · exact hR.zero a hS
      · exact .bytes (hm a) (e := e) (by rw [hs]; rfl) (.inr hl)
    · rename_i hb
      rw [if_neg hb] at hl
      obtain ⟨_, hi, hd⟩ := Res.bind_eq_ok hd
      obtain ⟨raws, _, hd⟩ := Res.bind_eq_ok hd
      split at hd
      · cases hd
        exact hR.zero a hS
      obtain ⟨vs, hv, hd⟩ := Res.bind_eq_ok hd
      cases hd
      exact .list (hm a) hs (known_iff.2 hi) fun v hv' => jdecElems_rw h hl hf hv v hv' true
  case h_4 fs hs =>
    obtain ⟨m, _, hd⟩ := Res.bind_eq_ok hd
    rw [hZ.struct hs] at hd
    simp only at hd
    obtain ⟨vs, hv, hd⟩ := Res.bind_eq_ok hd
    cases hd
    obtain ⟨g1, g2, g3⟩ := jdecFields_rw hR h hf (fun f hf hv => hR.struct hS hs hf hv) hv
    refine .struct (hm a) hs g1 g2 fun p hp hsh => g3 p hp ?_ a
    simp only [shown, Bool.and_eq_true] at hsh
    exact hsh.1
  case h_5 e hs =>
    obtain ⟨m, _, hd⟩ := Res.bind_eq_ok hd
    obtain ⟨_, hi, hd⟩ := Res.bind_eq_ok hd
    obtain ⟨l, hv, hd⟩ := Res.bind_eq_ok hd
    cases hd
    exact .map (hm a) hs (fun _ _ _ => known_iff.2 hi) fun p hp => jdecEntries_rw h (hR.map hS hs) hf hv p hp false
  case h_6 k hs =>
    obtain ⟨i, rfl⟩ := jdecInt_is hd
    exact .int (hm a) hs
  case h_7 hs => rw [hf] at hd; cases hd
  case h_8 hs => rw [hf] at hd; cases hd
  case h_9 hs =>
    obtain ⟨b, _, hd⟩ := Res.bind_eq_ok hd
    cases hd
    exact .bool (hm a) hs
  case h_10 hs =>
    obtain ⟨b, _, hd⟩ := Res.bind_eq_ok hd
    cases hd
    exact .str (hm a) hs
  case h_11 hs =>
    split at hd
    · split at hd
      · cases hd
      rename_i hz
      obtain ⟨⟨s, ns⟩, hp, hd⟩ := Res.bind_eq_ok hd
      cases hd
      obtain ⟨b', hb⟩ := hR.time (Classical.not_not.1 hz) (ofOpt_inv hp)
      exact .time hs hb
    · cases hd

theorem jdecBase_rw (hZ : ZeroOk Γ) (hR : JRewritable Γ c J S) (h : RecJRW Γ c J S rec) {id : TId} {fo fo' : FOpts}
    (hS : S id fo) (hf : fo'.floatOk = false) {bz : Bytes} {v : Val}
    (hd : jdecBase Γ c J rec id (Γ.zero id) fo' bz = .ok v) (a : Bool) : JWritable Γ c J a (.base id) fo v := by
  rw [jdecBase] at hd
  split at hd
  · rename_i ht
    exact jdecShape_rw hZ hR h hS (fun _ => .inl ht) hf hd a
  rename_i ht
  split at hd
  · rename_i um hu
    exact hR.json a hS ht hu hd
  rename_i hu
  split at hd
  · rename_i rid um hU
    obtain ⟨_, hi, hd⟩ := Res.bind_eq_ok hd
    obtain ⟨r, h1, hd⟩ := Res.bind_eq_ok hd
    obtain ⟨g1, g2⟩ := hR.amino hS ht hu hU
    exact g2 (h (.base rid) _ _ _ _ g1 hf h1) hd a
  · rename_i hU
    obtain ⟨g1, g2⟩ := hR.methods hS hu hU
    exact jdecShape_rw hZ hR h hS (fun a => .inr ⟨g1, g2 a⟩) hf hd a

end

theorem jdec_rw (hZ : ZeroOk Γ) (hR : JRewritable Γ c J S) (f : Nat) : RecJRW Γ c J S (jdec Γ c J f) := by
  induction f with
  | zero => intro t fo fo' bz v _ _ h; cases h
  | succ f ih =>
    intro t fo fo' bz v hS hf hd a
    rw [jdec] at hd
    split at hd
    · cases hd
    split at hd
    · cases hd
      exact jzero hR hS a
    obtain ⟨w, hw, hd⟩ := Res.bind_eq_ok hd
    cases hd
    rw [derefPrior_zeroTy] at hw
    exact (jwritable_some (derefVal_wrapTy t w)).1 (jdecBase_rw hZ hR ih hS hf hw _)

end Amino
