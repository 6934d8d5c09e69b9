import Verif.SpecCopy
import Verif.Demo

/-!
# C51, C52, C59: DeepCopy
-/

namespace Amino
open Spec

variable {Γ : DProg}

theorem allSome_map {α β : Type} {f g : α → Option β} {l : List α} (h : ∀ a ∈ l, ∀ b, f a = some b → g a = some b)
    {r : List β} (hr : allSome (l.map f) = some r) : allSome (l.map g) = some r := by
  induction l generalizing r with
  | nil => exact hr
  | cons a l ih =>
    rw [List.map_cons] at hr ⊢
    cases hf : f a with
    | none => rw [hf] at hr; cases hr
    | some b =>
      rw [hf, allSome] at hr
      rw [h a (by simp) b hf, allSome]
      cases hl : allSome (l.map f) with
      | none => rw [hl] at hr; cases hr
      | some r' =>
        rw [hl] at hr
        rw [ih (fun a ha => h a (by simp [ha])) hl]
        exact hr

theorem get_ext {h h' : Heap} (he : h <+: h') {a : Addr} {c : Cell} (hc : h[a]? = some c) : h'[a]? = some c := by
  obtain ⟨t, rfl⟩ := he
  rw [List.getElem?_append_left]
  · exact hc
  · exact (List.getElem?_eq_some_iff.mp hc).1

theorem map_some {α β : Type} {f : α → β} {o : Option α} {b : β} (h : o.map f = some b) : ∃ a, o = some a ∧ f a = b := by
  cases o with
  | none => cases h
  | some a => exact ⟨a, rfl, by simpa using h⟩

/-- More memory changes no content. -/
theorem tree_ext {h h' : Heap} (he : h <+: h') (n : Nat) (v : HVal) (tr : Tree) (ht : tree h n v = some tr) :
    tree h' n v = some tr := by
  induction n generalizing v tr with
  | zero => cases ht
  | succ n ih =>
    cases v with
    | prim p => exact ht
    | nil => exact ht
    | ptr a =>
      simp only [tree] at ht ⊢
      cases hc : h[a]? with
      | none => simp [hc] at ht
      | some c =>
        rw [hc] at ht
        rw [get_ext he hc]
        cases c with
        | var w =>
          simp only at ht ⊢
          obtain ⟨t, h1, h2⟩ := map_some ht
          rw [ih w t h1]; exact congrArg some h2
        | _ => cases ht
    | slice a off len =>
      simp only [tree] at ht ⊢
      cases hc : h[a]? with
      | none => simp [hc] at ht
      | some c =>
        rw [hc] at ht
        rw [get_ext he hc]
        cases c with
        | array ws =>
          simp only at ht ⊢
          split at ht
          · rename_i hl
            rw [if_pos hl]
            obtain ⟨t, h1, h2⟩ := map_some ht
            rw [allSome_map (fun a _ b => ih a b) h1]; exact congrArg some h2
          · cases ht
        | _ => cases ht
    | map a =>
      simp only [tree] at ht ⊢
      cases hc : h[a]? with
      | none => simp [hc] at ht
      | some c =>
        rw [hc] at ht
        rw [get_ext he hc]
        cases c with
        | map kvs =>
          simp only at ht ⊢
          obtain ⟨t, h1, h2⟩ := map_some ht
          rw [allSome_map ?_ h1]
          · exact congrArg some h2
          · intro kv _ b hb
            obtain ⟨t', h3, h4⟩ := map_some hb
            rw [ih _ _ h3]; exact congrArg some h4
        | _ => cases ht
    | arr vs =>
      simp only [tree] at ht ⊢
      obtain ⟨t, h1, h2⟩ := map_some ht
      rw [allSome_map (fun a _ b => ih a b) h1]; exact congrArg some h2
    | struct vs =>
      simp only [tree] at ht ⊢
      obtain ⟨t, h1, h2⟩ := map_some ht
      rw [allSome_map (fun a _ b => ih a b) h1]; exact congrArg some h2
    | iface ty w =>
      simp only [tree] at ht ⊢
      obtain ⟨t, h1, h2⟩ := map_some ht
      rw [ih _ _ h1]; exact congrArg some h2

theorem copyable_ext {h h' : Heap} (he : h <+: h') (n : Nat) (top : Bool) (t : Ty) (v : HVal)
    (hc : Copyable Γ h n top t v) : Copyable Γ h' n top t v := by
  induction n generalizing top t v with
  | zero => exact hc
  | succ n ih =>
    unfold Copyable at hc ⊢
    refine ⟨hc.1, ?_⟩
    have h2 := hc.2
    clear hc
    cases t with
    | ptr t' =>
      cases v with
      | ptr a =>
        obtain ⟨w, h3, h4⟩ := h2
        exact ⟨w, get_ext he h3, ih _ _ _ h4⟩
      | _ => exact h2
    | base id =>
      cases hs : Γ.shape id <;> simp only [hs] at h2 ⊢ <;> cases v <;> simp only at h2 ⊢
      all_goals first
        | exact h2
        | exact ih _ _ _ h2
        | exact ⟨h2.1, h2.2.1, fun p hp => ih _ _ _ (h2.2.2 p hp)⟩
        | (split at h2
           · rename_i hb; rw [if_pos hb]; exact h2
           · rename_i hb; rw [if_neg hb]; exact fun v hv => ih _ _ _ (h2 v hv))
        | exact Or.imp_right (fun ⟨ws, h3, h4⟩ => ⟨ws, get_ext he h3, fun v hv => ih _ _ _ (h4 v hv)⟩) h2
        | exact h2.imp fun kvs h3 => get_ext he h3

/-- What is to be shown of a copy. -/
def Copied (h : Heap) (v : HVal) (r : Res (HVal × Heap)) : Prop :=
  ∀ m tr, tree h m v = some tr → ∃ v' h', r = .ok (v', h') ∧ h <+: h' ∧ tree h' m v' = some tr

theorem copyElems_ok {rec : Bool → Bool → Ty → HVal → Heap → Res (HVal × Heap)} {addr : Bool} {e : Ty} {n : Nat}
    (hrec : ∀ v h, Copyable Γ h n true e v → Copied h v (rec true addr e v h))
    (vs : List HVal) : ∀ (h : Heap), (∀ v ∈ vs, Copyable Γ h n true e v) → ∀ m trs,
      allSome (vs.map (tree h m)) = some trs →
      ∃ vs' h', copyElems rec addr e vs h = .ok (vs', h') ∧ h <+: h' ∧ allSome (vs'.map (tree h' m)) = some trs := by
  induction vs with
  | nil => intro h _ m trs ht; exact ⟨[], h, rfl, List.prefix_refl _, ht⟩
  | cons v vs ih =>
    intro h hc m trs ht
    rw [List.map_cons] at ht
    cases htv : tree h m v with
    | none => rw [htv] at ht; cases ht
    | some tr =>
      rw [htv, allSome] at ht
      obtain ⟨trs', ht', rfl⟩ := map_some ht
      obtain ⟨v', h1, e1, p1, t1⟩ := hrec v h (hc v (by simp)) m tr htv
      obtain ⟨vs', h2, e2, p2, t2⟩ := ih h1 (fun w hw => copyable_ext p1 _ _ _ _ (hc w (by simp [hw]))) m trs'
        (allSome_map (fun a _ b => tree_ext p1 m a b) ht')
      refine ⟨v' :: vs', h2, ?_, p1.trans p2, ?_⟩
      · rw [copyElems, e1]; simp only [Res.bind]; rw [e2]
      · rw [List.map_cons, tree_ext p2 m v' tr t1, allSome, t2]; rfl

theorem copyFields_ok {rec : Bool → Bool → Ty → HVal → Heap → Res (HVal × Heap)} {addr : Bool} {n : Nat} {id : TId}
    (hrec : ∀ e v h, Copyable Γ h n true e v → Copied h v (rec true addr e v h))
    (fs : List Field) : ∀ (vs : List HVal) (i : Nat) (h : Heap), vs.length = fs.length →
      (∀ j < fs.length, Γ.exported id (i + j) = true) → (∀ p ∈ fs.zip vs, Copyable Γ h n true p.1.ty p.2) → ∀ m trs,
      allSome (vs.map (tree h m)) = some trs →
      ∃ vs' h', copyFields Γ rec addr id i fs vs h = .ok (vs', h') ∧ h <+: h' ∧
        allSome (vs'.map (tree h' m)) = some trs := by
  induction fs with
  | nil =>
    intro vs i h hl _ _ m trs ht
    cases vs with
    | nil => exact ⟨[], h, rfl, List.prefix_refl _, ht⟩
    | cons a as => simp at hl
  | cons f fs ih =>
    intro vs i h hl hx hc m trs ht
    cases vs with
    | nil => simp at hl
    | cons v vs =>
    rw [List.map_cons] at ht
    cases htv : tree h m v with
    | none => rw [htv] at ht; cases ht
    | some tr =>
      rw [htv, allSome] at ht
      obtain ⟨trs', ht', rfl⟩ := map_some ht
      obtain ⟨v', h1, e1, p1, t1⟩ := hrec f.ty v h (hc (f, v) (by simp)) m tr htv
      obtain ⟨vs', h2, e2, p2, t2⟩ := ih vs (i + 1) h1 (by simpa using hl)
        (fun j hj => by have := hx (j + 1) (by simp; omega); rwa [show i + 1 + j = i + (j + 1) by omega])
        (fun p hp => copyable_ext p1 _ _ _ _ (hc p (by simp [hp]))) m trs'
        (allSome_map (fun a _ b => tree_ext p1 m a b) ht')
      refine ⟨v' :: vs', h2, ?_, p1.trans p2, ?_⟩
      · have hx0 : Γ.exported id i = true := hx 0 (by simp)
        rw [copyFields, hx0]
        simp only [Bool.not_true, Bool.false_eq_true, if_false]
        rw [e1]; simp only [Res.bind]; rw [e2]
      · rw [List.map_cons, tree_ext p2 m v' tr t1, allSome, t2]; rfl

theorem get_snoc (h : Heap) (c : Cell) : (h ++ [c])[h.length]? = some c := by
  rw [List.getElem?_append_right (Nat.le_refl _), Nat.sub_self]; rfl

theorem bulk_eq (e : Ty) : Γ.bulk e = plainElem Γ e := by
  unfold Prog.bulk plainElem
  cases e with
  | ptr e => rfl
  | base id => cases h : Γ.shape id <;> simp [Ty.isPtr, Ty.deref, h]

theorem copyVal_ok (n : Nat) : ∀ (top addr : Bool) (t : Ty) (v : HVal) (h : Heap), Copyable Γ h n top t v →
    Copied h v (copyVal Γ n top addr t v h) := by
  induction n with
  | zero => intro top addr t v h hc; cases hc
  | succ n ih =>
    intro top addr t v h hc m tr ht
    have hk : (top = true → v ≠ .nil) → ∃ v' h', copyKind Γ (copyVal Γ n) addr t v h = .ok (v', h') ∧ h <+: h' ∧
        tree h' m v' = some tr := by
      intro hnil
      unfold Copyable at hc
      have h2 := hc.2
      clear hc
      cases m with
      | zero => cases ht
      | succ m =>
      unfold copyKind
      simp only [bulk_eq]
      cases t with
      | ptr t' =>
        cases v with
        | ptr a =>
          obtain ⟨w, h3, h4⟩ := h2
          simp only [tree, h3] at ht
          obtain ⟨tw, htw, rfl⟩ := map_some ht
          obtain ⟨w', h', e, p, t1⟩ := ih false true t' w h h4 m tw htw
          simp only [h3, e, Res.bind]
          refine ⟨_, _, rfl, p.trans (List.prefix_append _ _), ?_⟩
          simp only [tree, get_snoc]
          rw [tree_ext (List.prefix_append _ _) m w' tw t1]; rfl
        | nil => exact absurd rfl (hnil h2)
        | _ => cases h2
      | base id =>
        cases hs : Γ.shape id <;> simp only [hs] at h2 ⊢ <;> cases v <;> simp only at h2 ⊢
        case iface.nil => exact absurd rfl (hnil h2)
        case map.nil => exact absurd rfl (hnil h2)
        case iface.iface ct cv =>
          simp only [tree] at ht
          obtain ⟨tw, htw, rfl⟩ := map_some ht
          obtain ⟨w', h', e, p, t1⟩ := ih true false ct cv h h2 m tw htw
          rw [e]
          refine ⟨_, _, rfl, p, ?_⟩
          simp only [tree, t1]; rfl
        case array.arr k e vs =>
          split
          · exact ⟨_, _, rfl, List.prefix_refl _, ht⟩
          · rename_i hb
            simp only [tree] at ht
            obtain ⟨tw, htw, rfl⟩ := map_some ht
            obtain ⟨vs', h', e1, p, t1⟩ := copyElems_ok (fun v h hv => ih true addr e v h hv) vs h
              (by rwa [if_neg hb] at h2) m tw htw
            rw [e1]
            refine ⟨_, _, rfl, p, ?_⟩
            simp only [tree, t1]; rfl
        case slice.nil => exact ⟨_, _, rfl, List.prefix_refl _, ht⟩
        case slice.slice e a off len =>
          split
          · exact ⟨_, _, rfl, List.prefix_refl _, ht⟩
          · rename_i hb
            obtain ⟨ws, h3, h4⟩ := h2.resolve_left hb
            have ht0 := ht
            simp only [tree, h3] at ht
            split at ht
            · obtain ⟨tw, htw, rfl⟩ := map_some ht
              obtain ⟨vs', h', e1, p, t1⟩ := copyElems_ok (fun v h hv => ih true true e v h hv) _ h h4 m tw htw
              simp only [h3, e1, Res.bind]
              exact ⟨_, _, rfl, p.trans (List.prefix_append _ _),
                tree_ext (p.trans (List.prefix_append _ _)) _ _ _ ht0⟩
            · cases ht
        case struct.struct fs vs =>
          simp only [tree] at ht
          obtain ⟨tw, htw, rfl⟩ := map_some ht
          obtain ⟨vs', h', e1, p, t1⟩ := copyFields_ok (fun e v h hv => ih true addr e v h hv) fs vs 0 h h2.1
            (fun j hj => by rw [Nat.zero_add]; exact h2.2.1 j hj) h2.2.2 m tw htw
          rw [e1]
          refine ⟨_, _, rfl, p, ?_⟩
          simp only [tree, t1]; rfl
        case map.map e a =>
          obtain ⟨kvs, h3⟩ := h2
          simp only [tree, h3] at ht
          obtain ⟨tw, htw, rfl⟩ := map_some ht
          simp only [h3]
          refine ⟨_, _, rfl, List.prefix_append _ _, ?_⟩
          simp only [tree, get_snoc]
          rw [allSome_map ?_ htw]
          · rfl
          · intro kv _ b hb
            obtain ⟨t', h5, h6⟩ := map_some hb
            rw [tree_ext (List.prefix_append _ _) _ _ _ h5]; exact congrArg some h6
        all_goals first
          | exact absurd h2 (fun h => h)
          | exact ⟨_, _, rfl, List.prefix_refl _, ht⟩
    rw [copyVal]
    cases top with
    | false => exact hk (fun h => by cases h)
    | true =>
      have hm := hc.1 rfl
      by_cases hv : v = .nil
      · subst hv; exact ⟨_, _, rfl, List.prefix_refl _, ht⟩
      · have h1 : callDeepCopy Γ t v h = none := by simp [callDeepCopy, hm.1]
        have h2 : callAminoCopy Γ addr t v h = none := by
          unfold callAminoCopy
          cases t with
          | ptr t' => simp [hm.2.1]
          | base id => cases addr <;> simp [hm.2.2]
        have h3 : v.isNil = false := by cases v <;> first | rfl | exact absurd rfl hv
        simp only [if_true, h3, Bool.false_eq_true, if_false, h1, h2]
        exact hk (fun _ => hv)

/-- C51: DeepCopy succeeds and returns a value with the same content, for values made of exported fields and types
without methods in which no pointer points to a nil pointer, nil interface or nil map; and the original keeps its
content.  Missing for the full statement: such pointers, see `C51_map_refuted` and `C51_pointer_refuted`. -/
theorem C51_equal_partial {n : Nat} {t : Ty} {v : HVal} {h : Heap} (hc : Copyable Γ h n true t v) {m : Nat} {tr : Tree}
    (ht : tree h m v = some tr) :
    ∃ v' h', deepCopyTop Γ n t v h = .ok (v', h') ∧ tree h' m v' = some tr ∧ tree h' m v = some tr := by
  obtain ⟨v', h', e, p, t1⟩ := copyVal_ok n true false t v h hc m tr ht
  exact ⟨v', h', e, t1, tree_ext p m v tr ht⟩

/-! ## C59 -/

/-- The user's methods do not change existing memory. -/
def Spec.MethodsExtend (Γ : DProg) : Prop :=
  (∀ t ot f h v w h', Γ.deepCopyM t = some (ot, f) → f h v = .ok (w, h') → h <+: h') ∧
  (∀ t f h v w h', Γ.aminoCopyM t = some f → f h v = .ok (w, h') → h <+: h')

theorem bind_ok_inv {α β : Type} {r : Res α} {f : α → Res β} {b : β} (h : r.bind f = .ok b) :
    ∃ a, r = .ok a ∧ f a = .ok b := by
  cases r with
  | ok a => exact ⟨a, rfl, h⟩
  | err e => cases h
  | panic p => cases h
  | oof => cases h

theorem copyElems_extends {rec : Bool → Bool → Ty → HVal → Heap → Res (HVal × Heap)} {addr : Bool} {e : Ty}
    (hrec : ∀ v h v' h', rec true addr e v h = .ok (v', h') → h <+: h') (vs : List HVal) :
    ∀ h vs' h', copyElems rec addr e vs h = .ok (vs', h') → h <+: h' := by
  induction vs with
  | nil => intro h vs' h' hc; cases hc; exact List.prefix_refl _
  | cons v vs ih =>
    intro h vs' h' hc
    rw [copyElems] at hc
    obtain ⟨⟨v1, h1⟩, e1, hc⟩ := bind_ok_inv hc
    obtain ⟨⟨v2, h2⟩, e2, hc⟩ := bind_ok_inv hc
    cases hc
    exact (hrec _ _ _ _ e1).trans (ih _ _ _ e2)

theorem copyFields_extends {rec : Bool → Bool → Ty → HVal → Heap → Res (HVal × Heap)} {addr : Bool} {id : TId}
    (hrec : ∀ e v h v' h', rec true addr e v h = .ok (v', h') → h <+: h') (fs : List Field) :
    ∀ i vs h vs' h', copyFields Γ rec addr id i fs vs h = .ok (vs', h') → h <+: h' := by
  induction fs with
  | nil =>
    intro i vs h vs' h' hc
    cases vs with
    | nil => cases hc; exact List.prefix_refl _
    | cons a as => cases hc
  | cons f fs ih =>
    intro i vs h vs' h' hc
    cases vs with
    | nil => cases hc
    | cons v vs =>
      rw [copyFields] at hc
      split at hc
      · obtain ⟨⟨v2, h2⟩, e2, hc⟩ := bind_ok_inv hc
        cases hc
        exact ih _ _ _ _ _ e2
      · obtain ⟨⟨v1, h1⟩, e1, hc⟩ := bind_ok_inv hc
        obtain ⟨⟨v2, h2⟩, e2, hc⟩ := bind_ok_inv hc
        cases hc
        exact (hrec _ _ _ _ _ e1).trans (ih _ _ _ _ _ e2)

theorem copyVal_extends (hm : MethodsExtend Γ) (n : Nat) : ∀ top addr t v h v' h',
    copyVal Γ n top addr t v h = .ok (v', h') → h <+: h' := by
  induction n with
  | zero => intro top addr t v h v' h' hc; cases hc
  | succ n ih =>
    intro top addr t v h v' h' hc
    have hk : copyKind Γ (copyVal Γ n) addr t v h = .ok (v', h') → h <+: h' := by
      intro hc
      unfold copyKind at hc
      cases t with
      | ptr t' =>
        cases v <;> simp only at hc <;> try cases hc
        split at hc
        · obtain ⟨⟨v1, h1⟩, e1, hc⟩ := bind_ok_inv hc
          cases hc
          exact (ih _ _ _ _ _ _ _ e1).trans (List.prefix_append _ _)
        · cases hc
      | base id =>
        cases hs : Γ.shape id <;> simp only [hs] at hc <;> cases v <;> simp only at hc <;>
          try first | (cases hc; exact List.prefix_refl _) | cases hc
        case slice.slice =>
          split at hc
          · cases hc; exact List.prefix_refl _
          · split at hc
            · obtain ⟨⟨v1, h1⟩, e1, hc⟩ := bind_ok_inv hc
              cases hc
              exact (copyElems_extends (fun v h v' h' => ih _ _ _ v h v' h') _ _ _ _ e1).trans (List.prefix_append _ _)
            · cases hc
        case array.arr =>
          split at hc
          · cases hc; exact List.prefix_refl _
          · obtain ⟨⟨v1, h1⟩, e1, hc⟩ := bind_ok_inv hc
            cases hc
            exact copyElems_extends (fun v h v' h' => ih _ _ _ v h v' h') _ _ _ _ e1
        case map.nil.refl => exact List.prefix_append _ _
        case map.map =>
          split at hc
          · cases hc; exact List.prefix_append _ _
          · cases hc
        case iface.iface =>
          obtain ⟨⟨v1, h1⟩, e1, hc⟩ := bind_ok_inv hc
          cases hc
          exact ih _ _ _ _ _ _ _ e1
        case struct.struct =>
          obtain ⟨⟨v1, h1⟩, e1, hc⟩ := bind_ok_inv hc
          cases hc
          exact copyFields_extends (fun e v h v' h' => ih _ _ e v h v' h') _ _ _ _ _ _ e1
    rw [copyVal] at hc
    split at hc
    · split at hc
      · cases hc; exact List.prefix_refl _
      · split at hc
        · rename_i r hr
          unfold callDeepCopy at hr
          split at hr
          · cases hr
          · rename_i ot f hf
            split at hr
            · cases hr
              obtain ⟨⟨v1, h1⟩, e1, hc⟩ := bind_ok_inv hc
              cases hc
              exact (hm.1 _ _ _ _ _ _ _ hf e1).trans (List.prefix_append _ _)
            · split at hr
              · cases hr; exact hm.1 _ _ _ _ _ _ _ hf hc
              · cases hr
        · split at hc
          · rename_i r hr
            unfold callAminoCopy at hr
            split at hr
            · split at hr
              · cases hr
              · rename_i f hf; cases hr; exact hm.2 _ _ _ _ _ _ hf hc
            · split at hr
              · split at hr
                · cases hr
                · cases hr; cases hc
              · cases hr
          · exact hk hc
    · exact hk hc

/-- C59: DeepCopy writes only to memory it allocated, unless a user's method writes to other memory. -/
theorem C59_original (hm : MethodsExtend Γ) {n : Nat} {t : Ty} {v v' : HVal} {h h' : Heap}
    (hc : deepCopyTop Γ n t v h = .ok (v', h')) :
    (∀ a < h.length, h'[a]? = h[a]?) ∧ ∀ m tr, tree h m v = some tr → tree h' m v = some tr := by
  have p := copyVal_extends hm n _ _ _ _ _ _ _ hc
  refine ⟨fun a ha => ?_, fun m tr => tree_ext p m v tr⟩
  rw [List.getElem?_eq_getElem ha]
  exact get_ext p (List.getElem?_eq_getElem ha)

/-! ## C52 -/

/-- The cells from `N` on refer only to cells from `N` on. -/
def Clean (N : Nat) (h : Heap) : Prop :=
  ∀ a, N ≤ a → ∀ c, h[a]? = some c → ∀ w, Holds c w → ∀ b, Refs w b → N ≤ b

theorem Clean.snoc {N : Nat} {h : Heap} (hc : Clean N h) {c : Cell} (h1 : ∀ w, Holds c w → ∀ b, Refs w b → N ≤ b) :
    Clean N (h ++ [c]) := by
  intro a ha c' hc' w hw b hb
  by_cases hl : a < h.length
  · rw [List.getElem?_append_left hl] at hc'
    exact hc a ha c' hc' w hw b hb
  · rw [List.getElem?_append_right (by omega)] at hc'
    cases hk : a - h.length with
    | zero => rw [hk] at hc'; simp at hc'; subst hc'; exact h1 w hw b hb
    | succ k => rw [hk] at hc'; simp at hc'

theorem Clean.reach {N : Nat} {h : Heap} (hc : Clean N h) {v : HVal} {a : Addr} (hr : Reach h v a) :
    (∀ b, Refs v b → N ≤ b) → N ≤ a := by
  induction hr with
  | here h1 => intro hv; exact hv _ h1
  | there h1 h2 h3 _ ih => intro hv; exact ih (fun b hb => hc _ (hv _ h1) _ h2 _ h3 b hb)

theorem detached_ext {h h' : Heap} (he : h <+: h') (n : Nat) (v : HVal) (hd : Detached h n v) : Detached h' n v := by
  induction n generalizing v with
  | zero => exact hd
  | succ n ih =>
    cases v with
    | prim p => trivial
    | nil => trivial
    | ptr a => obtain ⟨w, h1, h2⟩ := hd; exact ⟨w, get_ext he h1, ih w h2⟩
    | slice a o l => exact hd
    | map a => obtain ⟨kvs, h1, h2⟩ := hd; exact ⟨kvs, get_ext he h1, h2⟩
    | arr vs => exact fun v hv => ih v (hd v hv)
    | struct vs => exact fun v hv => ih v (hd v hv)
    | iface t w => exact ih w hd

/-- A detached value only reaches memory that exists. -/
theorem detached_reach {h h' : Heap} (he : h <+: h') {v : HVal} {a : Addr} (hr : Reach h' v a) :
    ∀ n, Detached h n v → a < h.length := by
  have hrefs : ∀ {v a}, Refs v a → ∀ n, Detached h n v → ∃ c, h[a]? = some c ∧ ∀ w, Holds c w →
      (∃ n, Detached h n w) ∨ ∀ b, ¬ Refs w b := by
    intro v a hr
    induction hr with
    | ptr =>
      intro n hd
      cases n with
      | zero => cases hd
      | succ n => obtain ⟨w, h1, h2⟩ := hd; exact ⟨_, h1, fun w' hw' => .inl ⟨n, by cases hw'; exact h2⟩⟩
    | slice => intro n hd; cases n <;> cases hd
    | map =>
      intro n hd
      cases n with
      | zero => cases hd
      | succ n => obtain ⟨kvs, h1, h2⟩ := hd; exact ⟨_, h1, fun w' ⟨k, hw'⟩ => .inr (h2 k w' hw')⟩
    | arr hm _ ih =>
      intro n hd
      cases n with
      | zero => cases hd
      | succ n => exact ih n (hd _ hm)
    | struct hm _ ih =>
      intro n hd
      cases n with
      | zero => cases hd
      | succ n => exact ih n (hd _ hm)
    | iface _ ih =>
      intro n hd
      cases n with
      | zero => cases hd
      | succ n => exact ih n hd
  induction hr with
  | here h1 =>
    intro n hd
    obtain ⟨c, h2, _⟩ := hrefs h1 n hd
    exact (List.getElem?_eq_some_iff.mp h2).1
  | there h1 h2 h3 h4 ih =>
    intro n hd
    obtain ⟨c', h5, h6⟩ := hrefs h1 n hd
    rw [get_ext he h5] at h2
    cases h2
    rcases h6 _ h3 with ⟨n', hd'⟩ | hno
    · exact ih n' hd'
    · cases h4 with
      | here h7 => exact absurd h7 (hno _)
      | there h7 => exact absurd h7 (hno _)

/-- What is to be shown of a copy for C52. -/
def FreshCopy (N : Nat) (r : Res (HVal × Heap)) : Prop :=
  ∀ v' h', r = .ok (v', h') → Clean N h' ∧ ∀ b, Refs v' b → N ≤ b

theorem copyElems_fresh {rec : Bool → Bool → Ty → HVal → Heap → Res (HVal × Heap)} {addr : Bool} {e : Ty} {n m N : Nat}
    (hrec : ∀ v h, Copyable Γ h n true e v → Detached h m v → Clean N h → N ≤ h.length →
      FreshCopy N (rec true addr e v h))
    (hext : ∀ v h v' h', rec true addr e v h = .ok (v', h') → h <+: h')
    (vs : List HVal) : ∀ (h : Heap), (∀ v ∈ vs, Copyable Γ h n true e v) → (∀ v ∈ vs, Detached h m v) → Clean N h →
      N ≤ h.length → ∀ vs' h', copyElems rec addr e vs h = .ok (vs', h') →
      Clean N h' ∧ ∀ v ∈ vs', ∀ b, Refs v b → N ≤ b := by
  induction vs with
  | nil => intro h _ _ hcl _ vs' h' hc; cases hc; exact ⟨hcl, by simp⟩
  | cons v vs ih =>
    intro h hcp hd hcl hN vs' h' hc
    rw [copyElems] at hc
    obtain ⟨⟨v1, h1⟩, e1, hc⟩ := bind_ok_inv hc
    obtain ⟨⟨v2, h2⟩, e2, hc⟩ := bind_ok_inv hc
    cases hc
    have p1 := hext _ _ _ _ e1
    obtain ⟨c1, r1⟩ := hrec v h (hcp v (by simp)) (hd v (by simp)) hcl hN _ _ e1
    obtain ⟨c2, r2⟩ := ih h1 (fun w hw => copyable_ext p1 _ _ _ _ (hcp w (by simp [hw])))
      (fun w hw => detached_ext p1 _ _ (hd w (by simp [hw]))) c1 (Nat.le_trans hN p1.length_le) _ _ e2
    refine ⟨c2, fun w hw => ?_⟩
    rcases List.mem_cons.mp hw with rfl | hw
    · exact r1
    · exact r2 w hw

theorem copyFields_fresh {rec : Bool → Bool → Ty → HVal → Heap → Res (HVal × Heap)} {addr : Bool} {n m N : Nat} {id : TId}
    (hrec : ∀ e v h, Copyable Γ h n true e v → Detached h m v → Clean N h → N ≤ h.length →
      FreshCopy N (rec true addr e v h))
    (hext : ∀ e v h v' h', rec true addr e v h = .ok (v', h') → h <+: h')
    (fs : List Field) : ∀ (vs : List HVal) (i : Nat) (h : Heap), (∀ j < fs.length, Γ.exported id (i + j) = true) →
      (∀ p ∈ fs.zip vs, Copyable Γ h n true p.1.ty p.2) → (∀ v ∈ vs, Detached h m v) → Clean N h →
      N ≤ h.length → ∀ vs' h', copyFields Γ rec addr id i fs vs h = .ok (vs', h') →
      Clean N h' ∧ ∀ v ∈ vs', ∀ b, Refs v b → N ≤ b := by
  induction fs with
  | nil =>
    intro vs i h _ _ _ hcl _ vs' h' hc
    cases vs with
    | nil => cases hc; exact ⟨hcl, by simp⟩
    | cons a as => cases hc
  | cons f fs ih =>
    intro vs i h hx hcp hd hcl hN vs' h' hc
    cases vs with
    | nil => cases hc
    | cons v vs =>
    have hx0 : Γ.exported id i = true := hx 0 (by simp)
    rw [copyFields, hx0] at hc
    simp only [Bool.not_true, Bool.false_eq_true, if_false] at hc
    obtain ⟨⟨v1, h1⟩, e1, hc⟩ := bind_ok_inv hc
    obtain ⟨⟨v2, h2⟩, e2, hc⟩ := bind_ok_inv hc
    cases hc
    have p1 := hext _ _ _ _ _ e1
    obtain ⟨c1, r1⟩ := hrec f.ty v h (hcp (f, v) (by simp)) (hd v (by simp)) hcl hN _ _ e1
    obtain ⟨c2, r2⟩ := ih vs (i + 1) h1
      (fun j hj => by have := hx (j + 1) (by simp; omega); rwa [show i + 1 + j = i + (j + 1) by omega])
      (fun p hp => copyable_ext p1 _ _ _ _ (hcp p (by simp [hp])))
      (fun w hw => detached_ext p1 _ _ (hd w (by simp [hw]))) c1 (Nat.le_trans hN p1.length_le) _ _ e2
    refine ⟨c2, fun w hw => ?_⟩
    rcases List.mem_cons.mp hw with rfl | hw
    · exact r1
    · exact r2 w hw

theorem copyVal_fresh (hm : MethodsExtend Γ) (N n : Nat) : ∀ (m : Nat) (top addr : Bool) (t : Ty) (v : HVal) (h : Heap),
    Copyable Γ h n top t v → Detached h m v → Clean N h → N ≤ h.length →
    FreshCopy N (copyVal Γ n top addr t v h) := by
  induction n with
  | zero => intro m top addr t v h hc; cases hc
  | succ n ih =>
    intro m top addr t v h hcp hd hcl hN v' h' hc
    cases m with
    | zero => cases hd
    | succ m =>
    have hext := copyVal_extends hm n
    have hk : copyKind Γ (copyVal Γ n) addr t v h = .ok (v', h') → Clean N h' ∧ ∀ b, Refs v' b → N ≤ b := by
      intro hc
      unfold Copyable at hcp
      have h2 := hcp.2
      clear hcp
      unfold copyKind at hc
      cases t with
      | ptr t' =>
        cases v <;> simp only at hc <;> try cases hc
        rename_i a
        obtain ⟨w, h3, h4⟩ := h2
        obtain ⟨w', h3', h5⟩ := hd
        rw [h3] at h3'
        cases h3'
        simp only [h3] at hc
        obtain ⟨⟨v1, h1⟩, e1, hc⟩ := bind_ok_inv hc
        cases hc
        obtain ⟨c1, r1⟩ := ih m _ _ _ _ _ h4 h5 hcl hN _ _ e1
        refine ⟨c1.snoc (fun w hw => by cases hw; exact r1), fun b hb => ?_⟩
        cases hb
        exact Nat.le_trans hN (hext _ _ _ _ _ _ _ e1).length_le
      | base id =>
        cases hs : Γ.shape id <;> simp only [hs] at hc h2 <;> cases v <;> simp only at hc h2 <;>
          try first | (cases hc; exact ⟨hcl, fun b hb => by cases hb⟩) | cases hc
        case array.arr e vs =>
          split at hc
          · rename_i hb
            rw [← bulk_eq, if_pos hb] at h2
            cases hc
            refine ⟨hcl, fun b hb => ?_⟩
            cases hb with
            | arr h3 h4 => obtain ⟨p, rfl⟩ := h2 _ h3; cases h4
          · rename_i hb
            rw [← bulk_eq, if_neg hb] at h2
            obtain ⟨⟨v1, h1⟩, e1, hc⟩ := bind_ok_inv hc
            cases hc
            obtain ⟨c1, r1⟩ := copyElems_fresh (fun v h => ih m _ _ _ v h) (fun v h v' h' => hext _ _ _ v h v' h') _ h h2
              hd hcl hN _ _ e1
            refine ⟨c1, fun b hb => ?_⟩
            cases hb with
            | arr h3 h4 => exact r1 _ h3 _ h4
        case slice.slice => exact absurd hd (fun h => h)
        case map.nil.refl =>
          refine ⟨hcl.snoc (fun w hw => by obtain ⟨k, hk⟩ := hw; simp at hk), fun b hb => ?_⟩
          cases hb; exact hN
        case map.map a =>
          obtain ⟨kvs, h3, h4⟩ := hd
          simp only [h3] at hc
          cases hc
          refine ⟨hcl.snoc (fun w hw b hb => ?_), fun b hb => ?_⟩
          · obtain ⟨k, hk⟩ := hw; exact absurd hb (h4 k w hk b)
          · cases hb; exact hN
        case iface.iface =>
          obtain ⟨⟨v1, h1⟩, e1, hc⟩ := bind_ok_inv hc
          cases hc
          obtain ⟨c1, r1⟩ := ih m _ _ _ _ _ h2 hd hcl hN _ _ e1
          refine ⟨c1, fun b hb => ?_⟩
          cases hb with
          | iface h3 => exact r1 _ h3
        case struct.struct =>
          obtain ⟨⟨v1, h1⟩, e1, hc⟩ := bind_ok_inv hc
          cases hc
          obtain ⟨c1, r1⟩ := copyFields_fresh (fun e v h => ih m _ _ e v h) (fun e v h v' h' => hext _ _ e v h v' h') _ _ 0 h
            (fun j hj => by rw [Nat.zero_add]; exact h2.2.1 j hj) h2.2.2 hd hcl hN _ _ e1
          refine ⟨c1, fun b hb => ?_⟩
          cases hb with
          | struct h3 h4 => exact r1 _ h3 _ h4
    rw [copyVal] at hc
    cases top with
    | false => exact hk hc
    | true =>
      have hmm := hcp.1 rfl
      have h1 : callDeepCopy Γ t v h = none := by simp [callDeepCopy, hmm.1]
      have h2 : callAminoCopy Γ addr t v h = none := by
        unfold callAminoCopy
        cases t with
        | ptr t' => simp [hmm.2.1]
        | base id => cases addr <;> simp [hmm.2.2]
      rw [if_pos rfl] at hc
      split at hc
      · cases hc; exact ⟨hcl, fun b hb => by cases hb⟩
      · simp only [h1, h2] at hc; exact hk hc

/-- C52: the copy of a value without slices and without references in maps shares no memory with the original.  Missing
for the full statement: slices and references in maps, see `C52_slice_refuted` and `C52_map_refuted`. -/
theorem C52_disjoint_partial (hm : MethodsExtend Γ) {n m : Nat} {t : Ty} {v v' : HVal} {h h' : Heap}
    (hcp : Copyable Γ h n true t v) (hd : Detached h m v) (hc : deepCopyTop Γ n t v h = .ok (v', h')) {a : Addr}
    (hr : Reach h' v' a) : h[a]? = none ∧ ¬ Reach h' v a := by
  have hcl : Clean h.length h := by
    intro a ha c hc'
    rw [List.getElem?_eq_none ha] at hc'; cases hc'
  obtain ⟨c1, r1⟩ := copyVal_fresh hm h.length n m true false t v h hcp hd hcl (Nat.le_refl _) v' h' hc
  have ha : h.length ≤ a := c1.reach hr r1
  refine ⟨List.getElem?_eq_none ha, fun hr' => ?_⟩
  have := detached_reach (copyVal_extends hm n _ _ _ _ _ _ _ hc) hr' m hd
  exact Nat.not_lt.mpr ha this

/-- C52, in other words: writing anything to memory reachable from the copy leaves the content of the original as it
was before the copy. -/
theorem C52_independent_partial (hm : MethodsExtend Γ) {n m k : Nat} {t : Ty} {v v' : HVal} {h h' : Heap} {tr : Tree}
    (hcp : Copyable Γ h n true t v) (hd : Detached h m v) (hc : deepCopyTop Γ n t v h = .ok (v', h')) {a : Addr}
    (hr : Reach h' v' a) (ht : tree h k v = some tr) (c : Cell) : tree (h'.set a c) k v = some tr := by
  have ha := (C52_disjoint_partial hm hcp hd hc hr).1
  have ha : h.length ≤ a := List.getElem?_eq_none_iff.mp ha
  obtain ⟨s, hs⟩ := copyVal_extends hm n _ _ _ _ _ _ _ hc
  subst hs
  rw [List.set_append_right _ _ ha]
  exact tree_ext (List.prefix_append _ _) k v tr ht

/-! ## Concrete cases -/

/-- 0 `int64`, 1 `[]int64`, 2 `struct { S []int64 }`, 3 `map[string]*int64`, 4 `struct { N int64; P *int64; A [2]int64;
I interface{}; M map[string]*int64 }`, 5 `interface{}`, 6 `[2]int64`, 7 a struct type with MarshalAmino and UnmarshalAmino,
8 `struct { F T7 }`. -/
def Demo.dprog : DProg where
  shape := fun
    | 0 => .int .int64
    | 1 => .slice (.base 0)
    | 2 => .struct [{ ty := .base 1 }]
    | 3 => .map (.ptr (.base 0))
    | 4 => .struct [{ ty := .base 0 }, { ty := .ptr (.base 0) }, { ty := .base 6 }, { ty := .base 5 }, { ty := .base 3 }]
    | 5 => .iface
    | 6 => .array 2 (.base 0)
    | 7 => .struct []
    | 8 => .struct [{ ty := .base 7 }]
    | _ => .bool
  zero := fun _ => .nil
  marsh := fun _ => none
  unmarsh := fun _ => none
  implements := fun _ _ => false
  byteId := 0
  exported := fun _ _ => true
  zeroH := fun _ => .nil
  deepCopyM := fun _ => none
  aminoCopyM := fun t => if t = .ptr (.base 7) then some fun h _ => .ok (.ptr h.length, h ++ [.var (.struct [])]) else none

theorem Demo.dprog_extends : MethodsExtend Demo.dprog := by
  refine ⟨fun t ot f h v w h' hf => (by cases hf), fun t f h v w h' hf he => ?_⟩
  simp only [Demo.dprog] at hf
  split at hf
  · cases hf; cases he; exact List.prefix_append _ _
  · cases hf

/-- `struct { N: 5, P: &7, A: {1, 2}, I: &7, M: nil }`, the two pointers being equal. -/
def Demo.obj : HVal :=
  .struct [.prim (.int 5), .ptr 0, .arr [.prim (.int 1), .prim (.int 2)], .iface (.ptr (.base 0)) (.ptr 0), .nil]

def Demo.objHeap : Heap := [.var (.prim (.int 7))]

theorem Demo.copyable_obj : Copyable Demo.dprog Demo.objHeap 4 true (.base 4) Demo.obj := by
  have hm : ∀ t, t ≠ .base 7 → t ≠ .ptr (.base 7) → NoMethods Demo.dprog t := by
    intro t h1 h2
    refine ⟨rfl, ?_, ?_⟩
    · simp [Demo.dprog, h2]
    · simp [Demo.dprog, h1]
  refine ⟨fun _ => hm _ (by decide) (by decide), rfl, fun _ _ => rfl, ?_⟩
  intro p hp
  simp only [List.zip_cons_cons, List.zip_nil_right, List.mem_cons, List.not_mem_nil, or_false] at hp
  rcases hp with rfl | rfl | rfl | rfl | rfl
  · exact ⟨fun _ => hm _ (by decide) (by decide), trivial⟩
  · exact ⟨fun _ => hm _ (by decide) (by decide), _, rfl, fun _ => hm _ (by decide) (by decide), trivial⟩
  · refine ⟨fun _ => hm _ (by decide) (by decide), ?_⟩
    show ∀ v ∈ _, _
    intro v hv
    simp only [List.mem_cons, List.not_mem_nil, or_false] at hv
    rcases hv with rfl | rfl <;> exact ⟨_, rfl⟩
  · exact ⟨fun _ => hm _ (by decide) (by decide), fun _ => hm _ (by decide) (by decide), _, rfl,
      fun _ => hm _ (by decide) (by decide), trivial⟩
  · exact ⟨fun _ => hm _ (by decide) (by decide), rfl⟩

theorem Demo.detached_obj : Detached Demo.objHeap 4 Demo.obj := by
  intro v hv
  simp only [List.mem_cons, List.not_mem_nil, or_false] at hv
  rcases hv with rfl | rfl | rfl | rfl | rfl
  · trivial
  · exact ⟨_, rfl, trivial⟩
  · intro v hv
    simp only [List.mem_cons, List.not_mem_nil, or_false] at hv
    rcases hv with rfl | rfl <;> trivial
  · exact ⟨_, rfl, trivial⟩
  · trivial

/-- The copy duplicates the shared pointer, and its memory is new. -/
example : deepCopyTop Demo.dprog 4 (.base 4) Demo.obj Demo.objHeap = .ok
    (.struct [.prim (.int 5), .ptr 1, .arr [.prim (.int 1), .prim (.int 2)], .iface (.ptr (.base 0)) (.ptr 2), .nil],
     [.var (.prim (.int 7)), .var (.prim (.int 7)), .var (.prim (.int 7))]) := rfl

example : (tree Demo.objHeap 4 Demo.obj).isSome = true := rfl

/-- C51 does not hold: the copy of a pointer to a nil map is a pointer to an empty map. -/
theorem C51_map_refuted : ∃ v' h', deepCopyTop Demo.dprog 2 (.ptr (.base 3)) (.ptr 0) [.var .nil] = .ok (v', h') ∧
    tree [.var .nil] 2 (.ptr 0) = some (.ptr .nil) ∧ tree h' 2 v' = some (.ptr (.map [])) :=
  ⟨_, _, rfl, rfl, rfl⟩

/-- C51 does not hold: DeepCopy panics on a pointer to a nil pointer, on a pointer to a nil interface, and on a struct
behind a pointer with a field of a type with MarshalAmino and UnmarshalAmino. -/
theorem C51_pointer_refuted :
    deepCopyTop Demo.dprog 9 (.ptr (.ptr (.base 0))) (.ptr 0) [.var .nil] = .panic .unsupported ∧
    deepCopyTop Demo.dprog 9 (.ptr (.base 5)) (.ptr 0) [.var .nil] = .panic .invalidValue ∧
    deepCopyTop Demo.dprog 9 (.ptr (.base 8)) (.ptr 0) [.var (.struct [.struct []])] = .panic .notAssignable :=
  ⟨rfl, rfl, rfl⟩

/-- C52 does not hold: the copy of `struct { S: []int64{7} }` shares the elements; writing 8 to the element of the copy
changes the original. -/
theorem C52_slice_refuted : ∃ v' h',
    deepCopyTop Demo.dprog 3 (.base 2) (.struct [.slice 0 0 1]) [.array [.prim (.int 7)]] = .ok (v', h') ∧
    Reach h' v' 0 ∧ Reach h' (.struct [.slice 0 0 1]) 0 ∧
    tree h' 3 (.struct [.slice 0 0 1]) = some (.struct [.slice [.prim (.int 7)]]) ∧
    tree (h'.set 0 (.array [.prim (.int 8)])) 3 (.struct [.slice 0 0 1]) = some (.struct [.slice [.prim (.int 8)]]) :=
  ⟨_, _, rfl, .here (.struct (List.mem_singleton.mpr rfl) .slice),
    .here (.struct (List.mem_singleton.mpr rfl) .slice), rfl, rfl⟩

/-- C52 does not hold: the copy of a `map[string]*int64` shares the pointed-to integers. -/
theorem C52_map_refuted : ∃ v' h',
    deepCopyTop Demo.dprog 3 (.base 3) (.map 1) [.var (.prim (.int 7)), .map [([97], .ptr 0)]] = .ok (v', h') ∧
    Reach h' v' 0 ∧ Reach h' (.map 1) 0 ∧
    tree (h'.set 0 (.var (.prim (.int 8)))) 3 (.map 1) = some (.map [([97], .ptr (.prim (.int 8)))]) := by
  refine ⟨_, _, rfl, ?_, ?_, rfl⟩
  · exact .there .map rfl ⟨[97], List.mem_singleton.mpr rfl⟩ (.here .ptr)
  · exact .there .map rfl ⟨[97], List.mem_singleton.mpr rfl⟩ (.here .ptr)

end Amino
