import Verif.StructUse
import Verif.PropsStruct
import Verif.JDemo

/-!
# C45: struct metadata in the decoders and in the JSON coders
-/

namespace Amino

section
variable {Γ : Prog} {c : Codec} {ds : List SDecl} {infos : List FInfo}

theorem DRes.map_map {α β γ : Type} (r : DRes α) (f : α → β) (g : β → γ) : (r.map f).map g = r.map (g ∘ f) := by
  cases r <;> rfl

theorem DRes.map_andSlide {α β γ : Type} (r : DRes α) (bz : Bytes) (n : Nat) (k : α → Bytes → Nat → DRes β) (g : β → γ) :
    (r.andSlide bz n k).map g = r.andSlide bz n fun a bz n => (k a bz n).map g := by
  cases r <;> simp only [DRes.andSlide] <;> (try split) <;> rfl

theorem DRes.map_infoThen {α β : Type} (id : TId) (n : Nat) (k : DRes α) (g : α → β) :
    (infoThen Γ c id n k).map g = infoThen Γ c id n (k.map g) := by
  unfold infoThen
  split <;> rfl

theorem DRes.map_slideThen {β γ : Type} (m : Nat) (bz : Bytes) (n : Nat) (k : Bytes → Nat → DRes β) (g : β → γ) :
    (slideThen m bz n k).map g = slideThen m bz n fun bz n => (k bz n).map g := by
  unfold slideThen
  split <;> rfl

/-- C45, use: decoding into a struct with the struct info of its declaration is what the model's decoder, which is given the
fields themselves, does. -/
theorem C45_decode {rec : Ty → Val → FOpts → Bool → Bytes → DRes Val} (h : parseStructInfo Γ ds = .ok infos) {ps : List Val}
    (hl : ps.length = ds.length) (bz : Bytes) (n : Nat) :
    decInfos Γ c rec infos ps 0 bz n = decFields Γ c rec (ds.map SDecl.field) ps 0 0 bz n := by
  rw [parseStructInfo_eq] at h
  split at h
  · cases h
  · simp only [Res.ok.injEq] at h
    subst h
    have key : ∀ (ds : List SDecl) (num last : Nat) (pre post : List Val) (bz : Bytes) (n : Nat), post.length = ds.length →
        decInfos Γ c rec (infosFrom Γ num pre.length ds) (pre ++ post) last bz n =
          (decFields Γ c rec (ds.map SDecl.field) post num last bz n).map (pre ++ ·) := by
      intro ds
      induction ds with
      | nil =>
        intro num last pre post bz n hl
        cases post with
        | nil =>
          simp only [infosFrom, decInfos, List.map_nil, decFields, List.append_nil, DRes.map_map]
          congr 1
          funext x
          simp
        | cons a as => simp at hl
      | cons d ds ih =>
        intro num last pre post bz n hl
        cases post with
        | nil => simp at hl
        | cons p ps =>
          have hrec := fun num last v bz n => ih num last (pre ++ [v]) ps bz n (by simpa using hl)
          simp only [List.append_assoc, List.singleton_append, List.length_append, List.length_cons, List.length_nil,
            Nat.zero_add] at hrec
          rw [List.map_cons, decFields, infosFrom]
          by_cases hv : d.field.visible = true
          · rw [if_pos hv, decInfos, hv]
            simp only [Bool.not_true, Bool.false_eq_true, if_false, List.getElem?_append_right (Nat.le_refl _), Nat.sub_self,
              List.getElem?_cons_zero]
            have hset : ∀ v, (pre ++ p :: ps).set pre.length v = pre ++ v :: ps := by
              intro v; rw [List.set_append_right _ _ (Nat.le_refl _)]; simp
            have hcomp : ∀ v, ((fun x => pre ++ x) ∘ fun vs => v :: vs) = fun x => pre ++ v :: x := fun _ => rfl
            simp only [hset, hrec, DRes.map_infoThen]
            congr 1
            split
            · rw [DRes.map_map]; rfl
            · split
              · rw [DRes.map_andSlide]
                simp only [DRes.map_map]
                rfl
              · cases decodeKey bz with
                | panic q => rfl
                | oof => rfl
                | err m e => rfl
                | ok m kt =>
                  obtain ⟨fnum, typ⟩ := kt
                  simp only
                  split
                  · rw [DRes.map_map]; rfl
                  · split
                    · rfl
                    · rw [DRes.map_slideThen]
                      congr 1
                      funext bz n
                      split
                      · rfl
                      · split
                        · rename_i ht
                          rw [if_pos (by exact ht)]; rfl
                        · rename_i ht
                          rw [if_neg (by exact ht), DRes.map_andSlide]
                          simp only [DRes.map_map]
                          rfl
          · have hv : d.field.visible = false := by simpa using hv
            rw [hv]
            simp only [Bool.false_eq_true, if_false, Bool.not_false, if_true]
            rw [hrec, DRes.map_map]
            rfl
    have := key ds 0 0 [] ps bz n hl
    rw [List.nil_append] at this
    rw [List.length_nil] at this
    rw [this]
    cases decFields Γ c rec (ds.map SDecl.field) ps 0 0 bz n <;> simp [DRes.map]

/-- The JSON encoder makes no use of the field number. -/
theorem jenc_fnum (J : JLib) (fuel : Nat) : ∀ (addr : Bool) (t : Ty) (v : Val) (fo : FOpts) (n : Nat),
    jenc Γ c J fuel addr t v { fo with fnum := n } = jenc Γ c J fuel addr t v fo := by
  induction fuel with
  | zero => intros; rfl
  | succ fuel ih =>
    intro addr t v fo n
    have hIface : ∀ u w, jencIface Γ c (jenc Γ c J fuel) u w { fo with fnum := n } = jencIface Γ c (jenc Γ c J fuel) u w fo := by
      intro u w; simp only [jencIface, ih]
    have hElems : ∀ a e vs, jencElems (jenc Γ c J fuel) a e { fo with fnum := n } vs = jencElems (jenc Γ c J fuel) a e fo vs := by
      intro a e vs; induction vs with
      | nil => rfl
      | cons w ws ihw => simp only [jencElems, ih, ihw]
    have hEntries : ∀ e kvs, jencEntries Γ c (jenc Γ c J fuel) e { fo with fnum := n } kvs =
        jencEntries Γ c (jenc Γ c J fuel) e fo kvs := by
      intro e kvs; induction kvs with
      | nil => rfl
      | cons w ws ihw => obtain ⟨k, w⟩ := w; simp only [jencEntries, jencEntry, ih, ihw]
    have hShape : ∀ a id w, jencShape Γ c J (jenc Γ c J fuel) a id w { fo with fnum := n } =
        jencShape Γ c J (jenc Γ c J fuel) a id w fo := by
      intro a id w
      simp only [jencShape, hIface, jencList, hElems, hEntries]
    simp only [jenc, jencBase, hShape, ih]

/-- C45, use: the JSON encoder with the struct info of a declaration does what the model's encoder does that is given the
fields themselves. -/
theorem C45_json_encode {J : JLib} {fuel : Nat} (h : parseStructInfo Γ ds = .ok infos) {vs : List Val}
    (hl : vs.length = ds.length) (addr : Bool) :
    jencInfos Γ c (jenc Γ c J fuel) addr vs infos = jencFields Γ c (jenc Γ c J fuel) addr (ds.map SDecl.field) vs := by
  rw [parseStructInfo_eq] at h
  split at h
  · cases h
  · simp only [Res.ok.injEq] at h
    subst h
    have key : ∀ (ds : List SDecl) (num : Nat) (pre post : List Val), post.length = ds.length →
        jencInfos Γ c (jenc Γ c J fuel) addr (pre ++ post) (infosFrom Γ num pre.length ds) =
          jencFields Γ c (jenc Γ c J fuel) addr (ds.map SDecl.field) post := by
      intro ds
      induction ds with
      | nil => intro num pre post hl; cases post with
        | nil => rfl
        | cons a as => simp at hl
      | cons d ds ih =>
        intro num pre post hl
        cases post with
        | nil => simp at hl
        | cons v vs =>
          have hrec := fun num => ih num (pre ++ [v]) vs (by simpa using hl)
          simp only [List.append_assoc, List.singleton_append, List.length_append, List.length_cons, List.length_nil,
            Nat.zero_add] at hrec
          rw [List.map_cons, jencFields, infosFrom]
          by_cases hv : d.field.visible = true
          · rw [if_pos hv, if_pos hv, jencInfos]
            simp only [List.getElem?_append_right (Nat.le_refl _), Nat.sub_self, List.getElem?_cons_zero, hrec]
            congr 1
            funext _
            rw [jenc_fnum]
            rfl
          · rw [if_neg hv, if_neg hv, hrec]
    exact key ds 0 [] vs hl

/-- C45, use: the same for the JSON decoder. -/
theorem C45_json_decode {rec : Ty → Val → FOpts → Bytes → Res Val} (h : parseStructInfo Γ ds = .ok infos) {ps : List Val}
    (hl : ps.length = ds.length) (fo : FOpts) (m : List (Bytes × Bytes)) :
    jdecInfos Γ c rec fo m infos ps = jdecFields Γ c rec fo m (ds.map SDecl.field) ps := by
  rw [parseStructInfo_eq] at h
  split at h
  · cases h
  · simp only [Res.ok.injEq] at h
    subst h
    have key : ∀ (ds : List SDecl) (num : Nat) (pre post : List Val), post.length = ds.length →
        jdecInfos Γ c rec fo m (infosFrom Γ num pre.length ds) (pre ++ post) =
          (jdecFields Γ c rec fo m (ds.map SDecl.field) post).bind fun vs => .ok (pre ++ vs) := by
      intro ds
      induction ds with
      | nil => intro num pre post hl; cases post with
        | nil => rfl
        | cons a as => simp at hl
      | cons d ds ih =>
        intro num pre post hl
        cases post with
        | nil => simp at hl
        | cons p ps =>
          have hrec := fun num v => ih num (pre ++ [v]) ps (by simpa using hl)
          simp only [List.append_assoc, List.singleton_append, List.length_append, List.length_cons, List.length_nil,
            Nat.zero_add] at hrec
          have hset : ∀ v, (pre ++ p :: ps).set pre.length v = pre ++ v :: ps := by
            intro v; rw [List.set_append_right _ _ (Nat.le_refl _)]; simp
          have hbind : ∀ (v : Val) (r : Res (List Val)),
              ((r.bind fun vs => .ok (v :: vs)).bind fun vs => Res.ok (pre ++ vs)) = r.bind fun vs => .ok (pre ++ v :: vs) := by
            intro v r; cases r <;> rfl
          rw [List.map_cons, jdecFields, infosFrom]
          by_cases hv : d.field.visible = true
          · rw [if_pos hv, if_pos hv, jdecInfos]
            simp only [List.getElem?_append_right (Nat.le_refl _), Nat.sub_self, List.getElem?_cons_zero, hset]
            have e1 : d.field.ty = d.ty := rfl
            have e2 : d.field.opts = (parseFieldOptions d).2 := rfl
            simp only [jdecField, e1, e2]
            cases getInfo Γ c d.ty.deref with
            | ok gi =>
              simp only [Res.bind]
              cases hm : m.lookup (parseFieldOptions d).2.jsonName with
              | none =>
                simp only [Option.getD_none, List.length_nil, if_true]
                split <;> simp only [hrec] <;> exact (hbind _ _).symm
              | some b =>
                simp only [Option.getD_some, List.length_eq_zero_iff]
                split
                · simp only []
                  split <;> simp only [hrec] <;> exact (hbind _ _).symm
                · simp only [hrec]
                  cases rec d.ty p fo b with
                  | ok v => exact (hbind _ _).symm
                  | _ => rfl
            | _ => rfl
          · rw [if_neg hv, if_neg hv, hbind]
            exact hrec _ p
    have := key ds 0 [] ps hl
    simp only [List.nil_append, List.length_nil] at this
    rw [this]
    cases jdecFields Γ c rec fo m (ds.map SDecl.field) ps <;> rfl

end

/-- The struct info of `Demo.decls`, whose second and third fields are not encoded. -/
def Demo.infos : List FInfo :=
  [⟨ascii "A", .base Demo.int64T, 0, false, { jsonName := ascii "A", fnum := 1 }⟩,
   ⟨ascii "D", .base Demo.int64T, 3, false,
    { jsonName := ascii "d", omitEmpty := true, fixed64 := true, fnum := 2, floatOk := true, writeEmpty := true }⟩]

example : parseStructInfo Demo.prog Demo.decls = .ok Demo.infos := by decide +kernel

example : decInfos Demo.prog Demo.codecFoo (dec Demo.prog Demo.codecFoo 5) Demo.infos
    [.int 0, .str [1], .str [2], .int 7] 0 [0x08, 0x05, 0x11, 1, 0, 0, 0, 0, 0, 0, 0] 0 =
      .ok 11 [.int 5, .str [1], .str [2], .int 1] := by decide +kernel

example : jencInfos Demo.prog Demo.codecFoo (jenc Demo.prog Demo.codecFoo JDemo.lib 5) true
    [.int 5, .str [1], .str [2], .int 7] Demo.infos = .ok [ascii "\"A\":\"5\"", ascii "\"d\":\"7\""] := by decide +kernel

example : jdecInfos Demo.prog Demo.codecFoo (jdec Demo.prog Demo.codecFoo JDemo.lib 5) {} [(ascii "A", ascii "\"5\"")]
    Demo.infos [.int 0, .str [1], .str [2], .int 7] = .ok [.int 5, .str [1], .str [2], .int 7] := by decide +kernel

end Amino
