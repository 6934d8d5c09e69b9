import Verif.TagText
import Verif.PropsStruct

/-! # Property C94: the text of struct tags -/

namespace Amino
open Spec

namespace Spec

/-- A key of a conventional tag. -/
def TagKey (k : Bytes) : Prop := k ≠ [] ∧ ∀ b ∈ k, 0x20 < b ∧ b ≠ 0x3a ∧ b ≠ 0x22 ∧ b ≠ 0x7f

/-- A value without quotes, backslashes, newlines and non-ASCII characters. -/
def TagValue (v : Bytes) : Prop := ∀ b ∈ v, b < 0x80 ∧ b ≠ 0x22 ∧ b ≠ 0x5c ∧ b ≠ 0x0a

/-- `text` is a conventional tag: the pairs written as `key:"value"`, with any number of spaces before, between and
after them. -/
inductive TagText : List (Bytes × Bytes) → Bytes → Prop
  | nil (n : Nat) : TagText [] (List.replicate n 0x20)
  | cons {k v rest : Bytes} {kvs : List (Bytes × Bytes)} (n : Nat) : TagKey k → TagValue v → TagText kvs rest →
      TagText ((k, v) :: kvs) (List.replicate n 0x20 ++ k ++ [0x3a, 0x22] ++ v ++ [0x22] ++ rest)

/-- The keys amino looks at. -/
def aminoKeys : List Bytes := [ascii "binary", ascii "amino", ascii "json"]

end Spec

variable {U : Bytes → Option Bytes}

theorem dropWhile_spaces (n : Nat) (r : Bytes) : (List.replicate n 0x20 ++ r).dropWhile (· == (0x20 : UInt8)) = r.dropWhile (· == 0x20) := by
  induction n with
  | zero => rfl
  | succ n ih => rw [List.replicate_succ, List.cons_append, List.dropWhile_cons_of_pos rfl, ih]

theorem isKeyChar_iff {b : UInt8} : isKeyChar b = true ↔ 0x20 < b ∧ b ≠ 0x3a ∧ b ≠ 0x22 ∧ b ≠ 0x7f := by
  unfold isKeyChar
  simp [and_assoc]

theorem isPlainChar_iff {b : UInt8} : isPlainChar b = true ↔ b < 0x80 ∧ b ≠ 0x22 ∧ b ≠ 0x5c ∧ b ≠ 0x0a := by
  unfold isPlainChar
  simp [and_assoc]

theorem scanQuoted_plain : ∀ {v : Bytes} (rest : Bytes), TagValue v → scanQuoted (v ++ 0x22 :: rest) = some (v, rest)
  | [], [], _ => rfl
  | [], _ :: _, _ => rfl
  | b :: v, rest, h => by
    have hb := h b (by simp)
    have ih := scanQuoted_plain (v := v) rest fun b hb => h b (List.mem_cons_of_mem _ hb)
    obtain ⟨b', w, hw⟩ : ∃ b' w, v ++ 0x22 :: rest = b' :: w := by
      cases v <;> exact ⟨_, _, rfl⟩
    rw [List.cons_append]
    rw [hw] at ih ⊢
    rw [scanQuoted, if_neg hb.2.1, if_neg hb.2.2.1, ih]
    rfl

theorem tagLookup_text {kvs : List (Bytes × Bytes)} {text : Bytes} (h : TagText kvs text) (key : Bytes) : ∀ (f : Nat),
    text.length < f → tagLookup U key f text = kvs.lookup key := by
  induction h with
  | nil n =>
    intro f hf
    cases f with
    | zero => omega
    | succ f =>
      have := dropWhile_spaces n []
      rw [List.append_nil] at this
      simp [tagLookup, this]
  | @cons k v rest kvs n hk hv _ ih =>
    intro f hf
    cases f with
    | zero => omega
    | succ f =>
      obtain ⟨hk0, hk⟩ := hk
      have hkc : ∀ b ∈ k, isKeyChar b = true := fun b hb => isKeyChar_iff.mpr (hk b hb)
      have hd : (List.replicate n 0x20 ++ k ++ [0x3a, 0x22] ++ v ++ [0x22] ++ rest).dropWhile (· == (0x20 : UInt8)) =
          k ++ 0x3a :: 0x22 :: (v ++ 0x22 :: rest) := by
        simp only [List.append_assoc]
        rw [dropWhile_spaces]
        cases k with
        | nil => exact absurd rfl hk0
        | cons b k =>
          have hb : ¬ ((b == (0x20 : UInt8)) = true) := by
            have := (hk b (by simp)).1
            intro h
            rw [beq_iff_eq] at h
            subst h
            exact absurd this (by decide)
          rw [List.cons_append, List.dropWhile_cons, if_neg hb]
          simp
      have ht : (k ++ 0x3a :: 0x22 :: (v ++ 0x22 :: rest)).takeWhile isKeyChar = k := by
        rw [List.takeWhile_append_of_pos hkc]
        simp [isKeyChar]
      have hw : (k ++ 0x3a :: 0x22 :: (v ++ 0x22 :: rest)).dropWhile isKeyChar = 0x3a :: 0x22 :: (v ++ 0x22 :: rest) := by
        rw [List.dropWhile_append_of_pos hkc]
        simp [isKeyChar]
      rw [tagLookup, hd, ht, if_neg hk0, hw]
      simp only [scanQuoted_plain rest hv]
      by_cases hkey : key = k
      · subst hkey
        have : v.all isPlainChar = true := List.all_eq_true.mpr fun b hb => isPlainChar_iff.mpr (hv b hb)
        simp [goUnquote, this]
      · have hb : (key == k) = false := by simpa using hkey
        rw [if_neg hkey, List.lookup_cons, hb]
        apply ih
        simp only [List.length_append, List.length_cons] at hf
        omega

/-- C94: in a conventional tag, a key has the value it is first given, and the empty value if it is absent. -/
theorem C94_get {kvs : List (Bytes × Bytes)} {text : Bytes} (h : TagText kvs text) (key : Bytes) :
    tagGet U text key = (kvs.lookup key).getD [] := by
  unfold tagGet
  rw [tagLookup_text h key _ (Nat.lt_succ_self _)]

/-- C94: the options of a field depend only on what the tag says about `binary`, `amino` and `json`. -/
theorem C94_options {kvs kvs' : List (Bytes × Bytes)} {text text' : Bytes} (h : TagText kvs text) (h' : TagText kvs' text')
    (hk : ∀ k ∈ aminoKeys, kvs.lookup k = kvs'.lookup k) (d : SDecl) : (d.tagged U text).field = (d.tagged U text').field := by
  have hp : parseFieldOptions (d.tagged U text) = parseFieldOptions (d.tagged U text') := by
    have hb : ∀ k ∈ aminoKeys, (d.tagged U text).tag k = (d.tagged U text').tag k := by
      intro k hm
      change tagGet U text k = tagGet U text' k
      rw [C94_get h, C94_get h', hk k hm]
    have hname : (d.tagged U text).name = (d.tagged U text').name := rfl
    unfold parseFieldOptions
    rw [hname]
    rw [hb (ascii "binary") (by simp [aminoKeys]), hb (ascii "amino") (by simp [aminoKeys]),
      hb (ascii "json") (by simp [aminoKeys])]
  unfold SDecl.field
  rw [hp]
  rfl

theorem tagKvs_perm {kvs kvs' : List (Bytes × Bytes)} (hp : kvs.Perm kvs') (hn : (kvs.map Prod.fst).Nodup) (k : Bytes) :
    kvs.lookup k = kvs'.lookup k := by
  induction hp with
  | nil => rfl
  | cons x _ ih =>
    rw [List.map_cons, List.nodup_cons] at hn
    rw [List.lookup_cons, List.lookup_cons, ih hn.2]
  | swap x y l =>
    simp only [List.map_cons, List.nodup_cons, List.mem_cons, not_or] at hn
    obtain ⟨x, xv⟩ := x
    obtain ⟨y, yv⟩ := y
    by_cases hx : k = x
    · have : (k == y) = false := by
        rw [beq_eq_false_iff_ne]
        intro hy
        exact hn.1.1 (hy.symm.trans hx)
      subst hx
      simp [List.lookup, this]
    · have : (k == x) = false := by simpa using hx
      simp [List.lookup, this]
  | trans h1 _ ih1 ih2 => rw [ih1 hn, ih2 ((h1.map Prod.fst).nodup_iff.mp hn)]

/-- C94: the order of the pairs and the spaces between them do not matter if no key occurs twice. -/
theorem C94_order {kvs kvs' : List (Bytes × Bytes)} {text text' : Bytes} (h : TagText kvs text) (h' : TagText kvs' text')
    (hp : kvs.Perm kvs') (hn : (kvs.map Prod.fst).Nodup) (d : SDecl) : (d.tagged U text).field = (d.tagged U text').field :=
  C94_options h h' (fun k _ => tagKvs_perm hp hn k) d

/-- C94: pairs of other packages (`yaml:"..."` and so on) do not matter. -/
theorem C94_others {kvs kvs' : List (Bytes × Bytes)} {text text' : Bytes} (h : TagText kvs text) (h' : TagText kvs' text')
    (hf : kvs.filter (fun kv => kv.1 ∈ aminoKeys) = kvs'.filter (fun kv => kv.1 ∈ aminoKeys)) (d : SDecl) :
    (d.tagged U text).field = (d.tagged U text').field := by
  refine C94_options h h' (fun k hk => ?_) d
  have key : ∀ l : List (Bytes × Bytes), (l.filter (fun kv => kv.1 ∈ aminoKeys)).lookup k = l.lookup k := by
    intro l
    induction l with
    | nil => rfl
    | cons q l ih =>
      by_cases hq : q.1 ∈ aminoKeys
      · rw [List.filter_cons_of_pos (by simpa using hq), List.lookup_cons, List.lookup_cons, ih]
      · rw [List.filter_cons_of_neg (by simpa using hq), ih, List.lookup_cons]
        have : (k == q.1) = false := by
          rw [beq_eq_false_iff_ne]
          intro h
          exact hq (h ▸ hk)
        simp [this]
  rw [← key kvs, ← key kvs', hf]

/-- C94: a field whose conventional tag says `json:"-"` is left out. -/
theorem C94_skip {kvs : List (Bytes × Bytes)} {text : Bytes} (h : TagText kvs text)
    (hj : kvs.lookup (ascii "json") = some (ascii "-")) (d : SDecl) : (d.tagged U text).field.visible = false := by
  have : tagGet U text (ascii "json") = ascii "-" := by rw [C94_get h, hj]; rfl
  unfold SDecl.field parseFieldOptions SDecl.tagged
  simp [this]

/-- C94: and the encoding of the struct does not show what it holds. -/
theorem C94_secret {kvs : List (Bytes × Bytes)} {text : Bytes} (h : TagText kvs text)
    (hj : kvs.lookup (ascii "json") = some (ascii "-")) {Γ : Prog} {c : Codec} {rec : TId → Val → FOpts → Bool → Res Bytes}
    (d : SDecl) (fs : List Field) (v : Val) (vs : List Val) (n : Nat) :
    encFields Γ c rec n ((d.tagged U text).field :: fs) (v :: vs) = encFields Γ c rec n fs vs := by
  rw [encFields]
  simp [C94_skip h hj d]

namespace Demo
/-- A field `N int64`. -/
def tagDecl : SDecl := { name := ascii "N", ty := .base int64T }

/-- `json:"-" yaml:"n"` -/
def tagPairs : List (Bytes × Bytes) := [(ascii "json", ascii "-"), (ascii "yaml", ascii "n")]

theorem tagPairs_text : TagText tagPairs (ascii "json:\"-\" yaml:\"n\"") :=
  .cons 0 ⟨by decide, by decide⟩ (by unfold TagValue; decide) (.cons 1 ⟨by decide, by decide⟩ (by unfold TagValue; decide) (.nil 0))

theorem tagPairs_text' : TagText tagPairs.reverse (ascii " yaml:\"n\"json:\"-\"  ") :=
  .cons 1 ⟨by decide, by decide⟩ (by unfold TagValue; decide) (.cons 0 ⟨by decide, by decide⟩ (by unfold TagValue; decide) (.nil 2))

example : (tagDecl.tagged (fun _ => none) (ascii "json:\"-\" yaml:\"n\"")).field.visible = false :=
  C94_skip tagPairs_text rfl tagDecl

example : (tagDecl.tagged (fun _ => none) (ascii "json:\"-\" yaml:\"n\"")).field =
    (tagDecl.tagged (fun _ => none) (ascii " yaml:\"n\"json:\"-\"  ")).field :=
  C94_order tagPairs_text tagPairs_text' (by decide) (by decide) tagDecl

end Demo

/-- C94: not so for other texts. With a comma between the pairs, `json:"-"` is not seen, and the field is encoded. -/
theorem C94_comma :
    (Demo.tagDecl.tagged (fun _ => none) (ascii "amino:\"unsafe\",json:\"-\"")).field.visible = true := by
  decide +kernel

/-- C94: not so for other texts. With a space after the colon, none of the options is seen. -/
theorem C94_space :
    (Demo.tagDecl.tagged (fun _ => none) (ascii "json: \"-\" binary:\"fixed64\"")).field = Demo.tagDecl.field := by
  decide +kernel

end Amino
