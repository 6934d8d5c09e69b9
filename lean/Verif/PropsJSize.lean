import Verif.JSizeLemmas
import Verif.JsonRT
import Verif.JDemo

/-!
# C107: how much memory decoding JSON can take
-/

namespace Amino
open Spec

/-- C107: if no struct has two encoded fields of the same JSON name, then what `UnmarshalJSON` puts into memory is at most
proportional to the length of the text, with a factor that depends on the types of the program alone: not on the text, the
registrations or the variable decoded into. -/
theorem C107_size_partial {Γ : Prog} {J : JLib} {rank : TId → Nat} {R B : Nat} (hB : JBounded Γ J rank R B) (hN : OwnNames Γ) :
    ∃ K, ∀ (c : Codec) (f : Nat) (t : Ty) (p v : Val) (bz : Bytes), depth t ≤ B →
      unmarshalJSON Γ c J f t p bz = .ok v → vsize v ≤ vsize p + K * (bz.length + 1) := by
  refine ⟨perChar R B, fun c f t p v bz ht h => ?_⟩
  have all : ∀ {b : Bytes}, b.length ≤ bz.length → jdec Γ c J f t p {} b = .ok v → vsize v ≤ vsize p + perChar R B * (bz.length + 1) := by
    intro b hl hd
    have h1 := jdec_size (c := c) (Nat.le_refl (perChar R B)) hB hN f _ _ _ _ _ ht hd
    have h2 := jexcess_mono (B := B) (hB.bound t.deref)
    have h3 : perChar R B * b.length ≤ perChar R B * bz.length := Nat.mul_le_mul_left _ hl
    have h4 : jexcess B R + 2 * B ≤ perChar R B := by unfold perChar; omega
    rw [Nat.mul_add]
    omega
  unfold unmarshalJSON at h
  split at h
  · cases h
  obtain ⟨_, _, h⟩ := Res.bind_eq_ok h
  split at h
  · obtain ⟨nd, hnd, h⟩ := Res.bind_eq_ok h
    split at h
    · cases h
    · exact all (Nat.le_of_lt (decodeInterfaceJSON_inner hnd).1) h
  · exact all (Nat.le_refl _) h

theorem JDemo.bounded : JBounded JDemo.prog JDemo.lib (fun id => if id = JDemo.centsT then 1 else 0) 1 20 where
  zero := by
    intro id
    match id with
    | 0 | 1 | 2 | 3 | 4 | 5 | 6 | 7 | 8 | 9 | 10 | 11 | 12 | 13 | 14 | 15 => decide +kernel
    | n + 16 => simp [JDemo.prog, JDemo.zero, vsize]
  fields := by
    intro id fs h
    match id with
    | 0 | 1 | 2 | 3 | 5 | 6 | 8 | 9 | 11 | 14 | 15 => simp [JDemo.prog, JDemo.shape] at h
    | 4 | 7 | 10 | 12 | 13 =>
      simp only [JDemo.prog, JDemo.shape, Shape.struct.injEq, JDemo.recFields, JDemo.flFields] at h
      subst h
      simp only [List.mem_cons, List.not_mem_nil, or_false, forall_eq_or_imp, forall_eq]
      decide
    | n + 16 => simp [JDemo.prog, JDemo.shape] at h
  elem := by
    intro id e h
    have : depth e ≤ 20 := by
      match id with
      | 0 | 1 | 2 | 4 | 6 | 7 | 8 | 9 | 10 | 12 | 13 | 15 => simp [JDemo.prog, JDemo.shape] at h
      | 3 | 5 | 11 | 14 =>
        simp [JDemo.prog, JDemo.shape] at h
        first
          | (subst h; decide)
          | (obtain ⟨_, rfl⟩ := h; decide)
      | n + 16 => simp [JDemo.prog, JDemo.shape] at h
    exact this
  user := by
    intro id rid um p r v h hu
    simp only [JDemo.prog] at h
    split at h
    · cases h
      unfold JDemo.centsIn at hu
      split at hu
      · cases hu; simp [vsize, vsizes]
      · cases hu
    · cases h
  method := by intro id um p b v h; cases h
  chain := by
    intro id rid um h
    simp only [JDemo.prog] at h
    split at h
    · rename_i e
      cases h
      subst e
      decide
    · cases h
  bound := by intro id; split <;> omega

theorem JDemo.ownNames : OwnNames JDemo.prog := by
  intro id fs h
  match id with
  | 0 | 1 | 2 | 3 | 5 | 6 | 8 | 9 | 11 | 14 | 15 => simp [JDemo.prog, JDemo.shape] at h
  | 4 | 7 | 10 | 12 | 13 =>
    simp only [JDemo.prog, JDemo.shape, Shape.struct.injEq, JDemo.recFields, JDemo.flFields] at h
    subst h
    decide +kernel
  | n + 16 => simp [JDemo.prog, JDemo.shape] at h

/-- Every decoding by the demo program, which has recursive types, interfaces, lists, maps and a type with UnmarshalAmino, obeys
one bound. -/
example : ∃ K, ∀ (c : Codec) (f : Nat) (t : Ty) (p v : Val) (bz : Bytes), depth t ≤ 20 →
    unmarshalJSON JDemo.prog c JDemo.lib f t p bz = .ok v → vsize v ≤ vsize p + K * (bz.length + 1) :=
  C107_size_partial JDemo.bounded JDemo.ownNames

/-- A decoding that succeeds: `["1","2"]` becomes a list of two numbers. -/
example : unmarshalJSON JDemo.prog JDemo.codec JDemo.lib 9 (.base 11) .nil
    [0x5b, 0x22, 0x31, 0x22, 0x2c, 0x22, 0x32, 0x22, 0x5d] = .ok (.list [.int 1, .int 2]) := by decide +kernel

/-! ## Two fields of the same name -/

namespace SameName

/-- ``type T struct { A *T `json:"x"`; B *T `json:"x"` }`` -/
def fields : List Field :=
  [{ ty := .ptr (.base 0), opts := { jsonName := [0x78] } }, { ty := .ptr (.base 0), opts := { jsonName := [0x78] } }]

def prog : Prog where
  shape id := if id = 0 then .struct fields else .int .int8
  zero id := if id = 0 then .struct [.nil, .nil] else .int 0
  marsh _ := none
  unmarsh _ := none
  implements _ _ := false
  byteId := 1

/-- `{"x":{"x":...{"x":null}...}}` -/
def text : Nat → Bytes
  | 0 => jNull
  | n + 1 => 0x7b :: (commas ([([0x78], text n)].map fun m => quoteStr m.1 ++ 0x3a :: m.2) ++ [0x7d])

/-- A binary tree. -/
def tree : Nat → Val
  | 0 => .nil
  | n + 1 => .ptr (.struct [tree n, tree n])

theorem jtext (n : Nat) : JText (text n) := by
  induction n with
  | zero => exact .null
  | succ n ih =>
    refine jtext_obj ?_
    intro m hm
    cases List.mem_singleton.mp hm
    exact ih

theorem text_length (n : Nat) : (text n).length = 6 * n + 4 := by
  induction n with
  | zero => rfl
  | succ n ih =>
    have hq : quoteStr [0x78] = [0x22, 0x78, 0x22] := by decide
    simp only [text, List.map_cons, List.map_nil, commas, hq, List.length_cons, List.length_append, ih, List.length_nil]
    omega

theorem tree_size (n : Nat) : 2 ^ n ≤ vsize (tree n) := by
  induction n with
  | zero => simp [tree, vsize]
  | succ n ih => simp only [tree, vsize, vsizes, Nat.pow_succ]; omega

theorem text_ne (n : Nat) : text (n + 1) ≠ jNull := by simp [text, jNull]

theorem rawMap (n : Nat) : unmRawMap (text (n + 1)) = some [([0x78], text n)] := by
  have := unmRawMap_obj (ms := [([0x78], text n)]) (by intro m hm; cases List.mem_singleton.mp hm; exact jtext n)
  rw [text, this]
  have hs : sanitize [0x78] = [0x78] := by decide
  simp [hs, assocOf, assocSet]

theorem info (c : Codec) : getInfo prog c 0 = .ok () := rfl

theorem reads {c : Codec} {J : JLib} (hJ : J.unmarsh 0 = none) (n : Nat) : ∀ {f : Nat}, n < f →
    jdec prog c J f (.ptr (.base 0)) .nil {} (text n) = .ok (tree n) := by
  induction n with
  | zero =>
    intro f hf
    cases f with
    | zero => omega
    | succ f => rfl
  | succ n ih =>
    intro f hf
    cases f with
    | zero => omega
    | succ f =>
      have hi : jdec prog c J f (.ptr (.base 0)) .nil {} (text n) = .ok (tree n) := ih (by omega)
      have hne : text n ≠ [] := by
        intro e
        have := text_length n
        rw [e] at this
        simp at this
      have hm : ([([0x78], text n)] : List (Bytes × Bytes)).lookup [0x78] = some (text n) := by simp [List.lookup]
      have hfl : jdecFields prog c (jdec prog c J f) {} [([0x78], text n)] fields [.nil, .nil] = .ok [tree n, tree n] := by
        have hinfo : getInfo prog c (Ty.ptr (.base 0)).deref = .ok () := rfl
        simp only [fields, jdecFields, jdecField, hm, hinfo, if_neg hne, hi, Res.bind, if_true]
      have hsh : jdecShape prog c J (jdec prog c J f) 0 (.struct [.nil, .nil]) {} (text (n + 1)) = .ok (.struct [tree n, tree n]) := by
        have : jdecShape prog c J (jdec prog c J f) 0 (.struct [.nil, .nil]) {} (text (n + 1)) =
            (ofOpt .json (unmRawMap (text (n + 1)))).bind fun m =>
              (jdecFields prog c (jdec prog c J f) {} m fields [.nil, .nil]).bind fun vs => .ok (.struct vs) := rfl
        rw [this, rawMap]
        simp only [ofOpt, Res.bind, hfl]
      have hb : jdecBase prog c J (jdec prog c J f) 0 (.struct [.nil, .nil]) {} (text (n + 1)) = .ok (.struct [tree n, tree n]) := by
        unfold jdecBase
        rw [if_neg (by decide), hJ]
        exact hsh
      unfold jdec
      rw [if_neg (by decide), if_neg (text_ne n)]
      change (jdecBase prog c J (jdec prog c J f) 0 (.struct [.nil, .nil]) {} (text (n + 1))).bind _ = _
      rw [hb]
      rfl

theorem bounded : JBounded prog JDemo.lib (fun _ => 0) 0 3 where
  zero := by intro id; simp only [prog]; split <;> simp [vsize, vsizes]
  fields := by
    intro id fs h
    simp only [prog] at h
    split at h
    · cases h; decide
    · cases h
  elem := by
    intro id e h
    simp only [prog] at h
    split at h <;> simp at h
  user := by intro id rid um p r v h; cases h
  method := by intro id um p b v h; cases h
  chain := by intro id rid um h; cases h
  bound := by intro id; exact Nat.le_refl _

theorem pow_big (K : Nat) : ∃ n, K * (6 * n + 5) < 2 ^ n := by
  have h6 : ∀ m : Nat, 6 * (m + 6) + 5 ≤ 2 ^ (m + 6) := by
    intro m
    induction m with
    | zero => decide
    | succ m ih => have : 2 ^ (m + 1 + 6) = 2 ^ (m + 6) * 2 := rfl; omega
  have h2 : ∀ m : Nat, 6 * (2 * (m + 6)) + 5 ≤ 2 * (6 * (m + 6) + 5) := by intro m; omega
  have hK : K < 2 ^ K := Nat.lt_two_pow_self
  refine ⟨2 * (K + 1 + 6), ?_⟩
  have h1 := h6 (K + 1)
  have h3 := h2 (K + 1)
  have h4 : 2 * K < 2 ^ (K + 1 + 6) := by
    have : 2 ^ (K + 1 + 6) = 2 ^ K * 128 := by rw [show K + 1 + 6 = K + 7 by omega, Nat.pow_add]
    omega
  calc K * (6 * (2 * (K + 1 + 6)) + 5) ≤ K * (2 * (6 * (K + 1 + 6) + 5)) := Nat.mul_le_mul_left _ h3
    _ = (2 * K) * (6 * (K + 1 + 6) + 5) := by rw [← Nat.mul_assoc, Nat.mul_comm K 2]
    _ ≤ (2 * K) * 2 ^ (K + 1 + 6) := Nat.mul_le_mul_left _ h1
    _ < 2 ^ (K + 1 + 6) * 2 ^ (K + 1 + 6) := Nat.mul_lt_mul_of_pos_right h4 (Nat.two_pow_pos _)
    _ = 2 ^ (2 * (K + 1 + 6)) := by rw [← Nat.pow_add]; congr 1; omega

end SameName

/-- C107 is false for structs with two fields of one JSON name, which amino lets pass: each of the fields is read from the same
text, so the value, and the time to build it, doubles with every level of nesting.  The program is as finite as the theorem above
asks for, and the text of length 6n+4 becomes a tree of more than 2ⁿ nodes. -/
theorem C107_names_refuted : JBounded SameName.prog JDemo.lib (fun _ => 0) 0 3 ∧
    (∀ n, ∃ v, unmarshalJSON SameName.prog {} JDemo.lib (n + 1) (.ptr (.base 0)) .nil (SameName.text n) = .ok v ∧
      (SameName.text n).length = 6 * n + 4 ∧ 2 ^ n ≤ vsize v) ∧
    ¬ ∃ K, ∀ (c : Codec) (f : Nat) (t : Ty) (p v : Val) (bz : Bytes), depth t ≤ 3 →
      unmarshalJSON SameName.prog c JDemo.lib f t p bz = .ok v → vsize v ≤ vsize p + K * (bz.length + 1) := by
  have key : ∀ n, unmarshalJSON SameName.prog {} JDemo.lib (n + 1) (.ptr (.base 0)) .nil (SameName.text n) = .ok (SameName.tree n) := by
    intro n
    have hne : SameName.text n ≠ [] := by
      intro e
      have := SameName.text_length n
      rw [e] at this
      simp at this
    unfold unmarshalJSON
    rw [if_neg hne]
    exact SameName.reads rfl n (Nat.lt_succ_self n)
  refine ⟨SameName.bounded, fun n => ⟨_, key n, SameName.text_length n, SameName.tree_size n⟩, ?_⟩
  rintro ⟨K, h⟩
  obtain ⟨n, hn⟩ := SameName.pow_big (K + 1)
  have h1 := h {} _ _ _ _ _ (by decide) (key n)
  have h2 := SameName.tree_size n
  rw [SameName.text_length, show 6 * n + 4 + 1 = 6 * n + 5 by omega] at h1
  simp only [vsize, Nat.add_mul, Nat.one_mul] at *
  omega

/-- `{"x":{"x":null}}`, 16 bytes. -/
example : unmarshalJSON SameName.prog {} JDemo.lib 3 (.ptr (.base 0)) .nil
    [0x7b, 0x22, 0x78, 0x22, 0x3a, 0x7b, 0x22, 0x78, 0x22, 0x3a, 0x6e, 0x75, 0x6c, 0x6c, 0x7d, 0x7d] =
    .ok (.ptr (.struct [.ptr (.struct [.nil, .nil]), .ptr (.struct [.nil, .nil])])) := by decide +kernel

end Amino
