import Verif.OutJson
import Verif.PropsMemEnc
import Verif.PropsJson
import Verif.PropsEnd

/-!
# C114: an encoding is not much bigger than the value
-/

namespace Amino
open Spec

section
variable {Γ : Prog} {c : Codec} {J : JLib} {B : Nat}

/-- C114: MarshalBinaryBare writes at most B + 60 bytes per component of the value, and a prefix. -/
theorem C114_bare_partial (hz : ∀ id, HasTy Γ (.base id) (Γ.zero id)) (hm : ReprSmall Γ B) (hc : PrefixBytes c) {fuel : Nat}
    {t : Ty} {v : Val} {b : Bytes} (h : marshalBare Γ c fuel t v = .ok b) : b.length ≤ (B + 60) * vsize v + 4 :=
  OutB.marshalBare_len hz hm hc h

/-- C114, with the length first. -/
theorem C114_lengthPrefixed_partial (hz : ∀ id, HasTy Γ (.base id) (Γ.zero id)) (hm : ReprSmall Γ B) (hc : PrefixBytes c) {fuel : Nat}
    {t : Ty} {v : Val} {b : Bytes} (h : marshalLP Γ c fuel t v = .ok b) : b.length ≤ (B + 60) * vsize v + 14 :=
  OutB.marshalLP_len hz hm hc h

/-- C114, JSON. -/
theorem C114_json_partial (hT : Γ.Typed) (hm : ReprSmall Γ B) (hs : TextSmall Γ c J B) {fuel : Nat} {t : Ty} {v : Val} {b : Bytes}
    (ht : HasTy Γ t v) (h : marshalJSON Γ c J fuel (some (t, v)) = .ok b) :
    b.length ≤ (B * B + 12 * B + 100) * vsize v + 20 :=
  OutJ.marshalJSON_len hT hm hs ht h

end

/-- C114: the prefix bytes of every codec made by registrations are as short as C114 wants. -/
theorem C114_codec {Γ : Prog} {H : Bytes → Bytes} {ops : List Op} {c : Codec} (h : ({} : Codec).run Γ H ops = some c) : PrefixBytes c := by
  intro id ci hc
  have h := run_inv h
  obtain ⟨op, _, hop⟩ := h.mem_conc.1 (h.conc_iff.1 hc).1
  obtain ⟨h1, _, h2, _⟩ := concOf_len hop
  exact ⟨h2, h1⟩

/-- C114 for values in memory: the bound is on the value with everything written out. -/
theorem C114_memory_partial {Γ : EProg} {c : Codec} {B fuel : Nat} {h : Mem} (hf : MarshFollow Γ) (hp : ZeroPlain Γ.toProg)
    (hz : ∀ id, HasTy Γ.toProg (.base id) (Γ.zero id)) (hm : ReprSmall Γ.toProg B) (hc : PrefixBytes c) {t : Ty} {w : MVal} {v : Val}
    (hh : Unfolds Γ.toProg h t w v) {b : Bytes} (hb : mMarshalBare Γ c fuel h t w = .ok b) : b.length ≤ (B + 60) * vsize v + 4 := by
  rw [C103_binary hf hp hh] at hb
  exact C114_bare_partial hz hm hc hb

/-! ## What is not so -/

theorem linear_lt_pow (A : Nat) : ∃ n, A * (n + 2) < 2 ^ (n + 1) := by
  have hsq : ∀ n, (n + 5) * (n + 5) ≤ 2 ^ (n + 5) := by
    intro n
    induction n with
    | zero => decide
    | succ n ih =>
      have e : 2 ^ (n + 1 + 5) = 2 * 2 ^ (n + 5) := by rw [show n + 1 + 5 = (n + 5) + 1 by omega, Nat.pow_succ]; omega
      have h1 : (n + 1 + 5) * (n + 1 + 5) = (n + 5) * (n + 5) + 2 * (n + 5) + 1 := by
        rw [show n + 1 + 5 = (n + 5) + 1 by omega, Nat.add_mul, Nat.mul_add]; omega
      have h2 : 5 * (n + 5) ≤ (n + 5) * (n + 5) := Nat.mul_le_mul_right _ (by omega)
      omega
  refine ⟨A + 5, ?_⟩
  have h1 := hsq (A + 1)
  have h2 : A * (A + 5 + 2) < (A + 1 + 5) * (A + 1 + 5) := by
    rw [show A + 1 + 5 = A + 6 by omega, Nat.add_mul A 6]
    have : A * (A + 5 + 2) = A * (A + 6) + A := by rw [show A + 5 + 2 = (A + 6) + 1 by omega, Nat.mul_add]; omega
    omega
  rw [show A + 5 + 1 = A + 1 + 5 by omega]
  omega

/-- C114 is false for the size in memory: no number of bytes per variable is enough, as shared variables are written again and
again. -/
theorem C114_shared_refuted (A : Nat) : ∃ (h : Mem) (w : MVal) (fuel : Nat) (bz : Bytes),
    mMarshalBare Twin.prog {} fuel h (.ptr (.base 1)) w = .ok bz ∧ (∀ x ∈ h, ∃ a b, x = .struct [a, b]) ∧ A * h.length < bz.length := by
  obtain ⟨n, hn⟩ := linear_lt_pow A
  obtain ⟨bz, h1, h2, h3⟩ := C103_blowup n
  refine ⟨_, _, _, bz, h1, ?_, by rw [h2]; omega⟩
  intro x hx
  obtain ⟨k, _, rfl⟩ := List.mem_map.1 hx
  cases k <;> exact ⟨_, _, rfl⟩

namespace Echo

/-- `type Echo struct { Next *Echo }` is type 1, `type Repr struct { L, R *Echo }` type 2; MarshalAmino of Echo returns
`Repr{e.Next, e.Next}`. -/
def fields : List Field := [{ ty := .ptr (.base 1) }, { ty := .ptr (.base 1) }]

def out : Val → Res Val
  | .struct [p] => .ok (.struct [p, p])
  | _ => .panic .illTyped

def prog : Prog where
  shape | 1 => .struct [{ ty := .ptr (.base 1) }] | 2 => .struct fields | _ => .bool
  zero | 1 => .struct [.nil] | 2 => .struct [.nil, .nil] | _ => .bool false
  marsh | 1 => some (2, out) | _ => none
  unmarsh _ := none
  implements _ _ := false
  byteId := 0

/-- A list of k + 1 Echos. -/
def chain : Nat → Val
  | 0 => .struct [.nil]
  | k + 1 => .struct [.ptr (chain k)]

theorem chain_size (k : Nat) : vsize (chain k) = 2 * k + 2 := by
  induction k with
  | zero => rfl
  | succ k ih => simp only [chain, vsize, vsizes, ih]; omega

theorem enc_chain (k : Nat) : ∀ f fo, 2 * k + 1 < f → ∃ bz, (∀ bare, enc prog {} f 1 (chain k) fo bare = framed bare bz) ∧
    2 ^ (k + 1) ≤ bz.length + 2 := by
  induction k with
  | zero =>
    intro f fo hf
    obtain ⟨f, rfl⟩ : ∃ g, f = g + 2 := ⟨f - 2, by omega⟩
    exact ⟨[], fun bare => rfl, by decide⟩
  | succ k ih =>
    intro f fo hf
    obtain ⟨f, rfl⟩ : ∃ g, f = g + 2 := ⟨f - 2, by omega⟩
    obtain ⟨b1, h1, l1⟩ := ih f { fnum := 1 } (by omega)
    obtain ⟨b2, h2, l2⟩ := ih f { fnum := 2 } (by omega)
    have hb : ∀ b : Bytes, ∃ x, encodeByteSlice b = .ok x ∧ b.length ≤ x.length := by
      intro b
      unfold encodeByteSlice
      rw [encodeUvarint_eq]
      exact ⟨_, rfl, by simp⟩
    obtain ⟨x1, e1, m1⟩ := hb b1
    obtain ⟨x2, e2, m2⟩ := hb b2
    refine ⟨([0x0A] ++ x1) ++ (([0x12] ++ x2) ++ []), fun bare => ?_, ?_⟩
    · obtain ⟨vs, hvs⟩ : ∃ vs, chain k = .struct vs := by cases k <;> exact ⟨_, rfl⟩
      show ((encField prog {} (enc prog {} f) { ty := .ptr (.base 1) } 1 (.ptr (chain k))).bind fun b =>
        ((encField prog {} (enc prog {} f) { ty := .ptr (.base 1) } 2 (.ptr (chain k))).bind fun b' =>
          Res.bind (.ok []) fun b'' => .ok (b' ++ b'')).bind fun bs => .ok (b ++ bs)).bind (fun buf => framed bare buf) = _
      have hfld : ∀ num k1 x, encodeKey num typ3ByteLength = .ok k1 →
          enc prog {} f 1 (chain k) { fnum := num } false = .ok x →
          encField prog {} (enc prog {} f) { ty := .ptr (.base 1) } num (.ptr (chain k)) = .ok (k1 ++ x) := by
        intro num k1 x hk hx
        have : encField prog {} (enc prog {} f) { ty := .ptr (.base 1) } num (.ptr (chain k)) =
            (encodeKey num typ3ByteLength).bind fun k1 => (enc prog {} f 1 (chain k) { fnum := num } false).bind fun b =>
              .ok (k1 ++ b) := by
          rw [hvs]; rfl
        rw [this, hk, hx]; rfl
      rw [hfld 1 [0x0A] x1 rfl (by rw [h1]; exact e1), hfld 2 [0x12] x2 rfl (by rw [h2]; exact e2)]
      rfl
    · simp only [List.length_append, List.length_cons, List.length_nil]
      rw [Nat.pow_succ]
      omega

end Echo

/-- C114 is false for MarshalAmino methods returning twice as much as they are given: a list of n + 1 values, nothing shared,
has more than 2^n bytes. -/
theorem C114_methods_refuted (n : Nat) : ∃ bz, marshalBare Echo.prog {} (2 * n + 2) (.base 1) (Echo.chain n) = .ok bz ∧
    vsize (Echo.chain n) = 2 * n + 2 ∧ 2 ^ (n + 1) ≤ bz.length + 2 ∧
    ∀ r v, Echo.out v = .ok r → vsize r ≤ 2 * vsize v := by
  obtain ⟨bz, h1, h2⟩ := Echo.enc_chain n (2 * n + 2) { fnum := 1 } (by omega)
  refine ⟨bz, ?_, Echo.chain_size n, h2, ?_⟩
  · show (((enc Echo.prog {} (2 * n + 2) 1 (Echo.chain n) { fnum := 1 } true).bind fun bz => .ok bz : Res Bytes)) = _
    rw [h1]
    rfl
  · intro r v h
    unfold Echo.out at h
    split at h
    · cases h
      simp only [vsize, vsizes]; omega
    · cases h

/-! ## The hypotheses can be met -/

theorem Demo.reprSmall : ReprSmall Demo.prog 0 where
  marsh := by intro id rid m v r h; cases h

theorem Demo.prefixBytes : PrefixBytes Demo.codecFoo := by
  intro id ci h
  simp only [Codec.conc?, codecFoo, List.find?_cons, List.find?_nil] at h
  split at h
  · cases h; exact ⟨rfl, rfl⟩
  · cases h

example : Demo.msgBytes.length ≤ (0 + 60) * vsize Demo.msg + 4 :=
  C114_bare_partial Demo.prog_typed.zero Demo.reprSmall Demo.prefixBytes Demo.msg_marshal

theorem JDemo.reprSmall : ReprSmall JDemo.prog 30 where
  marsh := by
    intro id rid m v r h hr
    simp only [JDemo.prog] at h
    split at h
    · cases h
      left
      unfold JDemo.centsOut at hr
      split at hr
      · cases hr; simp [vsize]
      · cases hr
    · cases h

theorem JDemo.textSmall : TextSmall JDemo.prog JDemo.codec JDemo.lib 30 where
  field := by
    intro id fs h f hf
    revert f hf
    match id with
    | 0 | 1 | 2 | 3 | 5 | 6 | 8 | 9 | 11 | 14 | 15 => simp [JDemo.prog, JDemo.shape] at h
    | 4 | 7 | 10 | 12 | 13 =>
      simp only [JDemo.prog, JDemo.shape, Shape.struct.injEq] at h
      subst h
      decide +kernel
    | n + 16 => simp [JDemo.prog, JDemo.shape] at h
  name := by
    intro id ci h
    simp only [Codec.conc?, JDemo.codec, List.find?_cons, List.find?_nil] at h
    split at h
    · cases h; decide
    · cases h
  f32 := by intro x b h; cases h
  f64 := by
    intro x b h
    simp only [JDemo.lib] at h
    split at h <;> cases h
    decide
  time := by
    intro s ns b h
    simp only [JDemo.lib] at h
    split at h
    · cases h; decide
    · split at h <;> cases h
      decide
  user := by intro id a m v b h; cases h

example : JDemo.rec1Text.length ≤ (30 * 30 + 12 * 30 + 100) * vsize JDemo.rec1 + 20 :=
  C114_json_partial JDemo.typed JDemo.reprSmall JDemo.textSmall JDemo.rec1_typed JDemo.rec1_marshals

example : ∃ bz, mMarshalBare Demo.eprog Demo.codecFoo 5 Demo.emem (.base Demo.msgT) Demo.emsg = .ok bz ∧ bz.length ≤ (0 + 60) * vsize Demo.msg + 4 :=
  have h : mMarshalBare Demo.eprog Demo.codecFoo 5 Demo.emem (.base Demo.msgT) Demo.emsg = .ok Demo.msgBytes := by
    rw [C103_binary Demo.eprog_follow Demo.mprog_zero Demo.emsg_holds]; exact Demo.msg_marshal
  ⟨_, h, C114_memory_partial Demo.eprog_follow Demo.mprog_zero Demo.prog_typed.zero Demo.reprSmall Demo.prefixBytes Demo.emsg_holds h⟩

end Amino
