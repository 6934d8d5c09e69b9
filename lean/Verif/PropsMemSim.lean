import Verif.MemSim3

/-!
# C98: what Unmarshal stores, depending on how the target lies in memory
-/

namespace Amino
open Spec

section
variable {Γ : MProg} {c : Codec} {fuel : Nat}

/-- C98, for variables whose pointers are not shared: Unmarshal on memory has the outcome of Unmarshal on the contents, and on
success the variable holds the new contents, is again not shared, and consists of its old memory and new memory.  Missing:
targets with shared pointers, for which the claim is false, see below. -/
theorem C98_unshared_partial (hm : MethodsLocal Γ) (hf : MethodsFollow Γ) (hz : ZeroPlain Γ.toProg) {t : Ty} {l : Loc} {bz : Bytes}
    {h : Mem} {v : Val} {own ro : List Nat} (hu : Unshared Γ.toProg h l t v own ro) :
    (mUnmarshalBare Γ c fuel t l bz h).1 = (unmarshalBare Γ.toProg c fuel t v bz).bind (fun _ => .ok ()) ∧
    ∀ v', unmarshalBare Γ.toProg c fuel t v bz = .ok v' →
      ∃ own' ro', Unshared Γ.toProg (mUnmarshalBare Γ c fuel t l bz h).2 l t v' own' ro' ∧
        (∀ a ∈ own', a ∈ own ∨ h.length ≤ a) ∧ (∀ a ∈ ro', a ∈ ro ∨ h.length ≤ a) := by
  have hs := mUnmarshalBare_sim (c := c) (fuel := fuel) (bz := bz) hm hz hf hu
  have hlt : l.addr < h.length := by obtain ⟨⟨w, hg, _⟩, _⟩ := hu; exact get_lt hg
  obtain ⟨_, _, _, hlo, hlr⟩ := hu
  generalize mUnmarshalBare Γ c fuel t l bz h = m at hs
  generalize unmarshalBare Γ.toProg c fuel t v bz = d at hs
  obtain ⟨m1, m2⟩ := m
  cases m1 <;> cases d <;> simp only at hs
  · refine ⟨rfl, fun v' hv => ?_⟩
    cases hv
    obtain ⟨w, o', r', h1, h2, h3, h4, h5, h6⟩ := hs
    refine ⟨o', r', ⟨⟨w, h1, h2⟩, h3, h4, fun ha => ?_, fun ha => ?_⟩, h5, h6⟩
    · rcases h5 _ ha with hx | hx
      · exact hlo hx
      · omega
    · rcases h6 _ ha with hx | hx
      · exact hlr hx
      · omega
  · subst hs; exact ⟨rfl, fun v' hv => by cases hv⟩
  · subst hs; exact ⟨rfl, fun v' hv => by cases hv⟩
  · exact ⟨rfl, fun v' hv => by cases hv⟩

/-- C98, for a new variable (`var x T` or `new(T)`): it holds what was decoded, all of it in new memory. -/
theorem C98_new_partial (hm : MethodsLocal Γ) (hf : MethodsFollow Γ) (hz : ZeroPlain Γ.toProg) {t : Ty} {bz : Bytes} {h : Mem}
    {v' : Val} (hv : unmarshalBare Γ.toProg c fuel t (Γ.zeroTy t) bz = .ok v') :
    ∃ w own ro, (mUnmarshalBare Γ c fuel t ⟨h.length, []⟩ bz (h ++ [zeroM Γ t])).2[h.length]? = some w ∧
      RepV Γ.toProg (mUnmarshalBare Γ c fuel t ⟨h.length, []⟩ bz (h ++ [zeroM Γ t])).2 t w v' own ro ∧ own.Nodup ∧
      (∀ a ∈ own, a ∉ ro ∧ h.length < a) ∧ (∀ a ∈ ro, h.length < a) ∧
      ∀ a, a < h.length → (mUnmarshalBare Γ c fuel t ⟨h.length, []⟩ bz (h ++ [zeroM Γ t])).2[a]? = h[a]? := by
  obtain ⟨own, ro, ⟨⟨w, hg, hr⟩, hn, hd, _⟩, h1, h2⟩ :=
    (C98_unshared_partial (c := c) (fuel := fuel) (bz := bz) hm hf hz (unshared_new hz t h)).2 v' hv
  refine ⟨w, own, ro, by rw [← get_cell]; exact hg, hr, hn, fun a ha => ⟨hd a ha, ?_⟩, fun a ha => ?_, fun a ha => ?_⟩
  · exact Nat.lt_of_succ_le (by simpa using h1 a ha)
  · exact Nat.lt_of_succ_le (by simpa using h2 a ha)
  · have hi := mUnmarshalBare_inv (c := c) (fuel := fuel) (t := t) (bz := bz) hm ((newRegion_inv h).allocZero (Γ := Γ) t)
      (l := ⟨h.length, []⟩) (Nat.le_refl h.length)
    exact hi.cell fun q hw => absurd ha (Nat.not_lt.mpr hw)

end

/-! ## The hypotheses can be met -/

theorem Demo.mprog_follow : MethodsFollow Demo.mprog := by
  intro id rid um hu; cases hu

theorem Demo.mprog_zero : ZeroPlain Demo.mprog.toProg := by
  have hp : ∀ {id : TId} {v : Val}, scalarShape (Demo.shape id) = true → RepV Demo.prog [] (.base id) (.prim v) v [] [] := fun h => .prim h
  have hn : ∀ {id : TId}, nilShape (Demo.shape id) = true → RepV Demo.prog [] (.base id) .nil .nil [] [] := fun h => .nil h
  have hc : ∀ {t : Ty} {w : MVal} {v : Val} {ts : List Ty} {ws : List MVal} {vs : List Val}, RepV Demo.prog [] t w v [] [] →
      RepL Demo.prog [] ts ws vs [] [] → RepL Demo.prog [] (t :: ts) (w :: ws) (v :: vs) [] [] := fun h1 h2 => .cons h1 h2
  intro id
  match id with
  | 0 | 1 | 11 | 13 | 2 | 16 | 10 | 14 => exact hp rfl
  | 3 | 6 | 15 | 19 | 21 | 22 | 23 | 7 => exact hn rfl
  | 4 => exact .struct (fs := Demo.msgFields) rfl (hc (hp rfl) (hc (hp rfl) (hc (hn rfl) (hc .nilPtr (hc (hn rfl) (hc (hn rfl) (hc (hp rfl) .nil)))))))
  | 5 => exact .struct (fs := _) rfl (hc (hp rfl) (hc (hp rfl) .nil))
  | 8 => exact .struct (fs := _) rfl (hc (hp rfl) .nil)
  | 9 => exact .struct (fs := _) rfl (hc (hp rfl) .nil)
  | 12 => exact .struct (fs := _) rfl (hc (hp rfl) .nil)
  | 17 => exact .struct (fs := _) rfl (hc (.struct (fs := _) rfl (hc (hp rfl) .nil)) .nil)
  | 18 => exact .struct (fs := _) rfl (hc (hp rfl) .nil)
  | 20 => exact .struct (fs := _) rfl (hc (hn rfl) (hc (hn rfl) (hc (hn rfl) (hc (hn rfl) .nil))))
  | 24 => exact .arr (n := 2) (e := .base Demo.int64T) rfl rfl (hc (hp rfl) (hc (hp rfl) .nil))
  | 25 => exact .struct (fs := _) rfl (hc (hp rfl) (hc (hp rfl) (hc (hp rfl) .nil)))
  | n + 26 => exact .prim (v := .bool false) rfl

/-- The memory of the example for C97: variable 0 is not shared, it owns variable 1. -/
theorem Demo.mem_unshared : Unshared Demo.prog Demo.mem ⟨0, []⟩ (.base Demo.msgT)
    (.struct [.int 1, .str [], .nil, .ptr (.struct [.int 2, .str [], .nil, .nil, .nil, .nil, .time 0 0]), .nil, .nil, .time 0 0]) [1] [] := by
  refine ⟨⟨_, rfl, ?_⟩, by decide, by simp, by decide, by simp⟩
  refine .struct (fs := Demo.msgFields) (own := [1]) (ro := []) rfl ?_
  refine .cons (o := []) (r := []) (.prim rfl) <| .cons (o := []) (r := []) (.prim rfl) <| .cons (o := []) (r := []) (.nil rfl) <|
    .cons (o := [1]) (r := []) (o' := []) (r' := []) (.ptr rfl ?_) <| .cons (o := []) (r := []) (.nil rfl) <|
    .cons (o := []) (r := []) (.nil rfl) <| .cons (o := []) (r := []) (.prim rfl) .nil
  refine .struct (fs := Demo.msgFields) rfl ?_
  exact .cons (o := []) (r := []) (.prim rfl) <| .cons (o := []) (r := []) (.prim rfl) <| .cons (o := []) (r := []) (.nil rfl) <|
    .cons (o := []) (r := []) .nilPtr <| .cons (o := []) (r := []) (.nil rfl) <|
    .cons (o := []) (r := []) (.nil rfl) <| .cons (o := []) (r := []) (.prim rfl) .nil

example : ∃ own ro, Unshared Demo.prog (mUnmarshalBare Demo.mprog Demo.codecFoo 10 (.base Demo.msgT) ⟨0, []⟩ Demo.memBz Demo.mem).2 ⟨0, []⟩
    (.base Demo.msgT)
    (.struct [.int 0, .str [], .bytes [7], .ptr (.struct [.int 5, .str [], .nil, .nil, .nil, .nil, .time 0 0]), .nil, .nil, .time 0 0])
    own ro := by
  obtain ⟨own, ro, h, _⟩ := (C98_unshared_partial (c := Demo.codecFoo) (fuel := 10) (bz := Demo.memBz) Demo.mprog_local Demo.mprog_follow
    Demo.mprog_zero Demo.mem_unshared).2
    (.struct [.int 0, .str [], .bytes [7], .ptr (.struct [.int 5, .str [], .nil, .nil, .nil, .nil, .time 0 0]), .nil, .nil, .time 0 0])
    (by decide +kernel)
  exact ⟨own, ro, h⟩

/-- A new `*Msg`, next to the variables of the example. -/
example := C98_new_partial (c := Demo.codecFoo) (fuel := 10) (t := .ptr (.base Demo.msgT)) (bz := Demo.memBz) (h := Demo.mem)
  Demo.mprog_local Demo.mprog_follow Demo.mprog_zero
  (v' := .ptr (.struct [.int 0, .str [], .bytes [7], .ptr (.struct [.int 5, .str [], .nil, .nil, .nil, .nil, .time 0 0]), .nil, .nil, .time 0 0]))
  (by decide +kernel)

/-! ## Shared pointers -/

namespace Alias

/-- `type Pair struct { A, B *int64 }` is type 2, `type Node struct { Next *Node; N int64 }` type 3. -/
def shape : TId → Shape
  | 0 => .int .uint8
  | 1 => .int .int64
  | 2 => .struct [{ ty := .ptr (.base 1) }, { ty := .ptr (.base 1) }]
  | 3 => .struct [{ ty := .ptr (.base 3) }, { ty := .base 1 }]
  | _ => .bool

def prog : MProg where
  shape := shape
  zero
    | 0 | 1 => .int 0
    | 2 => .struct [.nil, .nil]
    | 3 => .struct [.nil, .int 0]
    | _ => .bool false
  marsh _ := none
  unmarsh _ := none
  implements _ _ := false
  byteId := 0
  unmarshM _ _ _ h := (.ok (), h)

def codec : Codec := {}

/-- A = 1, B = 2 -/
def pairBz : Bytes := [0x08, 1, 0x10, 2]

/-- `var n int64; p := Pair{&n, &n}` -/
def pairMem : Mem := [.struct [.ptr ⟨1, []⟩, .ptr ⟨1, []⟩], .prim (.int 0)]

/-- Next.N = 5 -/
def nodeBz : Bytes := [0x0A, 2, 0x10, 5]

/-- `var n Node; n.Next = &n` -/
def nodeMem : Mem := [.struct [.ptr ⟨0, []⟩, .prim (.int 1)]]

end Alias

/-- C98 is false for shared pointers: `Pair{A: 1, B: 2}` is encoded, and decoded without an error into a `Pair` whose two
pointers were equal.  Afterwards A and B are both 2. -/
theorem C98_shared_refuted :
    marshalBare Alias.prog.toProg Alias.codec 10 (.base 2) (.struct [.ptr (.int 1), .ptr (.int 2)]) = .ok Alias.pairBz ∧
    (∃ own, RepV Alias.prog.toProg Alias.pairMem (.base 2) (.struct [.ptr ⟨1, []⟩, .ptr ⟨1, []⟩]) (.struct [.ptr (.int 0), .ptr (.int 0)]) own []) ∧
    mUnmarshalBare Alias.prog Alias.codec 10 (.base 2) ⟨0, []⟩ Alias.pairBz Alias.pairMem =
      (.ok (), [.struct [.ptr ⟨1, []⟩, .ptr ⟨1, []⟩], .prim (.int 2)]) ∧
    unmarshalBare Alias.prog.toProg Alias.codec 10 (.base 2) (.struct [.ptr (.int 0), .ptr (.int 0)]) Alias.pairBz =
      .ok (.struct [.ptr (.int 1), .ptr (.int 2)]) := by
  refine ⟨by decide +kernel, ⟨[1, 1], ?_⟩, by decide +kernel, by decide +kernel⟩
  refine .struct (fs := [{ ty := .ptr (.base 1) }, { ty := .ptr (.base 1) }]) rfl ?_
  exact .cons (o := [1]) (r := []) (.ptr rfl (.prim rfl)) <| .cons (o := [1]) (r := []) (o' := []) (.ptr rfl (.prim rfl)) .nil

/-- C98 is false for cyclic targets: decoding `Node{Next: &Node{N: 5}}` into a node that points to itself succeeds, and 5 is not
in memory afterwards. -/
theorem C98_cyclic_refuted :
    marshalBare Alias.prog.toProg Alias.codec 10 (.base 3) (.struct [.ptr (.struct [.nil, .int 5]), .int 0]) = .ok Alias.nodeBz ∧
    mUnmarshalBare Alias.prog Alias.codec 10 (.base 3) ⟨0, []⟩ Alias.nodeBz Alias.nodeMem =
      (.ok (), [.struct [.nil, .prim (.int 0)]]) := by
  constructor <;> decide +kernel

end Amino
