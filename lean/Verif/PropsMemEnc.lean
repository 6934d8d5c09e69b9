import Verif.MemEncLoop
import Verif.MemJsonLoop
import Verif.PropsMemSim
import Verif.PropsRT
import Verif.JDemo

/-!
# C103: Marshal reads values in memory, however they are shared
-/

namespace Amino
open Spec

section
variable {Γ : EProg} {c : Codec} {J : EJLib} {fuel : Nat} {h h' : Mem}

/-- C103: MarshalBinaryBare of a value in memory gives what it gives for the tree: whether variables are shared makes no
difference. -/
theorem C103_binary (hm : MarshFollow Γ) (hz : ZeroPlain Γ.toProg) {t : Ty} {w : MVal} {v : Val} (hh : Unfolds Γ.toProg h t w v) :
    mMarshalBare Γ c fuel h t w = marshalBare Γ.toProg c fuel t v := by
  unfold mMarshalBare marshalBare
  rcases derefM_holds hh with ⟨h1, h2⟩ | ⟨dw, dv, h1, h2, h3⟩
  · rw [h1, h2]
  · rw [h1, h2]
    dsimp only
    have hs := fun fo bare => encM_holds (c := c) hm hz fuel h t.deref dw dv fo bare h3
    simp only [writeFieldM, writeField, hs]
    rfl

/-- C103, with the length first. -/
theorem C103_lengthPrefixed (hm : MarshFollow Γ) (hz : ZeroPlain Γ.toProg) {t : Ty} {w : MVal} {v : Val}
    (hh : Unfolds Γ.toProg h t w v) : mMarshalLP Γ c fuel h t w = marshalLP Γ.toProg c fuel t v := by
  unfold mMarshalLP marshalLP
  rw [C103_binary hm hz hh]

/-- C103, JSON. -/
theorem C103_json (hm : MarshFollow Γ) (hj : MarshJFollow Γ.toProg J) (hz : ZeroPlain Γ.toProg) {t : Ty} {w : MVal} {v : Val}
    (hh : Unfolds Γ.toProg h t w v) : mMarshalJSON Γ c J fuel h (some (t, w)) = marshalJSON Γ.toProg c J.toJLib fuel (some (t, v)) := by
  unfold mMarshalJSON marshalJSON
  dsimp only
  rw [jencM_holds hm hj hz fuel h false t w v {} hh]
  rfl

/-- C103: values with the same contents have the same encodings, wherever they are and whatever they share. -/
theorem C103_sharing (hm : MarshFollow Γ) (hj : MarshJFollow Γ.toProg J) (hz : ZeroPlain Γ.toProg) {t : Ty} {w w' : MVal} {v : Val}
    (hh : Unfolds Γ.toProg h t w v) (hh' : Unfolds Γ.toProg h' t w' v) :
    mMarshalBare Γ c fuel h t w = mMarshalBare Γ c fuel h' t w' ∧ mMarshalLP Γ c fuel h t w = mMarshalLP Γ c fuel h' t w' ∧
    mMarshalJSON Γ c J fuel h (some (t, w)) = mMarshalJSON Γ c J fuel h' (some (t, w')) := by
  rw [C103_binary hm hz hh, C103_binary hm hz hh', C103_lengthPrefixed hm hz hh, C103_lengthPrefixed hm hz hh', C103_json hm hj hz hh,
    C103_json hm hj hz hh']
  exact ⟨rfl, rfl, rfl⟩

/-- C103: no bytes are returned for a value that has parts within parts without end, however deep the recursion goes. -/
theorem C103_endless {t : Ty} {w x : MVal} (hl : Leads h t w x) (he : Endless Γ.toProg h (t.deref, x)) (bz : Bytes) :
    mMarshalBare Γ c fuel h t w ≠ .ok bz ∧ mMarshalLP Γ c fuel h t w ≠ .ok bz := by
  obtain ⟨s, h0, hs⟩ := he
  have key : ∀ bz, mMarshalBare Γ c fuel h t w ≠ .ok bz := by
    intro bz hk
    have hn := encM_endless (c := c) fuel s hs
    rw [h0] at hn
    unfold mMarshalBare at hk
    rw [derefM_leads hl] at hk
    dsimp only at hk
    obtain ⟨_, _, hk⟩ := Res.bind_eq_ok hk
    obtain ⟨b, hk, _⟩ := Res.bind_eq_ok hk
    split at hk
    · unfold writeFieldM at hk
      obtain ⟨_, _, hk⟩ := Res.bind_eq_ok hk
      obtain ⟨b, hk, _⟩ := Res.bind_eq_ok hk
      exact hn _ _ _ hk
    · exact hn _ _ _ hk
  refine ⟨key bz, fun hk => ?_⟩
  unfold mMarshalLP at hk
  obtain ⟨b, hk, _⟩ := Res.bind_eq_ok hk
  exact key b hk

/-- C103, JSON. -/
theorem C103_endless_json {t : Ty} {w x : MVal} (hl : Leads h t w x) (he : JEndless Γ.toProg J h (t.deref, x)) (bz : Bytes) :
    mMarshalJSON Γ c J fuel h (some (t, w)) ≠ .ok bz := by
  obtain ⟨s, h0, hs⟩ := he
  intro hk
  unfold mMarshalJSON at hk
  obtain ⟨_, _, hk⟩ := Res.bind_eq_ok hk
  obtain ⟨b, hk, _⟩ := Res.bind_eq_ok hk
  exact jencM_endless (c := c) fuel s hs _ _ _ _ _ (by rw [h0]; exact hl) (by rw [h0]) hk

/-- C103: in particular none for a value with itself among its parts, or the parts of its parts, and so on. -/
theorem C103_cyclic {t : Ty} {w x : MVal} {y : TId × MVal} (hl : Leads h t w x) (hy : (t.deref, x) = y ∨ Within Γ.toProg h (t.deref, x) y)
    (hw : Within Γ.toProg h y y) (bz : Bytes) : mMarshalBare Γ c fuel h t w ≠ .ok bz ∧ mMarshalLP Γ c fuel h t w ≠ .ok bz := by
  refine C103_endless hl ?_ bz
  rcases hy with rfl | hy
  · exact endless_of_within hw
  · exact endless_of_has hy (endless_of_within hw)

/-- C103, JSON. -/
theorem C103_cyclic_json {t : Ty} {w x : MVal} {y : TId × MVal} (hl : Leads h t w x)
    (hy : (t.deref, x) = y ∨ JWithin Γ.toProg J h (t.deref, x) y) (hw : JWithin Γ.toProg J h y y) (bz : Bytes) :
    mMarshalJSON Γ c J fuel h (some (t, w)) ≠ .ok bz := by
  refine C103_endless_json hl ?_ bz
  rcases hy with rfl | hy
  · exact jendless_of_within hw
  · exact jendless_of_has hy (jendless_of_within hw)

/-- C103 and C98 together: a value in memory, with any sharing, is encoded, and the bytes are decoded into a new variable.  Then
that variable holds the normalised tree; it is in new memory and nothing in it is shared. -/
theorem C103_roundTrip {Δ : MProg} {S : TId → FOpts → Prop} (hΔ : Δ.toProg = Γ.toProg) (hm : MarshFollow Γ) (hz : ZeroPlain Γ.toProg)
    (hl : MethodsLocal Δ) (hf : MethodsFollow Δ) (hU : Universe Γ.toProg c S) (hZ : ZeroOk Γ.toProg) (hT : Γ.Typed)
    (hum : UserTotal Γ.toProg) (hp4 : Prefix4 c) {t : Ty} {w : MVal} {v : Val} {bz : Bytes} {f g : Nat}
    (hs : Γ.structOrRep t.deref = true) (hS : S t.deref { fnum := 1 }) (hh : Unfolds Γ.toProg h t w v) (ht : HasTy Γ.toProg t v)
    (hb : mMarshalBare Γ c f h t w = .ok bz) (hlen : bz.length < 2 ^ 63) (hg : 2 * f ≤ g) :
    ∃ v', roundTrip Γ.toProg c f t v = some v' ∧
      let h₁ := (mUnmarshalBare Δ c g t ⟨h'.length, []⟩ bz (h' ++ [zeroM Δ t])).2
      ∃ w' own ro, h₁[h'.length]? = some w' ∧ RepV Γ.toProg h₁ t w' (refs t v') own ro ∧ own.Nodup ∧
        (∀ a ∈ own, a ∉ ro ∧ h'.length < a) ∧ (∀ a ∈ ro, h'.length < a) ∧ ∀ a, a < h'.length → h₁[a]? = h'[a]? := by
  rw [C103_binary hm hz hh] at hb
  obtain ⟨v', h1, _, h2⟩ := C11_roundTrip hU hZ hT hum hp4 hs hS ht hb hlen hg rfl
  refine ⟨v', h1, ?_⟩
  rw [← hΔ] at h2 hz
  have := C98_new_partial (h := h') hl hf hz h2
  rw [hΔ] at this
  exact this

end

/-! ## The hypotheses can be met -/

namespace Alias

def eprog : EProg where
  toProg := prog.toProg
  marshM _ _ _ := .err .json

theorem eprog_follow : MarshFollow eprog := by
  intro id rid m hm; cases hm

theorem eprog_zero : ZeroPlain eprog.toProg := by
  intro id
  match id with
  | 0 | 1 => exact .prim rfl
  | 2 => exact .struct (fs := [{ ty := .ptr (.base 1) }, { ty := .ptr (.base 1) }]) rfl (.cons (o := []) (r := []) .nilPtr (.cons (o := []) (r := []) .nilPtr .nil))
  | 3 => exact .struct (fs := [{ ty := .ptr (.base 3) }, { ty := .base 1 }]) rfl (.cons (o := []) (r := []) .nilPtr (.cons (o := []) (r := []) (.prim rfl) .nil))
  | n + 4 => exact .prim (v := .bool false) rfl

/-- `var n int64 = 7; p := Pair{&n, &n}` -/
def sharedMem : Mem := [.struct [.ptr ⟨1, []⟩, .ptr ⟨1, []⟩], .prim (.int 7)]

/-- `var n, m int64 = 7, 7; p := Pair{&n, &m}` -/
def separateMem : Mem := [.struct [.ptr ⟨1, []⟩, .ptr ⟨2, []⟩], .prim (.int 7), .prim (.int 7)]

theorem shared_holds : Unfolds eprog.toProg sharedMem (.ptr (.base 2)) (.ptr ⟨0, []⟩) (.ptr (.struct [.ptr (.int 7), .ptr (.int 7)])) :=
  .ptr rfl (.struct (fs := [{ ty := .ptr (.base 1) }, { ty := .ptr (.base 1) }]) rfl (.cons (.ptr rfl (.prim rfl)) (.cons (.ptr rfl (.prim rfl)) .nil)))

theorem separate_holds : Unfolds eprog.toProg separateMem (.ptr (.base 2)) (.ptr ⟨0, []⟩) (.ptr (.struct [.ptr (.int 7), .ptr (.int 7)])) :=
  .ptr rfl (.struct (fs := [{ ty := .ptr (.base 1) }, { ty := .ptr (.base 1) }]) rfl (.cons (.ptr rfl (.prim rfl)) (.cons (.ptr rfl (.prim rfl)) .nil)))

/-- The node that points to itself has itself as a part. -/
theorem ring : Within eprog.toProg nodeMem (3, .struct [.ptr ⟨0, []⟩, .prim (.int 1)]) (3, .struct [.ptr ⟨0, []⟩, .prim (.int 1)]) :=
  .part (.field (i := 0) (fs := [{ ty := .ptr (.base 3) }, { ty := .base 1 }]) rfl rfl rfl rfl rfl (.ptr rfl .base))

end Alias

example : mMarshalBare Alias.eprog Alias.codec 5 Alias.sharedMem (.ptr (.base 2)) (.ptr ⟨0, []⟩) = .ok [0x08, 7, 0x10, 7] ∧
    mMarshalBare Alias.eprog Alias.codec 5 Alias.separateMem (.ptr (.base 2)) (.ptr ⟨0, []⟩) = .ok [0x08, 7, 0x10, 7] := by
  rw [C103_binary Alias.eprog_follow Alias.eprog_zero Alias.shared_holds, C103_binary Alias.eprog_follow Alias.eprog_zero Alias.separate_holds]
  decide +kernel

example (fuel : Nat) (bz : Bytes) : mMarshalBare Alias.eprog Alias.codec fuel Alias.nodeMem (.ptr (.base 3)) (.ptr ⟨0, []⟩) ≠ .ok bz :=
  (C103_cyclic (.ptr rfl .base) (.inl rfl) Alias.ring bz).1

/-- C103: encoding a node that points to itself never returns, neither bytes nor an error: however deep the recursion is allowed
to go, it does not suffice.  (In Go the stack overflows, which ends the process.) -/
theorem C103_never_returns (fuel : Nat) :
    mMarshalBare Alias.eprog Alias.codec fuel Alias.nodeMem (.ptr (.base 3)) (.ptr ⟨0, []⟩) = .oof := by
  have key : ∀ fuel fo bare, encM Alias.eprog Alias.codec fuel Alias.nodeMem 3 (.struct [.ptr ⟨0, []⟩, .prim (.int 1)]) fo bare = .oof := by
    intro fuel
    induction fuel with
    | zero => intro fo bare; rfl
    | succ fuel ih =>
      intro fo bare
      show ((((encodeKey 1 typ3ByteLength).bind fun k =>
        (encM Alias.eprog Alias.codec fuel Alias.nodeMem 3 (.struct [.ptr ⟨0, []⟩, .prim (.int 1)]) { fnum := 1 } false).bind fun b =>
        if !true && b == [0] then .ok [] else .ok (k ++ b)).bind fun _ => _ : Res Bytes).bind fun _ => _) = _
      rw [ih]
      rfl
  show ((encM Alias.eprog Alias.codec fuel Alias.nodeMem 3 (.struct [.ptr ⟨0, []⟩, .prim (.int 1)]) { fnum := 1 } true).bind fun _ => _) = _
  rw [key]
  rfl

namespace Demo

def eprog : EProg := { prog with marshM := fun _ _ _ => .err .json }

theorem eprog_follow : MarshFollow eprog := by
  intro id rid m hm; cases hm

def elib : EJLib := { JDemo.lib with marshJM := fun _ _ _ _ => .err .json }

theorem elib_follow : MarshJFollow eprog.toProg elib := by
  intro id addr m hm; cases hm

/-- Two slices of the same array of two elements; the bytes are in the middle of a larger array. -/
def emem : Mem :=
  [.prim (.bytes [9, 1, 2, 9]), .struct [.prim (.int 7), .prim (.str []), .nil, .nil, .slice 2 1 0, .nil, .prim (.time 0 0)],
   .arr [.struct [.prim (.int 0), .prim (.bool false)], .struct [.prim (.int 3), .prim (.bool true)]]]

/-- `Demo.msg` in memory -/
def emsg : MVal :=
  .struct [.prim (.int (-5)), .prim (.str [104, 105]), .slice 0 1 2, .ptr ⟨1, []⟩, .slice 2 0 2,
    .iface (.base fooT) (.struct [.prim (.int 9)]), .prim (.time 1000000000 0)]

theorem emsg_holds : Unfolds eprog.toProg emem (.base msgT) emsg msg := by
  refine .struct (fs := msgFields) rfl ?_
  refine .cons (.prim rfl) <| .cons (.prim rfl) <| .cons (.byteSlice (e := .base byteT) (b := [9, 1, 2, 9]) rfl rfl rfl (by decide)) <|
    .cons (.ptr (w := .struct [.prim (.int 7), .prim (.str []), .nil, .nil, .slice 2 1 0, .nil, .prim (.time 0 0)]) rfl ?_) <|
    .cons ?_ <| .cons (.iface rfl ?_) <| .cons (.prim rfl) .nil
  · refine .struct (fs := msgFields) rfl ?_
    exact .cons (.prim rfl) <| .cons (.prim rfl) <| .cons (.nil rfl) <| .cons .nilPtr <|
      .cons (.slice (e := .base subT) (ws := [.struct [.prim (.int 0), .prim (.bool false)], .struct [.prim (.int 3), .prim (.bool true)]])
        rfl rfl rfl (by decide) .nil) <| .cons (.nil rfl) <| .cons (.prim rfl) .nil
  · refine .slice (e := .base subT) (ws := [.struct [.prim (.int 0), .prim (.bool false)], .struct [.prim (.int 3), .prim (.bool true)]])
        rfl rfl rfl (by decide) ?_
    exact .cons (.struct (fs := _) rfl (.cons (.prim rfl) (.cons (.prim rfl) .nil))) <|
      .cons (.struct (fs := _) rfl (.cons (.prim rfl) (.cons (.prim rfl) .nil))) .nil
  · exact .struct (fs := [{ ty := .base int64T }]) rfl (.cons (.prim rfl) .nil)

end Demo

example : mMarshalBare Demo.eprog Demo.codecFoo 5 Demo.emem (.base Demo.msgT) Demo.emsg = .ok Demo.msgBytes := by
  rw [C103_binary Demo.eprog_follow Demo.mprog_zero Demo.emsg_holds]
  exact Demo.msg_marshal

example := C103_json (c := Demo.codecFoo) (fuel := 5) Demo.eprog_follow Demo.elib_follow Demo.mprog_zero Demo.emsg_holds

/-- The message in memory, encoded, and decoded into a new variable of an empty memory. -/
example := C103_roundTrip (h' := []) (Γ := Demo.eprog) (Δ := Demo.mprog) (g := 10) rfl Demo.eprog_follow Demo.mprog_zero Demo.mprog_local
  Demo.mprog_follow Demo.univ_foo Demo.prog_zero Demo.prog_typed Demo.user_total Demo.prefix4_foo rfl Demo.S_msg Demo.emsg_holds
  Demo.msg_typed (f := 5) (by rw [C103_binary Demo.eprog_follow Demo.mprog_zero Demo.emsg_holds]; exact Demo.msg_marshal) (by decide) (by omega)

/-- The node that points to itself, as JSON. -/
example (fuel : Nat) (bz : Bytes) :
    mMarshalJSON Alias.eprog Alias.codec Demo.elib fuel Alias.nodeMem (some (.ptr (.base 3), .ptr ⟨0, []⟩)) ≠ .ok bz :=
  C103_cyclic_json (.ptr rfl .base) (.inl rfl)
    (.part (.field (i := 0) (fs := [{ ty := .ptr (.base 3) }, { ty := .base 1 }]) ⟨rfl, fun _ => rfl⟩ rfl rfl rfl rfl (.ptr rfl .base))) bz

/-! ## Sharing is lost, and that can be costly -/

namespace Twin

/-- `type Twin struct { L, R *Twin }` is type 1. -/
def fields : List Field := [{ ty := .ptr (.base 1) }, { ty := .ptr (.base 1) }]

def prog : EProg where
  shape | 1 => .struct fields | _ => .bool
  zero | 1 => .struct [.nil, .nil] | _ => .bool false
  marsh _ := none
  unmarsh _ := none
  implements _ _ := false
  byteId := 0
  marshM _ _ _ := .err .json

theorem follow : MarshFollow prog := by
  intro id rid m hm; cases hm

theorem zeroPlain : ZeroPlain prog.toProg := by
  intro id
  match id with
  | 0 => exact .prim (v := .bool false) rfl
  | 1 => exact .struct (fs := fields) rfl (.cons (o := []) (r := []) .nilPtr (.cons (o := []) (r := []) .nilPtr .nil))
  | n + 2 => exact .prim (v := .bool false) rfl

/-- Variable 0 is `Twin{}`, variable k+1 is `Twin{p, p}` with p the address of variable k. -/
def cell : Nat → MVal
  | 0 => .struct [.nil, .nil]
  | k + 1 => .struct [.ptr ⟨k, []⟩, .ptr ⟨k, []⟩]

def mem (n : Nat) : Mem := (List.range (n + 1)).map cell

/-- What the variables hold. -/
def tree : Nat → Val
  | 0 => .struct [.nil, .nil]
  | k + 1 => .struct [.ptr (tree k), .ptr (tree k)]

theorem mem_get {n k : Nat} (hk : k ≤ n) : (mem n)[k]? = some (cell k) := by
  simp [mem, List.getElem?_range (show k < n + 1 by omega)]

theorem holds {n k : Nat} (hk : k ≤ n) : Unfolds prog.toProg (mem n) (.base 1) (cell k) (tree k) := by
  induction k with
  | zero => exact .struct (fs := fields) rfl (.cons .nilPtr (.cons .nilPtr .nil))
  | succ k ih =>
    have hp : Unfolds prog.toProg (mem n) (.ptr (.base 1)) (.ptr ⟨k, []⟩) (.ptr (tree k)) :=
      .ptr (w := cell k) (by rw [Mem.get, mem_get (show k ≤ n by omega)]; rfl) (ih (by omega))
    exact .struct (fs := fields) rfl (.cons hp (.cons hp .nil))

theorem enc_tree (k : Nat) : ∀ f fo, k < f → ∃ bz, (∀ bare, enc prog.toProg {} f 1 (tree k) fo bare = framed bare bz) ∧
    2 ^ (k + 1) ≤ bz.length + 2 := by
  induction k with
  | zero =>
    intro f fo hf
    obtain ⟨f, rfl⟩ : ∃ g, f = g + 1 := ⟨f - 1, by omega⟩
    exact ⟨[], fun bare => rfl, by decide⟩
  | succ k ih =>
    intro f fo hf
    obtain ⟨f, rfl⟩ : ∃ g, f = g + 1 := ⟨f - 1, by omega⟩
    obtain ⟨b1, h1, l1⟩ := ih f { fnum := 1 } (by omega)
    obtain ⟨b2, h2, l2⟩ := ih f { fnum := 2 } (by omega)
    have hb : ∀ b : Bytes, ∃ x, encodeByteSlice b = .ok x ∧ b.length ≤ x.length := by
      intro b
      unfold encodeByteSlice
      rw [encodeUvarint_eq]
      exact ⟨_, rfl, by simp⟩
    obtain ⟨x1, e1, m1⟩ := hb b1
    obtain ⟨x2, e2, m2⟩ := hb b2
    refine ⟨([0x0A] ++ x1) ++ (([0x12] ++ x2) ++ []), fun bare => ?_, ?_⟩
    · have hshape : ∀ v, v = tree k → (∃ vs, v = .struct vs) := by
        intro v hv
        cases k <;> exact ⟨_, hv⟩
      obtain ⟨vs, hvs⟩ := hshape _ rfl
      show ((encField prog.toProg {} (enc prog.toProg {} f) { ty := .ptr (.base 1) } 1 (.ptr (tree k))).bind fun b =>
        ((encField prog.toProg {} (enc prog.toProg {} f) { ty := .ptr (.base 1) } 2 (.ptr (tree k))).bind fun b' =>
          Res.bind (.ok []) fun b'' => .ok (b' ++ b'')).bind fun bs => .ok (b ++ bs)).bind (fun buf => framed bare buf) = _
      have hfld : ∀ num k1 x, encodeKey num typ3ByteLength = .ok k1 →
          enc prog.toProg {} f 1 (tree k) { fnum := num } false = .ok x →
          encField prog.toProg {} (enc prog.toProg {} f) { ty := .ptr (.base 1) } num (.ptr (tree k)) = .ok (k1 ++ x) := by
        intro num k1 x hk hx
        have : encField prog.toProg {} (enc prog.toProg {} f) { ty := .ptr (.base 1) } num (.ptr (tree k)) =
            (encodeKey num typ3ByteLength).bind fun k1 => (enc prog.toProg {} f 1 (tree k) { fnum := num } false).bind fun b =>
              .ok (k1 ++ b) := by
          rw [hvs]; rfl
        rw [this, hk, hx]; rfl
      rw [hfld 1 [0x0A] x1 rfl (by rw [h1]; exact e1), hfld 2 [0x12] x2 rfl (by rw [h2]; exact e2)]
      rfl
    · simp only [List.length_append, List.length_cons, List.length_nil]
      rw [Nat.pow_succ]
      omega

end Twin

/-- C103: as shared variables are written every time they are met, the encoding may be exponentially larger than the value in
memory: there is a value of n + 1 variables, each with two words, whose encoding has more than 2^n bytes. -/
theorem C103_blowup (n : Nat) : ∃ bz, mMarshalBare Twin.prog {} (n + 2) (Twin.mem (n + 1)) (.ptr (.base 1)) (.ptr ⟨n + 1, []⟩) = .ok bz ∧
    (Twin.mem (n + 1)).length = n + 2 ∧ 2 ^ (n + 1) ≤ bz.length := by
  have hh : Unfolds Twin.prog.toProg (Twin.mem (n + 1)) (.ptr (.base 1)) (.ptr ⟨n + 1, []⟩) (.ptr (Twin.tree (n + 1))) :=
    .ptr (w := Twin.cell (n + 1)) (by rw [Mem.get, Twin.mem_get (Nat.le_refl _)]; rfl) (Twin.holds (Nat.le_refl _))
  obtain ⟨bz, h1, h2⟩ := Twin.enc_tree (n + 1) (n + 2) { fnum := 1 } (by omega)
  refine ⟨bz, ?_, by simp [Twin.mem], ?_⟩
  · rw [C103_binary Twin.follow Twin.zeroPlain hh]
    show (((enc Twin.prog.toProg {} (n + 2) 1 (Twin.tree (n + 1)) { fnum := 1 } true).bind fun bz => .ok bz : Res Bytes)) = _
    rw [h1]
    rfl
  · have : 2 ≤ 2 ^ (n + 1) := by rw [Nat.pow_succ]; have := Nat.two_pow_pos n; omega
    rw [Nat.pow_succ] at h2
    omega

end Amino
