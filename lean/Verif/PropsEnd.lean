import Verif.SpecEnd
import Verif.PropsReg
import Verif.PropsRT
import Verif.PropsProto
import Verif.PropsJson

/-!
# Property C68: programs that make the same registrations understand each other

The conditions on the codec in C11, C46 and C67 follow from the registration calls having succeeded.
-/

namespace Amino
open Spec

variable {Γ : Prog} {H : Bytes → Bytes} {ops ops' : List Op} {c c' : Codec}

/-! ## From histories to codecs -/

theorem concsOf_regs (ops : List Op) : concsOf H (regsOf ops) = concsOf H ops := by
  unfold concsOf regsOf
  rw [List.filterMap_filter]
  congr 1
  funext op
  split
  · rfl
  · rename_i h
    cases hc : concOf H op with
    | none => rfl
    | some ci => rw [concOf_tid hc] at h; simp at h

theorem implsOf_regs (ops : List Op) (id : TId) : implsOf Γ H (regsOf ops) id = implsOf Γ H ops id := by
  unfold implsOf; rw [concsOf_regs]

theorem ifaceOf_regs (ops : List Op) (op : Op) : ifaceOf Γ H (regsOf ops) op = ifaceOf Γ H ops op := by
  unfold ifaceOf
  cases op <;> simp only [implsOf_regs]

theorem ifacesOf_regs (ops : List Op) : ifacesOf Γ H (regsOf ops) = ifacesOf Γ H ops := by
  unfold ifacesOf
  rw [show ifaceOf Γ H (regsOf ops) = ifaceOf Γ H ops from funext (ifaceOf_regs ops)]
  unfold regsOf
  rw [List.filterMap_filter]
  congr 1
  funext op
  split
  · rfl
  · rename_i h
    cases hc : ifaceOf Γ H ops op with
    | none => rfl
    | some ci => rw [ifaceOf_tid hc] at h; simp at h

/-- Uses and seals leave no trace in the lookups. -/
theorem regInv_regs (h : RegInv Γ H ops c) : RegInv Γ H (regsOf ops) c where
  concs := by rw [concsOf_regs, h.concs]
  ifaces := by rw [ifacesOf_regs, h.ifaces]
  byDisfix := by rw [concsOf_regs, h.byDisfix]
  byName := by rw [concsOf_regs, h.byName]
  valid := ⟨fun op ho => h.valid.each op (List.mem_filter.1 ho).1, h.valid.compatible.filter _, by
    rw [ifacesOf_regs]; exact h.valid.prio⟩

theorem mem_concs_op (h : RegInv Γ H ops c) {ci : ConcInfo} (hm : ci ∈ c.concs) :
    ∃ t, .conc t ci.name ∈ ops ∧ ci.tid = t.deref ∧ t = (if ci.ptrPref then .ptr (.base ci.tid) else .base ci.tid) ∧
      Γ.isIface ci.tid = false := by
  obtain ⟨op, ho, hop⟩ := h.mem_conc.1 hm
  obtain ⟨t, name, rfl, h1, h2, h3, _⟩ := concOf_some hop
  subst h3
  obtain ⟨g1, g2, _⟩ := h.valid.each _ ho
  refine ⟨t, ho, h1, ?_, by rw [h1]; exact g2⟩
  rw [h1, h2]
  cases t with
  | base => rfl
  | ptr u =>
    cases u with
    | base => rfl
    | ptr u => exact absurd rfl (g1 u)

theorem iface_registered (h : RegInv Γ H ops c) {id : TId} {prio : List Bytes} {always : Bool}
    (ho : .iface id prio always ∈ ops) : (c.iface? id).isSome = true := by
  obtain ⟨_, ds, hd⟩ := h.valid.each _ ho
  have : c.iface? id = some { tid := id, priority := ds, always := always, impls := implsOf Γ H ops id } :=
    h.iface_iff.2 ⟨_, ho, by simp only [ifaceOf, hd], rfl⟩
  rw [this]; rfl

/-- A program that registers what it uses has a supported universe of types. -/
theorem universe_of_program {S : TId → FOpts → Prop} (h : RegInv Γ H ops c) (hM : MethodSets Γ) (hP : Program Γ ops S) :
    Universe Γ c S where
  noMap := hP.noMap
  registered hS hs := by
    obtain ⟨_, _, ho⟩ := hP.registered hS hs
    exact iface_registered h ho
  floats := hP.floats
  marsh := hP.marsh
  noMarsh := hP.noMarsh
  slice := hP.slice
  array := hP.array
  struct := hP.struct
  iface := by
    intro id fo ii hS hs hi
    have him := h.impls hi
    refine ⟨?_, ?_⟩
    · intro t ci ht hc
      obtain ⟨hm, htid⟩ := h.conc_iff.1 hc
      rw [him, List.mem_filter, htid]
      exact ⟨hm, hM t id ht⟩
    · intro ci hci
      rw [him, List.mem_filter] at hci
      obtain ⟨hm, himp⟩ := hci
      obtain ⟨t, ho, h1, h2, h3⟩ := mem_concs_op h hm
      rw [h1] at himp
      obtain ⟨g1, g2, g3⟩ := hP.impl hS hs ho himp
      rw [h2] at g3
      obtain ⟨op, ho', hop⟩ := h.mem_conc.1 hm
      obtain ⟨k1, k2, k3, k4⟩ := concOf_len hop
      rw [← h1] at g1 g2
      exact ⟨g1, h3, g2, g3, k3, k4, k1, h.disfix_iff.2 ⟨hm, rfl⟩⟩

theorem prefix4_of_run (h : RegInv Γ H ops c) : ∀ id ci, c.conc? id = some ci → ci.prefx.length = 4 := by
  intro id ci hc
  obtain ⟨op, _, hop⟩ := h.mem_conc.1 (h.conc_iff.1 hc).1
  exact (concOf_len hop).2.2.1

/-- Codecs of histories with the same registrations read and write alike. -/
theorem same_regs (hp : (regsOf ops).Perm (regsOf ops')) (h : RegInv Γ H ops c) (h' : RegInv Γ H ops' c') :
    (∀ id, c'.conc? id = c.conc? id) ∧ (∀ n, c'.name? n = c.name? n) ∧
    (∀ id, (c'.iface? id).isSome = (c.iface? id).isSome) ∧
    (∀ f t v, marshalBare Γ c' f t v = marshalBare Γ c f t v) ∧
    (∀ f t p bz, unmarshalBare Γ c' f t p bz = unmarshalBare Γ c f t p bz) := by
  obtain ⟨h1, h2, h3, h4⟩ := lookup_perm hp (regInv_regs h) (regInv_regs h')
  have ha := agree_perm hp (regInv_regs h) (regInv_regs h')
  refine ⟨h1, h2, fun id => ?_, fun f t v => ?_, fun f t p bz => ?_⟩
  · rcases h4 id with ⟨a, b⟩ | ⟨ii, ii', a, b, _⟩ <;> rw [a, b] <;> rfl
  · exact (marshalBare_ext ha f t v (h1 _)).resolve_left fun hn => hn.1 trivial
  · exact (unmarshalBare_ext ha f t p bz (h1 _)).resolve_left fun hn => hn.1 trivial

/-! ## C68, binary -/

/-- C68: a writer and a reader that have successfully made the same registrations, each in its own order and among
any other calls; what the writer marshals, the reader gets back. -/
theorem C68_binary {S : TId → FOpts → Prop} (hr : ({} : Codec).run Γ H ops = some c) (hr' : ({} : Codec).run Γ H ops' = some c')
    (hp : (regsOf ops).Perm (regsOf ops')) (hM : MethodSets Γ) (hP : Program Γ ops S) (hZ : ZeroOk Γ) (hT : Γ.Typed)
    (hum : UserTotal Γ) {t t' : Ty} {v : Val} {bz : Bytes} {f g : Nat} (hs : Γ.structOrRep t.deref = true)
    (hS : S t.deref { fnum := 1 }) (ht : HasTy Γ t v) (h : marshalBare Γ c f t v = .ok bz)
    (hl : bz.length < 2 ^ 63) (hg : 2 * f ≤ g) (htt : t'.deref = t.deref) :
    ∃ w, roundTrip Γ c f t v = some w ∧ HasTy Γ (.base t.deref) w ∧
      unmarshalBare Γ c' g t' (Γ.zeroTy t') bz = .ok (refs t' w) := by
  have hi := run_inv hr
  have hi' := run_inv hr'
  rw [(same_regs hp hi hi').2.2.2.2]
  exact C11_roundTrip (universe_of_program hi hM hP) hZ hT hum (prefix4_of_run hi) hs hS ht h hl hg htt

/-- C68: and both write the same bytes for the same value: the proto3 serialization of the message it stands for. -/
theorem C68_bytes {S : TId → FOpts → Prop} (hr : ({} : Codec).run Γ H ops = some c) (hr' : ({} : Codec).run Γ H ops' = some c')
    (hp : (regsOf ops).Perm (regsOf ops')) (hM : MethodSets Γ) (hP : Program Γ ops S) (hT : Γ.Typed)
    (hW : SameWire Γ S) {t : Ty} {v : Val} {bz : Bytes} {f : Nat} {fs : List Field}
    (hs : Γ.shape t.deref = .struct fs) (hm : Γ.marsh t.deref = none)
    (hS : S t.deref { fnum := 1 }) (ht : HasTy Γ t v) (h : marshalBare Γ c f t v = .ok bz) (hl : bz.length < 2 ^ 63) :
    marshalBare Γ c' f t v = .ok bz ∧
    ∃ dv m, pointee t v = some dv ∧ Means Γ c t.deref { fnum := 1 } dv (.msg m) ∧ bz = prefixOf c t.deref ++ m.bytes := by
  have hi := run_inv hr
  refine ⟨by rw [(same_regs hp hi (run_inv hr')).2.2.2.1, h], ?_⟩
  obtain ⟨dv, m, h1, h2, h3, _⟩ := C67_struct (universe_of_program hi hM hP) hT hW hs hm hS ht h hl
  exact ⟨dv, m, h1, h2, h3⟩

/-! ## JSON uses the codec only to look up types and names -/

section
variable {J : JLib} (hi : ∀ id, getInfo Γ c' id = getInfo Γ c id) (hc : ∀ id, c'.conc? id = c.conc? id)
  (hn : ∀ n, c'.name? n = c.name? n)
include hi

theorem jencFields_ext (rec : Bool → Ty → Val → FOpts → Res Bytes) (a : Bool) (fs : List Field) (vs : List Val) :
    jencFields Γ c' rec a fs vs = jencFields Γ c rec a fs vs := by
  induction fs generalizing vs with
  | nil => cases vs <;> rfl
  | cons f fs ih =>
    cases vs with
    | nil => rfl
    | cons v vs => simp only [jencFields, hi, ih]

theorem jencEntries_ext (rec : Bool → Ty → Val → FOpts → Res Bytes) (e : Ty) (fo : FOpts) (kvs : List (Bytes × Val)) :
    jencEntries Γ c' rec e fo kvs = jencEntries Γ c rec e fo kvs := by
  induction kvs with
  | nil => rfl
  | cons kv kvs ih => simp only [jencEntries, jencEntry, hi, ih]

theorem jdecFields_ext (rec : Ty → Val → FOpts → Bytes → Res Val) (fo : FOpts) (m : List (Bytes × Bytes)) (fs : List Field)
    (ps : List Val) : jdecFields Γ c' rec fo m fs ps = jdecFields Γ c rec fo m fs ps := by
  induction fs generalizing ps with
  | nil => cases ps <;> rfl
  | cons f fs ih =>
    cases ps with
    | nil => rfl
    | cons p ps => simp only [jdecFields, hi, ih]

include hc in
theorem jenc_ext (fuel : Nat) : jenc Γ c' J fuel = jenc Γ c J fuel := by
  induction fuel with
  | zero => rfl
  | succ fuel ih =>
    funext a t v fo
    simp only [jenc, ih, jencBase, jencShape, jencIface, jencList, jencFields_ext hi, jencEntries_ext hi, hi, hc]

include hc in
theorem marshalJSON_ext (fuel : Nat) (o : Option (Ty × Val)) : marshalJSON Γ c' J fuel o = marshalJSON Γ c J fuel o := by
  cases o with
  | none => rfl
  | some p => simp only [marshalJSON, jenc_ext hi hc, hi, hc]

include hn in
theorem jdec_ext (fuel : Nat) : jdec Γ c' J fuel = jdec Γ c J fuel := by
  induction fuel with
  | zero => rfl
  | succ fuel ih =>
    funext t p fo bz
    simp only [jdec, ih, jdecBase, jdecShape, jdecIface, jdecFields_ext hi, hi, hn]

include hc hn in
theorem unmarshalJSON_ext (fuel : Nat) (t : Ty) (p : Val) (bz : Bytes) :
    unmarshalJSON Γ c' J fuel t p bz = unmarshalJSON Γ c J fuel t p bz := by
  simp only [unmarshalJSON, jdec_ext hi hn, hi, hc]

end

/-- Codecs of histories with the same registrations write and read the same JSON. -/
theorem same_regs_json {J : JLib} (hp : (regsOf ops).Perm (regsOf ops')) (h : RegInv Γ H ops c) (h' : RegInv Γ H ops' c') :
    (∀ f o, marshalJSON Γ c' J f o = marshalJSON Γ c J f o) ∧
    (∀ f t p bz, unmarshalJSON Γ c' J f t p bz = unmarshalJSON Γ c J f t p bz) := by
  obtain ⟨h1, h2, h3, _⟩ := same_regs hp h h'
  have hi : ∀ id, getInfo Γ c' id = getInfo Γ c id := fun id => by simp only [getInfo, h3]
  exact ⟨marshalJSON_ext hi h1, unmarshalJSON_ext hi h1 h2⟩

theorem juniv_of_program {J : JLib} {fl : Bool} {S : TId → Prop} (h : RegInv Γ H ops c) (hM : MethodSets Γ)
    (hP : JProgram Γ J fl ops S) : JUniv Γ c J fl S where
  info {id} hS := by
    unfold getInfo
    cases hs : Γ.shape id with
    | iface =>
      obtain ⟨_, _, ho⟩ := hP.registered hS hs
      simp only [iface_registered h ho, if_true]
    | struct fs =>
      have : fs.any Γ.badFloat = false := by
        rw [List.any_eq_false]
        intro f hf
        rw [hP.tagged hS hs f hf]; simp
      simp only [this]; rfl
    | _ => rfl
  methods := hP.methods
  time := hP.time
  floats := hP.floats
  marsh := hP.marsh
  noMarsh := hP.noMarsh
  slice := hP.slice
  array := hP.array
  map := hP.map
  field := hP.field
  names := hP.names
  iface {id t ci} hS hs himp hc := by
    obtain ⟨hm, htid⟩ := h.conc_iff.1 hc
    obtain ⟨t', ho, h1, h2, h3⟩ := mem_concs_op h hm
    have hpi := hM t id himp
    rw [← htid, h1] at hpi
    obtain ⟨g1, g2, g3⟩ := hP.impl hS hs ho hpi
    refine ⟨by rw [h1]; exact g1, h3, g2, h.name_iff.2 ⟨hm, rfl⟩, by rw [← h2]; exact g3⟩

/-- C68: the same for JSON, for values of a type registered under a name that needs no quoting, or not registered. -/
theorem C68_json {J : JLib} {S : TId → Prop} (hr : ({} : Codec).run Γ H ops = some c)
    (hr' : ({} : Codec).run Γ H ops' = some c') (hp : (regsOf ops).Perm (regsOf ops')) (hM : MethodSets Γ)
    (hP : JProgram Γ J false ops S) (hL : LibOk J) (hT : Γ.Typed) (hZ : ZeroOk Γ) (hum : UserTotal Γ)
    {fuel : Nat} {t : Ty} {v : Val} {bz : Bytes} (hS : JOk Γ S t) (ht : HasTy Γ t v)
    (hN : ∀ t' name, .conc t' name ∈ ops → t'.deref = t.deref → PlainName name)
    (he : marshalJSON Γ c J fuel (some (t, v)) = .ok bz) :
    marshalJSON Γ c' J fuel (some (t, v)) = .ok bz ∧
    ∃ w, jnorm Γ c fuel t v = some w ∧ HasTy Γ t w ∧
      ∀ g, fuel ≤ g → unmarshalJSON Γ c' J g t (zeroOf Γ t) bz = .ok w := by
  have hi := run_inv hr
  obtain ⟨e1, e2⟩ := same_regs_json (J := J) hp hi (run_inv hr')
  refine ⟨by rw [e1, he], ?_⟩
  simp only [e2]
  refine C46_json_roundtrip_partial (juniv_of_program hi hM hP) hL hT hZ hum hS ht ?_ he
  intro ci hc
  obtain ⟨hm, htid⟩ := hi.conc_iff.1 hc
  obtain ⟨t', ho, h1, _⟩ := mem_concs_op hi hm
  exact hN t' _ ho (by rw [← h1, htid])

/-! ## Two programs -/

namespace Demo

/-- The writer registers the interface first and uses a type in between; the reader registers in another order and seals. -/
def writerOps : List Op := [.iface ifaceT [] false, .conc (.ptr (.base fooT)) [102], .use msgT, .conc (.base barT) [98]]
def readerOps : List Op := [.conc (.base barT) [98], .conc (.ptr (.base fooT)) [102], .iface ifaceT [] false, .doSeal]

theorem writer_runs : (({} : Codec).run prog hash writerOps).isSome = true ∧
    (({} : Codec).run prog hash readerOps).isSome = true ∧
    ({} : Codec).run prog hash writerOps ≠ ({} : Codec).run prog hash readerOps := by decide +kernel

theorem same_regs_demo : (regsOf writerOps).Perm (regsOf readerOps) := by decide +kernel

theorem methodSets : MethodSets prog := by
  intro t id h
  simpa [prog, Ty.deref] using h

theorem program : Program prog writerOps S where
  noMap := univ_foo.noMap
  registered _ h := ⟨[], false, by rw [shape_iface h]; simp [writerOps]⟩
  floats := univ_foo.floats
  marsh := univ_foo.marsh
  noMarsh := univ_foo.noMarsh
  slice := univ_foo.slice
  array := univ_foo.array
  struct := univ_foo.struct
  impl := by
    intro id fo t name hS hs ho himp
    rw [shape_iface hs] at himp ⊢
    simp only [writerOps, List.mem_cons, reduceCtorEq, Op.conc.injEq, List.not_mem_nil, or_false, false_or] at ho
    rcases ho with ⟨rfl, _⟩ | ⟨rfl, _⟩
    · exact ⟨show supported fooT = true by decide, fun _ => by decide, by decide⟩
    · exact absurd himp (by decide)

/-- What the writer writes. -/
def sent : Bytes :=
  match ({} : Codec).run prog hash writerOps with
  | some c => match marshalBare prog c 10 (.base msgT) msg with | .ok bz => bz | _ => []
  | none => []

/-- A message with an interface field travels from the writer to the reader. -/
example (c c' : Codec) (hr : ({} : Codec).run prog hash writerOps = some c)
    (hr' : ({} : Codec).run prog hash readerOps = some c') :
    ∃ w, roundTrip prog c 10 (.base msgT) msg = some w ∧ HasTy prog (.base msgT) w ∧
      unmarshalBare prog c' 20 (.base msgT) (prog.zeroTy (.base msgT)) sent = .ok w := by
  refine C68_binary (S := S) hr hr' same_regs_demo methodSets program prog_zero prog_typed user_total (by decide)
    (show supported msgT = true by decide) msg_typed ?_ (by decide +kernel) (Nat.le_refl 20) rfl
  have hx : (({} : Codec).run prog hash writerOps).map (fun c => marshalBare prog c 10 (.base msgT) msg) =
      some (.ok sent) := by decide +kernel
  rw [hr] at hx
  exact Option.some.inj hx

end Demo

namespace JDemo

def writerOps : List Op := [.iface ifaceT [] false, .use recT, .conc (.ptr (.base fooT)) [0x66]]
def readerOps : List Op := [.conc (.ptr (.base fooT)) [0x66], .iface ifaceT [] false, .doSeal]

theorem writer_runs : (({} : Codec).run prog Demo.hash writerOps).isSome = true ∧
    (({} : Codec).run prog Demo.hash readerOps).isSome = true ∧ (regsOf writerOps).Perm (regsOf readerOps) := by
  decide +kernel

theorem program : JProgram prog lib false writerOps (S false) where
  registered _ h := ⟨[], false, by rw [shape_iface h]; simp [writerOps]⟩
  tagged := by
    intro id fs hS hs f hf
    have := (univ false).info hS
    unfold getInfo at this
    rw [hs] at this
    simp only at this
    split at this
    · cases this
    · rename_i hx
      exact Bool.eq_false_iff.2 fun hb => hx (List.any_eq_true.2 ⟨f, hf, hb⟩)
  methods := (univ false).methods
  time := (univ false).time
  floats := (univ false).floats
  marsh := (univ false).marsh
  noMarsh := (univ false).noMarsh
  slice := (univ false).slice
  array := (univ false).array
  map := (univ false).map
  field := (univ false).field
  names := (univ false).names
  impl := by
    intro id t name hS hs ho himp
    rw [shape_iface hs] at himp ⊢
    simp only [writerOps, List.mem_cons, reduceCtorEq, Op.conc.injEq, List.not_mem_nil, or_false, false_or] at ho
    obtain ⟨rfl, rfl⟩ := ho
    exact ⟨.inr (by decide), plain_f, by decide +kernel⟩

theorem methodSets : MethodSets prog := by
  intro t id h
  simp [prog] at h ⊢
  rw [h.2]
  exact ⟨h.1, rfl⟩

example (c c' : Codec) (hr : ({} : Codec).run prog Demo.hash writerOps = some c)
    (hr' : ({} : Codec).run prog Demo.hash readerOps = some c') :
    marshalJSON prog c' lib 5 (some (.base recT, rec1)) = .ok rec1Text ∧
    ∃ w, jnorm prog c 5 (.base recT) rec1 = some w ∧ HasTy prog (.base recT) w ∧
      ∀ g, 5 ≤ g → unmarshalJSON prog c' lib g (.base recT) (zeroOf prog (.base recT)) rec1Text = .ok w := by
  refine C68_json hr hr' writer_runs.2.2 methodSets program libOk typed zeroOk user_total
    (base_ok (by decide) (by decide)) rec1_typed ?_ ?_
  · intro t name ho ht
    simp only [writerOps, List.mem_cons, reduceCtorEq, Op.conc.injEq, List.not_mem_nil, or_false, false_or] at ho
    obtain ⟨rfl, rfl⟩ := ho
    exact plain_f
  · have hx : (({} : Codec).run prog Demo.hash writerOps).map
        (fun c => marshalJSON prog c lib 5 (some (.base recT, rec1))) = some (.ok rec1Text) := by decide +kernel
    rw [hr] at hx
    exact Option.some.inj hx

end JDemo

end Amino
