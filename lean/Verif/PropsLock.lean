import Verif.Lock
import Verif.PropsFail

/-!
# C32, C34, C57: concurrent use of a codec

For every schedule, that is every sequence of steps of any number of goroutines.
-/

namespace Amino

variable {Γ : Prog} {H : Bytes → Bytes}

/-! ## Specification -/

namespace Spec

/-- Past the check of the seal, in a registration call. -/
def pastCheck : PC → Bool
  | .build _ | .regWait _ | .reg _ => true
  | _ => false

/-- The same registrations. -/
def SameRegistry (c c' : Codec) : Prop :=
  c'.ifaces = c.ifaces ∧ c'.concs = c.concs ∧ c'.byDisfix = c.byDisfix ∧ c'.byName = c.byName

/-- Writing the implementers of some interface. -/
def writesImpls : PC → Bool
  | .reg _ => true
  | _ => false

/-- Reading or writing the implementers of some interface. -/
def touchesImpls : PC → Bool
  | .reg _ | .read | .peek => true
  | _ => false

/-- Two goroutines use the implementers at the same time, one of them writing. -/
def Race (s : LState) : Prop := ∃ i j, i ≠ j ∧ writesImpls (s.pc i) = true ∧ touchesImpls (s.pc j) = true

end Spec
open Spec

/-! ## The lock -/

@[simp] theorem goto_pc (s : LState) (i j : Tid) (p : PC) :
    (s.goto i p).pc j = if j = i then p else s.pc j := rfl
@[simp] theorem goto_c (s : LState) (i : Tid) (p : PC) : (s.goto i p).c = s.c := rfl
@[simp] theorem goto_owner (s : LState) (i : Tid) (p : PC) : (s.goto i p).owner = s.owner := rfl

/-- Only the owner is in a writing critical section; readers exclude it. -/
structure LockInv (s : LState) : Prop where
  writer : ∀ i, (s.pc i).writer = true → s.owner = some i
  reader : ∀ i, (s.pc i).reader = true → s.owner = none

theorem LockInv.goto {s : LState} (h : LockInv s) {i : Tid} {p : PC} (hw : p.writer = false) (hr : p.reader = false) :
    LockInv (s.goto i p) := by
  refine ⟨fun j hj => ?_, fun j hj => ?_⟩ <;> rw [goto_pc] at hj <;> split at hj
  · rw [hw] at hj; cases hj
  · exact h.writer j hj
  · rw [hr] at hj; cases hj
  · exact h.reader j hj

theorem LockInv.acquire {s : LState} (h : LockInv s) (hf : s.free) {i : Tid} {p : PC} (hr : p.reader = false) :
    LockInv ({ s with owner := some i }.goto i p) := by
  refine ⟨fun j hj => ?_, fun j hj => ?_⟩ <;> rw [goto_pc] at hj <;> split at hj
  · rename_i he; rw [he]; rfl
  · have := h.writer j hj
    rw [hf.1] at this; cases this
  · rw [hr] at hj; cases hj
  · have : (s.pc j).reader = true := hj
    rw [hf.2 j] at this; cases this

theorem LockInv.release {s : LState} (h : LockInv s) {i : Tid} (hi : (s.pc i).writer = true) (c : Codec) {p : PC}
    (hw : p.writer = false) : LockInv ({ s with c := c, owner := none }.goto i p) := by
  refine ⟨fun j hj => ?_, fun j hj => rfl⟩
  rw [goto_pc] at hj
  split at hj
  · rw [hw] at hj; cases hj
  · rename_i hne
    have h1 := h.writer j hj
    rw [h.writer i hi] at h1
    cases h1; exact absurd rfl hne

theorem leave_pc (r : Codec × Option Pan) :
    (match r.2 with | some p => PC.failed p | none => .idle).writer = false := by
  cases r.2 <;> rfl

theorem LockInv.step {i : Tid} {s s' : LState} (h : LockInv s) (hs : LStep Γ H i s s') : LockInv s' := by
  cases hs with
  | callIface hp => exact h.goto rfl rfl
  | callConc hp => exact h.goto rfl rfl
  | callUse hp => exact h.goto rfl rfl
  | callSeal hp => exact h.goto rfl rfl
  | callRead hp => exact h.goto rfl rfl
  | callPeek hp => exact h.goto rfl rfl
  | recovered hp => exact h.goto rfl rfl
  | lockCheck hp hf => exact h.acquire hf rfl
  | checked hp hc => exact h.release (by rw [hp]; rfl) _ rfl
  | checkedSealed hp hc => exact h.release (by rw [hp]; rfl) _ rfl
  | built hp => exact h.goto rfl rfl
  | lockReg hp hf => exact h.acquire hf rfl
  | registered hp => exact h.release (by rw [hp]; rfl) _ (leave_pc _)
  | lockUse hp hf => exact h.acquire hf rfl
  | used hp hn => exact h.release (by rw [hp]; rfl) _ (leave_pc _)
  | @usedPanic id _ hp hn =>
    have h' : LockInv { s with c := (useType Γ s.c id).1 } := ⟨h.writer, h.reader⟩
    exact h'.goto rfl rfl
  | lockSeal hp hf => exact h.acquire hf rfl
  | sealed hp => exact h.release (by rw [hp]; rfl) _ rfl
  | lockRead hp hf =>
    refine ⟨fun j hj => ?_, fun j hj => hf⟩
    rw [goto_pc] at hj
    split at hj
    · cases hj
    · exact h.writer j hj
  | wasRead hp => exact h.goto rfl rfl
  | peeked hp => exact h.goto rfl rfl

theorem LockInv.init : LockInv {} := ⟨fun _ h => Bool.noConfusion h, fun _ _ => rfl⟩

theorem LockInv.steps {s s' : LState} (h : LockInv s) (hs : LSteps Γ H s s') : LockInv s' := by
  induction hs with
  | refl => exact h
  | step _ h1 ih => exact ih.step h1

/-! ## C32 -/

theorem useType_registry (c : Codec) (id : TId) :
    SameRegistry c (useType Γ c id).1 ∧ (useType Γ c id).1.sealed = c.sealed := by
  unfold useType
  split
  · exact ⟨⟨rfl, rfl, rfl, rfl⟩, rfl⟩
  · split <;> exact ⟨⟨rfl, rfl, rfl, rfl⟩, rfl⟩

theorem addInterface_sealed (c : Codec) (id : TId) (prio : List Bytes) (always : Bool) :
    (addInterface Γ H c id prio always).1.sealed = c.sealed := by
  unfold addInterface
  split
  · rfl
  split
  · simp only
    split
    · unfold Codec.setIface
      split <;> rfl
    · rfl
  · rfl
  · rfl

theorem addConcrete_sealed (c : Codec) (t : Ty) (name : Bytes) :
    (addConcrete Γ H c t name).1.sealed = c.sealed := by
  unfold addConcrete
  split
  · rfl
  split
  · rfl
  split
  · split
    · simp only
      split
      · unfold Codec.setConc
        split
        · rfl
        simp only
        split
        · rfl
        split <;> rfl
      · rfl
    · rfl
    · rfl
  · rfl
  · rfl

theorem register_sealed (c : Codec) (op : Op) : (c.register Γ H op).1.sealed = c.sealed := by
  cases op with
  | iface id prio always => exact addInterface_sealed c id prio always
  | conc t name => exact addConcrete_sealed c t name
  | use id => rfl
  | doSeal => rfl

/-- One step: the seal stays, no goroutine gets past the check of a sealed codec, and only a goroutine past the check
changes the registrations. -/
theorem step_sealed {i : Tid} {s s' : LState} (hs : LStep Γ H i s s') :
    (s.c.sealed = true → s'.c.sealed = true) ∧
    (s.c.sealed = true → ∀ j, pastCheck (s'.pc j) = true → pastCheck (s.pc j) = true) ∧
    (pastCheck (s.pc i) = false → SameRegistry s.c s'.c) := by
  have same : ∀ c : Codec, SameRegistry c c := fun c => ⟨rfl, rfl, rfl, rfl⟩
  have out : ∀ {s t : LState} {p : PC}, t.pc = s.pc → (pastCheck p = true → pastCheck (s.pc i) = true) →
      ∀ j, pastCheck ((t.goto i p).pc j) = true → pastCheck (s.pc j) = true := by
    intro s t p ht hp j hj
    rw [goto_pc] at hj
    split at hj
    · rename_i he; rw [he]; exact hp hj
    · rw [← ht]; exact hj
  have outLeave : ∀ {s t : LState} (r : Codec × Option Pan), t.pc = s.pc →
      ∀ j, pastCheck ((t.leave i r).pc j) = true → pastCheck (s.pc j) = true := by
    intro s t r ht j hj
    refine out (t := { t with c := r.1, owner := none }) ht ?_ j hj
    intro hp; cases hr : r.2 <;> simp [hr, pastCheck] at hp
  cases hs with
  | callIface hp => exact ⟨fun h => h, fun _ => out rfl (fun h => by cases h), fun _ => same _⟩
  | callConc hp => exact ⟨fun h => h, fun _ => out rfl (fun h => by cases h), fun _ => same _⟩
  | callUse hp => exact ⟨fun h => h, fun _ => out rfl (fun h => by cases h), fun _ => same _⟩
  | callSeal hp => exact ⟨fun h => h, fun _ => out rfl (fun h => by cases h), fun _ => same _⟩
  | callRead hp => exact ⟨fun h => h, fun _ => out rfl (fun h => by cases h), fun _ => same _⟩
  | callPeek hp => exact ⟨fun h => h, fun _ => out rfl (fun h => by cases h), fun _ => same _⟩
  | recovered hp => exact ⟨fun h => h, fun _ => out rfl (fun h => by cases h), fun _ => same _⟩
  | lockCheck hp hf => exact ⟨fun h => h, fun _ => out rfl (fun h => by cases h), fun _ => same _⟩
  | checked hp hc => exact ⟨fun h => h, fun h => absurd (hc.symm.trans h) (by simp), fun _ => same _⟩
  | checkedSealed hp hc => exact ⟨fun h => h, fun _ => outLeave _ rfl, fun _ => same _⟩
  | built hp => exact ⟨fun h => h, fun _ => out rfl (fun _ => by rw [hp]; rfl), fun _ => same _⟩
  | lockReg hp hf => exact ⟨fun h => h, fun _ => out rfl (fun _ => by rw [hp]; rfl), fun _ => same _⟩
  | registered hp =>
    exact ⟨fun h => by simp only [LState.leave, goto_c]; rw [register_sealed]; exact h, fun _ => outLeave _ rfl,
      fun h => by rw [hp] at h; cases h⟩
  | lockUse hp hf => exact ⟨fun h => h, fun _ => out rfl (fun h => by cases h), fun _ => same _⟩
  | used hp hn =>
    exact ⟨fun h => (useType_registry _ _).2.trans h, fun _ => outLeave _ rfl, fun _ => (useType_registry _ _).1⟩
  | usedPanic hp hn =>
    exact ⟨fun h => (useType_registry _ _).2.trans h, fun _ => out rfl (fun h => by cases h),
      fun _ => (useType_registry _ _).1⟩
  | lockSeal hp hf => exact ⟨fun h => h, fun _ => out rfl (fun h => by cases h), fun _ => same _⟩
  | sealed hp => exact ⟨fun _ => rfl, fun _ => outLeave _ rfl, fun _ => same _⟩
  | lockRead hp hf => exact ⟨fun h => h, fun _ => out rfl (fun h => by cases h), fun _ => same _⟩
  | wasRead hp => exact ⟨fun h => h, fun _ => out rfl (fun h => by cases h), fun _ => same _⟩
  | peeked hp => exact ⟨fun h => h, fun _ => out rfl (fun h => by cases h), fun _ => same _⟩

/-- C32: once the codec is sealed and no goroutine is in a registration call past its check of the seal, no schedule
whatsoever changes the registrations, and no goroutine gets past the check.  Missing for the full statement:
registrations under way when Seal is called, see `C32_refuted`. -/
theorem C32_frozen_partial {s s' : LState} (hsealed : s.c.sealed = true) (hquiet : ∀ j, pastCheck (s.pc j) = false)
    (hs : LSteps Γ H s s') :
    SameRegistry s.c s'.c ∧ s'.c.sealed = true ∧ ∀ j, pastCheck (s'.pc j) = false := by
  induction hs with
  | refl => exact ⟨⟨rfl, rfl, rfl, rfl⟩, hsealed, hquiet⟩
  | @step s' s'' i _ h1 ih =>
    obtain ⟨⟨a, b, c, d⟩, h2, h3⟩ := ih
    obtain ⟨k1, k2, k3⟩ := step_sealed h1
    obtain ⟨a', b', c', d'⟩ := k3 (h3 i)
    refine ⟨⟨a'.trans a, b'.trans b, c'.trans c, d'.trans d⟩, k1 h2, fun j => ?_⟩
    cases hp : pastCheck (s''.pc j) with
    | false => rfl
    | true => rw [← h3 j]; exact (k2 h2 j hp).symm

/-- C32: a goroutine that was not past the check when the codec was sealed never gets past it, whatever the others
do: each of its registration calls can only panic. -/
theorem C32_goroutine_partial {s s' : LState} (hsealed : s.c.sealed = true) {j : Tid}
    (hj : pastCheck (s.pc j) = false) (hs : LSteps Γ H s s') : pastCheck (s'.pc j) = false := by
  have : s'.c.sealed = true ∧ pastCheck (s'.pc j) = false := by
    induction hs with
    | refl => exact ⟨hsealed, hj⟩
    | @step s' s'' i _ h1 ih =>
      obtain ⟨k1, k2, _⟩ := step_sealed h1
      refine ⟨k1 ih.1, ?_⟩
      cases hp : pastCheck (s''.pc j) with
      | false => rfl
      | true => rw [← ih.2]; exact (k2 ih.1 j hp).symm
  exact this.2

/-- C32 for calls one after the other: on a sealed codec a registration panics and changes nothing. -/
theorem C32_sequential_partial {c : Codec} (hs : c.sealed = true) (op : Op) (hop : (regTid op).isSome) :
    c.step Γ H op = (c, some .sealed) := by
  cases op with
  | iface id prio always => simp [Codec.step, registerInterface, hs]
  | conc t name => simp [Codec.step, registerConcrete, hs]
  | use id => simp [regTid] at hop
  | doSeal => simp [regTid] at hop

/-- A state of two goroutines. -/
def two (c : Codec) (o : Option Tid) (p q : PC) : LState :=
  { c := c, owner := o, pc := fun j => if j = 0 then p else if j = 1 then q else .idle }

theorem two_init : ({} : LState) = two {} none .idle .idle := by
  simp only [two, LState.mk.injEq, true_and]
  funext j; split <;> first | rfl | (split <;> rfl)

theorem two_goto0 (c : Codec) (o : Option Tid) (p q p' : PC) : (two c o p q).goto 0 p' = two c o p' q := by
  simp only [two, LState.goto, LState.mk.injEq, true_and]
  funext j; split <;> rfl

theorem two_goto1 (c : Codec) (o : Option Tid) (p q q' : PC) : (two c o p q).goto 1 q' = two c o p q' := by
  simp only [two, LState.goto, LState.mk.injEq, true_and]
  funext j
  by_cases h0 : j = 0
  · simp [h0]
  · by_cases h1 : j = 1
    · simp [h1]
    · simp [h0, h1]

theorem two_step0 {s : LState} {c' : Codec} {o' : Option Tid} {p p' q : PC}
    (h : LStep Γ H 0 s ((two c' o' p q).goto 0 p')) : LStep Γ H 0 s (two c' o' p' q) :=
  two_goto0 c' o' p q p' ▸ h

theorem two_step1 {s : LState} {c' : Codec} {o' : Option Tid} {p q q' : PC}
    (h : LStep Γ H 1 s ((two c' o' p q).goto 1 q')) : LStep Γ H 1 s (two c' o' p q') :=
  two_goto1 c' o' p q q' ▸ h

theorem two_free {c : Codec} {p q : PC} (hp : p.reader = false := by rfl) (hq : q.reader = false := by rfl) :
    (two c none p q).free := by
  refine ⟨rfl, fun j => ?_⟩
  simp only [two]
  split
  · exact hp
  · split
    · exact hq
    · rfl

/-- The hypotheses of `C32_frozen_partial` and `C57_sealed_partial` are met while a goroutine is waiting for the lock
to make its check. -/
example (op : Op) : let s := two (Codec.seal {}) none (.checkWait op) .idle
    s.c.sealed = true ∧ ∀ j, pastCheck (s.pc j) = false := by
  refine ⟨rfl, fun j => ?_⟩
  simp only [two]; split
  · rfl
  · split <;> rfl

/-- C32 does not hold for all schedules: goroutine 0 registers `Foo`, goroutine 1 seals the codec between the two
critical sections of the registration.  After Seal has returned, `Foo` appears in the registry. -/
theorem C32_refuted : ∃ s s' : LState, LSteps Demo.prog Demo.hash {} s ∧ s.c.sealed = true ∧ s.pc 1 = .idle ∧
    s.c.name? [102] = none ∧ LSteps Demo.prog Demo.hash s s' ∧ s'.c.name? [102] = some { Demo.foo with ptrPref := false }
    := by
  let op : Op := .conc (.base Demo.fooT) [102]
  have b : LSteps Demo.prog Demo.hash (two {} none .idle .idle) (two (Codec.seal {}) none (.build op) .idle) :=
    .step (.step (.step (.step (.step (.step .refl (s'' := two {} none (.checkWait op) .idle)
      (two_step0 (.callConc rfl)))
      (s'' := two {} (some 0) (.check op) .idle) (two_step0 (.lockCheck rfl two_free)))
      (s'' := two {} none (.build op) .idle) (two_step0 (.checked rfl rfl)))
      (s'' := two {} none (.build op) .sealWait) (two_step1 (.callSeal rfl)))
      (s'' := two {} (some 1) (.build op) .sealing) (two_step1 (.lockSeal rfl two_free)))
      (two_step1 (.sealed rfl))
  have e : LSteps Demo.prog Demo.hash (two (Codec.seal {}) none (.build op) .idle)
      (two ((Codec.seal {}).register Demo.prog Demo.hash op).1 none .idle .idle) :=
    .step (.step (.step .refl
      (s'' := two (Codec.seal {}) none (.regWait op) .idle) (two_step0 (.built rfl)))
      (s'' := two (Codec.seal {}) (some 0) (.reg op) .idle) (two_step0 (.lockReg rfl two_free)))
      (two_step0 (.registered rfl))
  exact ⟨_, _, two_init ▸ b, rfl, rfl, by decide +kernel, e, by decide +kernel⟩

/-! ## C34 -/

/-- C34: in every schedule, if no type that comes up has an untagged float field, the lock is held only by a goroutine
inside a critical section, which can leave it at once; so a goroutine waiting for the lock is never blocked for good,
however many panics were raised and recovered.  Missing for the full statement: types with an untagged float field, see
`C34_refuted`. -/
theorem C34_released_partial (hfl : ∀ id fs, Γ.shape id = .struct fs → fs.any Γ.badFloat = false) {s : LState}
    (hs : LSteps Γ H {} s) :
    (∀ i, s.owner = some i → (s.pc i).writer = true ∧ ∃ s', LStep Γ H i s s' ∧ s'.owner = none) ∧
    (∀ i p, s.pc i = .failed p → s.owner ≠ some i) := by
  have huse : ∀ (c : Codec) (id : TId), (useType Γ c id).2 = none := by
    intro c id
    unfold useType
    split
    · rfl
    · rename_i hn
      simp only [Bool.or_eq_true, not_or] at hn
      unfold getInfo
      split
      · rename_i p hp
        split at hp
        · rename_i hsh; exact absurd (by simp [Prog.isIface, hsh]) hn.2
        · rename_i fs hsh; simp [hfl id fs hsh] at hp
        · cases hp
      · rfl
  have hown : ∀ {s : LState}, LSteps Γ H {} s → ∀ i, s.owner = some i → (s.pc i).writer = true := by
    intro s hs
    have hgoto : ∀ {s : LState} {i : Tid} {p : PC}, (∀ j, s.owner = some j → (s.pc j).writer = true) →
        (s.pc i).writer = false → ∀ j, (s.goto i p).owner = some j → ((s.goto i p).pc j).writer = true := by
      intro s i p ih hi j hj
      rw [goto_owner] at hj
      rw [goto_pc]
      split
      · rename_i he; rw [he] at hj; rw [ih i hj] at hi; cases hi
      · exact ih j hj
    induction hs with
    | refl => intro i hi; cases hi
    | @step s s' i _ h1 ih =>
      cases h1 with
      | callIface hp => exact hgoto ih (by rw [hp]; rfl)
      | callConc hp => exact hgoto ih (by rw [hp]; rfl)
      | callUse hp => exact hgoto ih (by rw [hp]; rfl)
      | callSeal hp => exact hgoto ih (by rw [hp]; rfl)
      | callRead hp => exact hgoto ih (by rw [hp]; rfl)
      | callPeek hp => exact hgoto ih (by rw [hp]; rfl)
      | recovered hp => exact hgoto ih (by rw [hp]; rfl)
      | lockCheck hp hf => intro j hj; cases hj; simp [PC.writer]
      | checked hp hc => intro j hj; cases hj
      | checkedSealed hp hc => intro j hj; cases hj
      | built hp => exact hgoto ih (by rw [hp]; rfl)
      | lockReg hp hf => intro j hj; cases hj; simp [PC.writer]
      | registered hp => intro j hj; cases hj
      | lockUse hp hf => intro j hj; cases hj; simp [PC.writer]
      | used hp hn => intro j hj; cases hj
      | usedPanic hp hn => rw [huse] at hn; cases hn
      | lockSeal hp hf => intro j hj; cases hj; simp [PC.writer]
      | sealed hp => intro j hj; cases hj
      | lockRead hp hf => exact hgoto ih (by rw [hp]; rfl)
      | wasRead hp => exact hgoto ih (by rw [hp]; rfl)
      | peeked hp => exact hgoto ih (by rw [hp]; rfl)
  refine ⟨fun i hi => ?_, fun i p hp hi => ?_⟩
  · have hw := hown hs i hi
    refine ⟨hw, ?_⟩
    cases hp : s.pc i with
    | check op =>
      cases hc : s.c.sealed with
      | false => exact ⟨_, .checked hp hc, rfl⟩
      | true => exact ⟨_, .checkedSealed hp hc, rfl⟩
    | reg op => exact ⟨_, .registered hp, rfl⟩
    | use id => exact ⟨_, .used hp (huse _ _), rfl⟩
    | sealing => exact ⟨_, .sealed hp, rfl⟩
    | _ => rw [hp] at hw; cases hw
  · have hw := hown hs i hi
    rw [hp] at hw; cases hw

/-- A state in which the lock is held by nobody who could give it back. -/
def Spec.Wedged (s : LState) : Prop := (∃ i, s.owner = some i) ∧ ∀ j, (s.pc j).writer = false

/-- A wedged codec stays wedged and unchanged in every schedule: no call on it that needs the write lock ever gets
it. -/
theorem wedged_forever {s s' : LState} (h : Wedged s) (hs : LSteps Γ H s s') : Wedged s' ∧ s'.c = s.c := by
  induction hs with
  | refl => exact ⟨h, rfl⟩
  | @step s' s'' i _ h1 ih =>
    obtain ⟨⟨⟨o, ho⟩, hw⟩, hc⟩ := ih
    have hgoto : ∀ {p : PC}, p.writer = false → Wedged (s'.goto i p) ∧ (s'.goto i p).c = s.c := by
      intro p hp
      refine ⟨⟨⟨o, ho⟩, fun j => ?_⟩, hc⟩
      rw [goto_pc]; split
      · exact hp
      · exact hw j
    have hwi := hw i
    cases h1 with
    | callIface hp => exact hgoto rfl
    | callConc hp => exact hgoto rfl
    | callUse hp => exact hgoto rfl
    | callSeal hp => exact hgoto rfl
    | callRead hp => exact hgoto rfl
    | callPeek hp => exact hgoto rfl
    | recovered hp => exact hgoto rfl
    | lockCheck hp hf => rw [hf.1] at ho; cases ho
    | checked hp hc => rw [hp] at hwi; cases hwi
    | checkedSealed hp hc => rw [hp] at hwi; cases hwi
    | built hp => exact hgoto rfl
    | lockReg hp hf => rw [hf.1] at ho; cases ho
    | registered hp => rw [hp] at hwi; cases hwi
    | lockUse hp hf => rw [hf.1] at ho; cases ho
    | used hp hn => rw [hp] at hwi; cases hwi
    | usedPanic hp hn => rw [hp] at hwi; cases hwi
    | lockSeal hp hf => rw [hf.1] at ho; cases ho
    | sealed hp => rw [hp] at hwi; cases hwi
    | lockRead hp hf => rw [hf] at ho; cases ho
    | wasRead hp => exact hgoto rfl
    | peeked hp => exact hgoto rfl

/-- `struct { F float64 }` as type 26. -/
def Demo.progFloat : Prog :=
  { Demo.prog with
    shape := fun id => if id = 26 then .struct [{ ty := .base 27 }] else if id = 27 then .float64 else Demo.shape id }

/-- C34 does not hold: a goroutine that marshals a `struct { F float64 }` panics; after the panic is recovered, no
goroutine ever gets the lock again in any schedule. -/
theorem C34_refuted : ∃ s : LState, LSteps Demo.progFloat Demo.hash {} s ∧ (∀ j, s.pc j = .idle) ∧
    ∀ s', LSteps Demo.progFloat Demo.hash s s' → (∀ j, (s'.pc j).writer = false) ∧ ¬ s'.free := by
  have hpan : (useType Demo.progFloat {} 26).2 = some .unsafeFloat := by decide +kernel
  let c' := (useType Demo.progFloat {} 26).1
  have hu : LStep Demo.progFloat Demo.hash 0 (two {} (some 0) (.use 26) .idle)
      ((two c' (some 0) (.use 26) .idle).goto 0 (.failed .unsafeFloat)) := .usedPanic (id := 26) rfl hpan
  have b : LSteps Demo.progFloat Demo.hash (two {} none .idle .idle) (two c' (some 0) .idle .idle) :=
    .step (.step (.step (.step .refl
      (s'' := two {} none (.useWait 26) .idle) (two_step0 (.callUse rfl)))
      (s'' := two {} (some 0) (.use 26) .idle) (two_step0 (.lockUse rfl two_free)))
      (s'' := two c' (some 0) (.failed .unsafeFloat) .idle) (two_step0 hu))
      (two_step0 (.recovered rfl))
  refine ⟨_, two_init ▸ b, ?_, ?_⟩
  · intro j; simp only [two]; split
    · rfl
    · split <;> rfl
  · intro s' hs'
    have hw : Wedged (two c' (some 0) .idle .idle) := ⟨⟨0, rfl⟩, fun j => by
      simp only [two]; split
      · rfl
      · split <;> rfl⟩
    obtain ⟨⟨⟨o, ho⟩, h2⟩, _⟩ := wedged_forever hw hs'
    exact ⟨h2, fun hf => by rw [hf.1] at ho; cases ho⟩

example : ∀ id fs, Demo.prog.shape id = .struct fs → fs.any Demo.prog.badFloat = false := by
  intro id fs h
  match id with
  | 0 | 1 | 2 | 3 | 6 | 7 | 10 | 11 | 13 | 14 | 15 | 16 | 19 | 21 | 22 | 23 | 24 =>
    simp [Demo.prog, Demo.shape] at h
  | 4 | 5 | 8 | 9 | 12 | 17 | 18 | 20 | 25 =>
    simp only [Demo.prog, Demo.shape, Shape.struct.injEq] at h
    subst h; decide
  | n + 26 => simp [Demo.prog, Demo.shape] at h

/-! ## C57 -/

/-- C57: in every schedule, the implementers of an interface are never written while another goroutine reads or writes
them, except for the unlocked read when an interface value is encoded.  Missing for the full statement: that read,
see `C57_refuted`. -/
theorem C57_race_partial {s : LState} (hs : LSteps Γ H {} s) {i j : Tid} (hij : i ≠ j)
    (hi : writesImpls (s.pc i) = true) (hj : touchesImpls (s.pc j) = true) : s.pc j = .peek := by
  have h := LockInv.init.steps hs
  have hw : (s.pc i).writer = true := by
    cases hp : s.pc i with
    | reg op => rfl
    | _ => rw [hp] at hi; cases hi
  have ho := h.writer i hw
  cases hp : s.pc j with
  | reg op =>
    have := h.writer j (by rw [hp]; rfl)
    rw [ho] at this; cases this; exact absurd rfl hij
  | read =>
    have := h.reader j (by rw [hp]; rfl)
    rw [ho] at this; cases this
  | peek => rfl
  | _ => rw [hp] at hj; cases hj

/-- C57: once the codec is sealed and no registration is under way, there is no race in any schedule. -/
theorem C57_sealed_partial {s s' : LState} (hsealed : s.c.sealed = true) (hquiet : ∀ j, pastCheck (s.pc j) = false)
    (hs : LSteps Γ H s s') : ¬ Race s' := by
  rintro ⟨i, j, _, hi, _⟩
  have h := (C32_frozen_partial hsealed hquiet hs).2.2 i
  cases hp : s'.pc i with
  | reg op => rw [hp] at h; cases h
  | _ => rw [hp] at hi; cases hi

/-- C57 does not hold: goroutine 1 encodes an interface value while goroutine 0 registers a type. -/
theorem C57_refuted : ∃ s : LState, LSteps Demo.prog Demo.hash {} s ∧ Race s := by
  let op : Op := .conc (.base Demo.fooT) [102]
  have b : LSteps Demo.prog Demo.hash (two {} none .idle .idle) (two {} (some 0) (.reg op) .peek) :=
    .step (.step (.step (.step (.step (.step .refl
      (s'' := two {} none (.checkWait op) .idle) (two_step0 (.callConc rfl)))
      (s'' := two {} (some 0) (.check op) .idle) (two_step0 (.lockCheck rfl two_free)))
      (s'' := two {} none (.build op) .idle) (two_step0 (.checked rfl rfl)))
      (s'' := two {} none (.regWait op) .idle) (two_step0 (.built rfl)))
      (s'' := two {} (some 0) (.reg op) .idle) (two_step0 (.lockReg rfl two_free)))
      (two_step1 (.callPeek rfl))
  exact ⟨_, two_init ▸ b, 0, 1, by decide, rfl, rfl⟩

end Amino
