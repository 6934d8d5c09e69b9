import Verif.LockPref
import Verif.PropsLock

/-!
# C84: every call returns

For every schedule and every number of goroutines, with Go's preference for writers.
-/

namespace Amino

variable {Γ : Prog} {H : Bytes → Bytes}

/-! ## Specification -/

namespace Spec

/-- Not inside a call on the codec. -/
def quiet : PC → Bool
  | .idle | .failed _ => true
  | _ => false

/-- A step of a goroutine inside a call. -/
def Internal (Γ : Prog) (H : Bytes → Bytes) (i : Tid) (s s' : WState) : Prop := WStep Γ H i s s' ∧ quiet (s.l.pc i) = false

/-- `n` steps inside calls: no new calls are made. -/
inductive Run (Γ : Prog) (H : Bytes → Bytes) : Nat → WState → WState → Prop
  | refl {s} : Run Γ H 0 s s
  | step {n s s' s'' i} : Run Γ H n s s' → Internal Γ H i s' s'' → Run Γ H (n + 1) s s''

/-- No type has an untagged float field; otherwise a panic may leave the lock locked (C34). -/
def NoFloats (Γ : Prog) : Prop := ∀ id fs, Γ.shape id = .struct fs → fs.any Γ.badFloat = false

end Spec
open Spec

/-! ## Refinement of `Lock` -/

theorem LSteps.trans {s s' s'' : LState} (h : LSteps Γ H s s') (h' : LSteps Γ H s' s'') : LSteps Γ H s s'' := by
  induction h' with
  | refl => exact h
  | step _ h1 ih => exact ih.step h1

/-- C84: schedules with preference are schedules of `Lock`, so what holds for all of these (C32, C34, C57) holds. -/
theorem C84_refines {s s' : WState} (h : WSteps Γ H s s') : LSteps Γ H s.l s'.l := by
  induction h with
  | refl => exact .refl
  | step _ h1 ih =>
    cases h1 with
    | announce _ _ => exact ih
    | step h2 _ _ => exact ih.step h2

/-! ## Invariants -/

theorem lstep_pc {i j : Tid} {s s' : LState} (h : LStep Γ H i s s') (hj : j ≠ i) : s'.pc j = s.pc j := by
  cases h <;> simp [LState.leave, hj]

theorem lstep_owner {i : Tid} {s s' : LState} (h : LStep Γ H i s s') :
    (s'.owner = s.owner ∧ (s.pc i).waitsW = false) ∨
    ((s.pc i).waitsW = true ∧ s.free ∧ s'.owner = some i ∧ (s'.pc i).writer = true) ∨
    ((s.pc i).writer = true ∧ s'.owner = none) := by
  cases h with
  | lockCheck hp hf | lockReg hp hf | lockUse hp hf | lockSeal hp hf =>
    exact .inr (.inl ⟨by rw [hp]; rfl, hf, rfl, by simp [PC.writer]⟩)
  | checked hp | checkedSealed hp | registered hp | used hp | sealed hp =>
    exact .inr (.inr ⟨by rw [hp]; rfl, rfl⟩)
  | callIface hp | callConc hp | callUse hp | callSeal hp | callRead hp | callPeek hp | recovered hp | built hp | usedPanic hp
    | lockRead hp | wasRead hp | peeked hp => exact .inl ⟨rfl, by rw [hp]; rfl⟩

structure WInv (s : WState) : Prop where
  lock : LockInv s.l
  owner : ∀ i, s.l.owner = some i → s.w = some i
  held : ∀ i, s.w = some i → (s.l.pc i).waitsW = true ∨ s.l.owner = some i

theorem WInv.init : WInv {} := ⟨.init, fun _ h => (by cases h), fun _ h => (by cases h)⟩

theorem WInv.step {i : Tid} {s s' : WState} (h : WInv s) (hs : WStep Γ H i s s') : WInv s' := by
  cases hs with
  | announce hw hn =>
    refine ⟨h.lock, fun j hj => ?_, fun j hj => ?_⟩
    · rw [h.owner j hj] at hn; cases hn
    · cases hj; exact .inl hw
  | @step l' hl h1 h2 =>
    refine ⟨h.lock.step hl, fun j hj => ?_, fun j hj => ?_⟩
    · simp only at hj ⊢
      rw [if_neg (by rw [hj]; simp)]
      rcases lstep_owner hl with ⟨ho, _⟩ | ⟨hw, _, ho, _⟩ | ⟨_, ho⟩
      · rw [ho] at hj; exact h.owner j hj
      · rw [hj] at ho; cases ho; exact h1 hw
      · rw [hj] at ho; cases ho
    · simp only at hj ⊢
      split at hj
      · cases hj
      rename_i hn
      rcases lstep_owner hl with ⟨ho, hw⟩ | ⟨hw, _, ho, _⟩ | ⟨hw, ho⟩
      · rcases h.held j hj with hp | hp
        · by_cases hji : j = i
          · subst hji; rw [hw] at hp; cases hp
          · rw [lstep_pc hl hji]; exact .inl hp
        · rw [ho]; exact .inr hp
      · have := h1 hw
        rw [hj] at this
        cases this
        exact .inr ho
      · exact absurd ⟨hw, ho⟩ hn

theorem WInv.steps {s s' : WState} (h : WInv s) (hs : WSteps Γ H s s') : WInv s' := by
  induction hs with
  | refl => exact h
  | step _ h1 ih => exact ih.step h1

theorem run_steps {n : Nat} {s s' : WState} (h : Run Γ H n s s') : WSteps Γ H s s' := by
  induction h with
  | refl => exact .refl
  | step _ h1 ih => exact ih.step h1.1

theorem WSteps.trans {s s' s'' : WState} (h : WSteps Γ H s s') (h' : WSteps Γ H s' s'') : WSteps Γ H s s'' := by
  induction h' with
  | refl => exact h
  | step _ h1 ih => exact ih.step h1

/-! ## Progress -/

/-- C84: the lock is not held by a goroutine that is not going to release it. -/
def Alive (s : WState) : Prop := ∀ i, s.l.owner = some i → (s.l.pc i).writer = true

theorem progress {s : WState} (h : WInv s) (ha : Alive s) {j : Tid} (hj : quiet (s.l.pc j) = false) :
    ∃ i s', Internal Γ H i s s' := by
  have mk : ∀ {i : Tid} {l' : LState}, LStep Γ H i s.l l' → ((s.l.pc i).waitsW = true → s.w = some i) →
      (s.l.pc i = .readWait → s.w = none) → quiet (s.l.pc i) = false → ∃ i s', Internal Γ H i s s' :=
    fun h1 h2 h3 h4 => ⟨_, _, .step h1 h2 h3, h4⟩
  cases ho : s.l.owner with
  | some i =>
    have hw := ha i ho
    cases hp : s.l.pc i with
    | check op =>
      cases hc : s.l.c.sealed with
      | false => exact mk (.checked hp hc) (by rw [hp]; nofun) (by rw [hp]; nofun) (by rw [hp]; rfl)
      | true => exact mk (.checkedSealed hp hc) (by rw [hp]; nofun) (by rw [hp]; nofun) (by rw [hp]; rfl)
    | reg op => exact mk (.registered hp) (by rw [hp]; nofun) (by rw [hp]; nofun) (by rw [hp]; rfl)
    | use id =>
      cases hu : (useType Γ s.l.c id).2 with
      | none => exact mk (.used hp hu) (by rw [hp]; nofun) (by rw [hp]; nofun) (by rw [hp]; rfl)
      | some p => exact mk (.usedPanic hp hu) (by rw [hp]; nofun) (by rw [hp]; nofun) (by rw [hp]; rfl)
    | sealing => exact mk (.sealed hp) (by rw [hp]; nofun) (by rw [hp]; nofun) (by rw [hp]; rfl)
    | _ => rw [hp] at hw; cases hw
  | none =>
    by_cases hr : ∃ r, (s.l.pc r).reader = true
    · obtain ⟨r, hr⟩ := hr
      have hp : s.l.pc r = .read := by
        cases hp : s.l.pc r with
        | read => rfl
        | _ => rw [hp] at hr; cases hr
      exact mk (.wasRead hp) (by rw [hp]; nofun) (by rw [hp]; nofun) (by rw [hp]; rfl)
    have hf : s.l.free := ⟨ho, fun r => by simpa using fun h => hr ⟨r, h⟩⟩
    have lock : ∀ k, (s.l.pc k).waitsW = true → s.w = some k → ∃ i s', Internal Γ H i s s' := by
      intro k hk hw
      cases hp : s.l.pc k with
      | checkWait op => exact mk (.lockCheck hp hf) (fun _ => hw) (by rw [hp]; nofun) (by rw [hp]; rfl)
      | regWait op => exact mk (.lockReg hp hf) (fun _ => hw) (by rw [hp]; nofun) (by rw [hp]; rfl)
      | useWait id => exact mk (.lockUse hp hf) (fun _ => hw) (by rw [hp]; nofun) (by rw [hp]; rfl)
      | sealWait => exact mk (.lockSeal hp hf) (fun _ => hw) (by rw [hp]; nofun) (by rw [hp]; rfl)
      | _ => rw [hp] at hk; cases hk
    cases hw : s.w with
    | some k =>
      rcases h.held k hw with hk | hk
      · exact lock k hk hw
      · rw [ho] at hk; cases hk
    | none =>
      cases hp : s.l.pc j with
      | idle | failed _ => rw [hp] at hj; cases hj
      | checkWait _ | regWait _ | useWait _ | sealWait =>
        exact ⟨j, _, .announce (by rw [hp]; rfl) hw, hj⟩
      | check _ | reg _ | use _ | sealing =>
        have := h.lock.writer j (by rw [hp]; rfl)
        rw [ho] at this; cases this
      | build op => exact mk (.built hp) (by rw [hp]; nofun) (by rw [hp]; nofun) hj
      | readWait => exact mk (.lockRead hp ho) (by rw [hp]; nofun) (fun _ => hw) hj
      | read => exact absurd ⟨j, by rw [hp]; rfl⟩ hr
      | peek => exact mk (.peeked hp) (by rw [hp]; nofun) (by rw [hp]; nofun) hj

/-! ## Termination -/

/-- Steps left until the call returns. -/
def rank : PC → Nat
  | .idle | .failed _ => 0
  | .read | .peek | .reg _ | .use _ | .sealing => 1
  | .readWait => 2
  | .regWait _ | .useWait _ | .sealWait => 3
  | .build _ => 4
  | .check _ => 5
  | .checkWait _ => 7

/-- The announcement is one of them. -/
def cost (s : WState) (j : Tid) : Nat := rank (s.l.pc j) - if s.w = some j ∧ (s.l.pc j).waitsW = true then 1 else 0

theorem rank_step {i : Tid} {s s' : LState} (h : LStep Γ H i s s') (hq : quiet (s.pc i) = false) :
    rank (s'.pc i) + (if (s.pc i).waitsW = true then 2 else 1) ≤ rank (s.pc i) := by
  cases h with
  | callIface hp | callConc hp | callUse hp | callSeal hp | callRead hp | callPeek hp | recovered hp => rw [hp] at hq; cases hq
  | checkedSealed hp | sealed hp => simp [LState.leave, hp, rank, PC.waitsW]
  | used hp hu => simp [LState.leave, hp, hu, rank, PC.waitsW]
  | @registered op hp =>
    cases hu : (Codec.register Γ H s.c op).2 <;> simp [LState.leave, hp, hu, rank, PC.waitsW]
  | lockCheck hp | lockReg hp | lockUse hp | lockSeal hp | checked hp | built hp | usedPanic hp
    | lockRead hp | wasRead hp | peeked hp =>
    simp [hp, rank, PC.waitsW]

theorem cost_le (s : WState) (j : Tid) : cost s j ≤ rank (s.l.pc j) := Nat.sub_le _ _

theorem rank_le (p : PC) : rank p ≤ 7 := by cases p <;> simp [rank]

theorem cost_step {i : Tid} {s s' : WState} (h : WInv s) (hs : Internal Γ H i s s') :
    cost s' i + 1 ≤ cost s i ∧ ∀ j, j ≠ i → cost s' j = cost s j := by
  obtain ⟨hs, hq⟩ := hs
  cases hs with
  | announce hw hn =>
    refine ⟨?_, fun j hj => ?_⟩
    · unfold cost
      simp only [hw, hn, and_true, if_true, reduceCtorEq, if_false]
      cases hp : s.l.pc i <;> simp_all [rank, PC.waitsW]
    · unfold cost
      simp only [hn, reduceCtorEq, false_and, if_false]
      rw [if_neg]
      rintro ⟨h1, _⟩
      exact hj (Option.some.inj h1).symm
  | @step l' hl h1 h2 =>
    have hr := rank_step hl hq
    refine ⟨?_, fun j hj => ?_⟩
    · have hc := cost_le { l := l', w := if (s.l.pc i).writer = true ∧ l'.owner = none then none else s.w } i
      have : rank (s.l.pc i) ≤ cost s i + (if (s.l.pc i).waitsW = true then 1 else 0) := by
        unfold cost
        split <;> split <;> simp_all
        omega
      simp only at hc
      split at hr <;> split at this <;> simp_all
      all_goals omega
    · unfold cost
      simp only [lstep_pc hl hj]
      split
      · rename_i hn
        have hw := h.owner i (h.lock.writer i hn.1)
        rw [hw]
        simp [Ne.symm hj]
      · rfl

theorem sum_step {f g : Tid → Nat} {i : Tid} (hi : f i + 1 ≤ g i) (ho : ∀ j, j ≠ i → f j = g j) {ts : List Tid}
    (hn : ts.Nodup) (hm : i ∈ ts) : (ts.map f).sum + 1 ≤ (ts.map g).sum := by
  have same : ∀ {l : List Tid}, i ∉ l → (l.map f).sum = (l.map g).sum := by
    intro l hl
    induction l with
    | nil => rfl
    | cons a l ih =>
      simp only [List.map_cons, List.sum_cons]
      rw [ih fun h => hl (.tail _ h), ho a fun h => hl (h ▸ .head _)]
  induction ts with
  | nil => cases hm
  | cons a l ih =>
    simp only [List.map_cons, List.sum_cons]
    rw [List.nodup_cons] at hn
    by_cases ha : a = i
    · subst ha; rw [same hn.1]; omega
    · have := ih hn.2 ((List.mem_cons.1 hm).resolve_left fun h => ha h.symm)
      rw [ho a ha]; omega

/-- The goroutines inside calls are among `ts`. -/
def Among (ts : List Tid) (s : WState) : Prop := ∀ j, j ∉ ts → quiet (s.l.pc j) = true

theorem among_step {ts : List Tid} {i : Tid} {s s' : WState} (h : Among ts s) (hs : Internal Γ H i s s') : Among ts s' ∧ i ∈ ts := by
  have hi : i ∈ ts := Classical.byContradiction fun hn => by have h2 := hs.2; rw [h i hn] at h2; cases h2
  refine ⟨fun j hj => ?_, hi⟩
  have hne : j ≠ i := fun e => hj (e ▸ hi)
  have := h j hj
  cases hs.1 with
  | announce _ _ => exact this
  | step hl _ _ => rw [lstep_pc hl hne]; exact this

theorem run_bound {ts : List Tid} (hn : ts.Nodup) {n : Nat} {s s' : WState} (h : WInv s) (ha : Among ts s) (hr : Run Γ H n s s') :
    WInv s' ∧ Among ts s' ∧ n + (ts.map (cost s')).sum ≤ (ts.map (cost s)).sum := by
  induction hr with
  | refl => exact ⟨h, ha, by omega⟩
  | step _ h1 ih =>
    obtain ⟨k1, k2, k3⟩ := ih h ha
    obtain ⟨m1, m2⟩ := among_step k2 h1
    obtain ⟨c1, c2⟩ := cost_step k1 h1
    have := sum_step c1 c2 hn m2
    exact ⟨k1.step h1.1, m1, by omega⟩

theorem sum_le {f : Tid → Nat} {b : Nat} (h : ∀ j, f j ≤ b) (ts : List Tid) : (ts.map f).sum ≤ b * ts.length := by
  induction ts with
  | nil => simp
  | cons a l ih =>
    simp only [List.map_cons, List.sum_cons, List.length_cons, Nat.mul_add, Nat.mul_one]
    have := h a
    omega

/-- Only finitely many goroutines are inside calls. -/
theorem reach_among {s : WState} (hs : WSteps Γ H {} s) : ∃ ts : List Tid, ts.Nodup ∧ Among ts s := by
  induction hs with
  | refl => exact ⟨[], .nil, fun _ _ => rfl⟩
  | @step s s' i _ h1 ih =>
    obtain ⟨ts, hn, ha⟩ := ih
    have key : ∀ j, j ≠ i → s'.l.pc j = s.l.pc j := by
      intro j hj
      cases h1 with
      | announce _ _ => rfl
      | step hl _ _ => exact lstep_pc hl hj
    by_cases hi : i ∈ ts
    · exact ⟨ts, hn, fun j hj => by rw [key j fun e => hj (e ▸ hi)]; exact ha j hj⟩
    · refine ⟨i :: ts, List.nodup_cons.2 ⟨hi, hn⟩, fun j hj => ?_⟩
      rw [List.mem_cons, not_or] at hj
      rw [key j hj.1]
      exact ha j hj.2

/-! ## C84 -/

/-- C84: without new calls, at most 7 steps per goroutine inside a call can be made, in whatever order. -/
theorem C84_terminates {s : WState} (hs : WSteps Γ H {} s) {ts : List Tid} (hn : ts.Nodup)
    (ha : ∀ j, j ∉ ts → quiet (s.l.pc j) = true) {n : Nat} {s' : WState} (hr : Run Γ H n s s') : n ≤ 7 * ts.length := by
  have := (run_bound hn (WInv.init.steps hs) ha hr).2.2
  have h2 := sum_le (f := cost s) (fun j => Nat.le_trans (cost_le s j) (rank_le _)) ts
  omega

/-- C84 (partial): there is no deadlock.  As long as a goroutine is inside a call, one of those inside calls can make a
step; this needs that no type has an untagged float field. -/
theorem C84_no_deadlock_partial (hfl : NoFloats Γ) {s : WState} (hs : WSteps Γ H {} s) {j : Tid}
    (hj : quiet (s.l.pc j) = false) : ∃ i s', Internal Γ H i s s' :=
  progress (WInv.init.steps hs) (fun i hi => ((C34_released_partial hfl (C84_refines hs)).1 i hi).1) hj

/-- C84 (partial): so all calls return, whatever the schedule: from every reachable state, if no new calls are made, there
is a bound on the number of steps, and when no step is possible, no goroutine is inside a call. -/
theorem C84_returns_partial (hfl : NoFloats Γ) {s : WState} (hs : WSteps Γ H {} s) :
    ∃ N, ∀ n s', Run Γ H n s s' → n ≤ N ∧ ((∀ i s'', ¬ Internal Γ H i s' s'') → ∀ j, quiet (s'.l.pc j) = true) := by
  obtain ⟨ts, hn, ha⟩ := reach_among hs
  refine ⟨7 * ts.length, fun n s' hr => ⟨C84_terminates hs hn ha hr, fun hstuck j => ?_⟩⟩
  cases hq : quiet (s'.l.pc j) with
  | true => rfl
  | false =>
    obtain ⟨i, s'', hi⟩ := C84_no_deadlock_partial hfl (hs.trans (run_steps hr)) hq
    exact absurd hi (hstuck i s'')

theorem wstep {i : Tid} {c : Codec} {o : Option Tid} {p q : PC} {l' : LState} (h : LStep Γ H i (two c o p q) l')
    (h1 : ((two c o p q).pc i).waitsW = false := by rfl) (h2 : ((two c o p q).pc i).writer = false := by rfl) :
    WStep Γ H i ⟨two c o p q, none⟩ ⟨l', none⟩ := by
  have := WStep.step (s := ⟨two c o p q, none⟩) h (by rw [h1]; nofun) (fun _ => rfl)
  rwa [if_neg (by simp [h2])] at this

/-- Goroutine 0 has announced itself and goroutine 1 wants to read: it has to wait, and goroutine 0 finishes in two steps.  The
state is reachable. -/
example : WSteps Demo.prog Demo.hash {} ⟨two {} none .sealWait .readWait, some 0⟩ ∧
    (∀ s', WStep Demo.prog Demo.hash 1 ⟨two {} none .sealWait .readWait, some 0⟩ s' → False) ∧
    Run Demo.prog Demo.hash 2 ⟨two {} none .sealWait .readWait, some 0⟩ ⟨two (Codec.seal {}) none .idle .readWait, none⟩ := by
  refine ⟨?_, fun s' h => ?_, ?_⟩
  · have a1 : WStep Demo.prog Demo.hash 0 ⟨two {} none .idle .idle, none⟩ ⟨two {} none .sealWait .idle, none⟩ :=
      wstep (two_step0 (.callSeal rfl))
    have a2 : WStep Demo.prog Demo.hash 1 ⟨two {} none .sealWait .idle, none⟩ ⟨two {} none .sealWait .readWait, none⟩ :=
      wstep (two_step1 (.callRead rfl))
    have e : ({} : WState) = ⟨two {} none .idle .idle, none⟩ := by rw [← two_init]
    exact e ▸ .step (.step (.step .refl a1) a2) (.announce rfl rfl)
  · cases h with
    | announce h _ => cases h
    | step hl _ h2 => cases h2 rfl
  · have a1 := WStep.step (s := ⟨two {} none .sealWait .readWait, some 0⟩) (l' := two {} (some 0) .sealing .readWait)
      (Γ := Demo.prog) (H := Demo.hash) (i := 0) (two_step0 (.lockSeal rfl two_free)) (fun _ => rfl) nofun
    have a2 := WStep.step (s := ⟨two {} (some 0) .sealing .readWait, some 0⟩) (l' := two (Codec.seal {}) none .idle .readWait)
      (Γ := Demo.prog) (H := Demo.hash) (i := 0) (two_step0 (.sealed rfl)) nofun nofun
    exact .step (.step .refl ⟨a1, rfl⟩) ⟨a2, rfl⟩

/-! ### Writers that use the codec -/

theorem nstep_stuck {id : TId} {i : Tid} {n n' : NState} (hs : NStep Γ H i n n') (hb : n.below 0 = true)
    (hp : n.s.l.pc 0 = .useWait id) (hw : ∀ j, (n.s.l.pc j).writer = false) :
    n'.below 0 = true ∧ n'.s.l.pc 0 = .useWait id ∧ ∀ j, (n'.s.l.pc j).writer = false := by
  cases hs with
  | @step s' h1 h2 =>
    have hnw : (n.s.l.pc i).waitsW = true → (s'.l.pc i).writer = false := by
      intro h
      cases hq : (s'.l.pc i).writer with
      | false => rfl
      | true => have := h2 h hq 0; rw [hb] at this; cases this
    cases h1 with
    | announce _ _ => exact ⟨hb, hp, hw⟩
    | step hl _ _ =>
      refine ⟨hb, ?_, fun j => ?_⟩
      · by_cases hi : (0 : Tid) = i
        · subst hi
          cases hl with
          | lockUse h _ => have := hnw (by rw [hp]; rfl); simp [PC.writer] at this
          | _ => simp_all
        · exact (lstep_pc hl hi).trans hp
      · by_cases hj : j = i
        · subst hj
          have hwj := hw j
          cases hl with
          | callIface h | callConc h | callUse h | callSeal h | callRead h | callPeek h | recovered h | built h | lockRead h
            | wasRead h | peeked h => simp [PC.writer]
          | lockCheck h | lockReg h | lockUse h | lockSeal h => exact hnw (by rw [h]; rfl)
          | checked h | checkedSealed h | registered h | used h | usedPanic h | sealed h => rw [h] at hwj; cases hwj
        · exact (congrArg PC.writer (lstep_pc hl hj)).trans (hw j)
  | write h1 h2 =>
    have hi : (0 : Tid) ≠ i := by rintro rfl; rw [hp] at h1; cases h1
    refine ⟨by simp [hi, hb], by simp [hi, hp], fun j => ?_⟩
    by_cases hj : j = i
    · simp [hj, PC.writer]
    · simp [hj, hw j]
  | written h1 h2 =>
    have hi : (0 : Tid) ≠ i := by rintro rfl; rw [hp] at h1; cases h1
    refine ⟨by simp [hi, hb], by simp [hi, hp], fun j => ?_⟩
    by_cases hj : j = i
    · simp [hj, PC.writer]
    · simp [hj, hw j]

/-- C84 does not hold for PrintTypes: it writes while it holds the read lock.  If the `Write` method of the writer uses the
codec, that is, marshals something, this call never returns, and no other goroutine ever gets the lock for writing. -/
theorem C84_printTypes_refuted (id : TId) : ∃ n, NSteps Γ H {} n ∧ n.s.l.pc 0 = .useWait id ∧
    ∀ n', NSteps Γ H n n' → n'.s.l.pc 0 = .useWait id ∧ ∀ j, (n'.s.l.pc j).writer = false := by
  have a1 : NStep Γ H 0 ⟨⟨two {} none .idle .idle, none⟩, fun _ => false⟩ ⟨⟨two {} none .readWait .idle, none⟩, fun _ => false⟩ :=
    .step (wstep (two_step0 (.callRead rfl))) nofun
  have a2 : NStep Γ H 0 ⟨⟨two {} none .readWait .idle, none⟩, fun _ => false⟩ ⟨⟨two {} none .read .idle, none⟩, fun _ => false⟩ :=
    .step (wstep (two_step0 (.lockRead rfl rfl))) nofun
  have a3 : NStep Γ H 0 ⟨⟨two {} none .read .idle, none⟩, fun _ => false⟩
      ⟨⟨two {} none .idle .idle, none⟩, fun j => if j = 0 then true else false⟩ :=
    two_goto0 {} none .read .idle .idle ▸ .write rfl rfl
  have a4 : NStep Γ H 0 ⟨⟨two {} none .idle .idle, none⟩, fun j => if j = 0 then true else false⟩
      ⟨⟨two {} none (.useWait id) .idle, none⟩, fun j => if j = 0 then true else false⟩ :=
    .step (wstep (two_step0 (.callUse rfl))) nofun
  have e : ({} : NState) = ⟨⟨two {} none .idle .idle, none⟩, fun _ => false⟩ := by
    rw [← two_init]
  have hr : NSteps Γ H {} ⟨⟨two {} none (.useWait id) .idle, none⟩, fun j => if j = 0 then true else false⟩ :=
    e ▸ .step (.step (.step (.step .refl a1) a2) a3) a4
  refine ⟨_, hr, rfl, fun n' hn => ?_⟩
  suffices h : n'.below 0 = true ∧ n'.s.l.pc 0 = .useWait id ∧ ∀ j, (n'.s.l.pc j).writer = false from h.2
  generalize hm : NState.mk _ _ = m at hn
  induction hn with
  | refl =>
    subst hm
    refine ⟨rfl, rfl, fun j => ?_⟩
    by_cases hj : j = 0 <;> simp [two, hj, PC.writer]
  | step _ h1 ih => exact nstep_stuck h1 ih.1 ih.2.1 ih.2.2

end Amino
