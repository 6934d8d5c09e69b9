import Verif.Lock

/-!
# sync.RWMutex with its preference for writers, and PrintTypes with a writer of the user

`Lock` lets readers in while a writer waits.  Go does not: a writer first takes an inner mutex and announces itself
(rwmutex.go `Lock`); from then on new readers wait, and the writer waits for the readers that are inside.
-/

namespace Amino

/-- About to call `Lock`. -/
def PC.waitsW : PC → Bool
  | .checkWait _ | .regWait _ | .useWait _ | .sealWait => true
  | _ => false

/-- The state of `Lock`, and the writer that holds the inner mutex `rw.w`, if any: it is waiting for the readers to leave,
or has the lock. -/
structure WState where
  l : LState := {}
  w : Option Tid := none

/-- Goroutine `i` makes a step.  Simplified: when a writer leaves, waiting readers and waiting writers compete; Go lets
the waiting readers in first. -/
inductive WStep (Γ : Prog) (H : Bytes → Bytes) (i : Tid) : WState → WState → Prop
  /-- rwmutex.go `Lock`: `rw.w.Lock()` and the announcement -/
  | announce {s : WState} : (s.l.pc i).waitsW = true → s.w = none → WStep Γ H i s { s with w := some i }
  /-- Steps of `Lock`: `Lock` returns to the writer that has announced itself only, `RLock` returns only if there is none;
  `Unlock` releases `rw.w`. -/
  | step {s : WState} {l' : LState} : LStep Γ H i s.l l' → ((s.l.pc i).waitsW = true → s.w = some i) →
      (s.l.pc i = .readWait → s.w = none) →
      WStep Γ H i s { l := l', w := if (s.l.pc i).writer = true ∧ l'.owner = none then none else s.w }

/-- Any number of steps of any goroutines. -/
inductive WSteps (Γ : Prog) (H : Bytes → Bytes) : WState → WState → Prop
  | refl {s} : WSteps Γ H s s
  | step {s s' s'' i} : WSteps Γ H s s' → WStep Γ H i s' s'' → WSteps Γ H s s''

/-- The goroutines `below`, inside PrintTypes with the read lock held, are in the `Write` method of the user's writer
(codec.go:259-309), which may do anything, for instance use the codec. -/
structure NState where
  s : WState := {}
  below : Tid → Bool := fun _ => false

/-- Goroutine `i` makes a step. -/
inductive NStep (Γ : Prog) (H : Bytes → Bytes) (i : Tid) : NState → NState → Prop
  /-- `Lock` waits for these readers too. -/
  | step {n : NState} {s' : WState} : WStep Γ H i n.s s' →
      ((n.s.l.pc i).waitsW = true → (s'.l.pc i).writer = true → ∀ j, n.below j = false) → NStep Γ H i n { n with s := s' }
  /-- codec.go:263-306: `io.WriteString(out, …)` is called -/
  | write {n : NState} : n.s.l.pc i = .read → n.below i = false →
      NStep Γ H i n { s := { n.s with l := n.s.l.goto i .idle }, below := fun j => if j = i then true else n.below j }
  /-- and returns -/
  | written {n : NState} : n.s.l.pc i = .idle → n.below i = true →
      NStep Γ H i n { s := { n.s with l := n.s.l.goto i .read }, below := fun j => if j = i then false else n.below j }

inductive NSteps (Γ : Prog) (H : Bytes → Bytes) : NState → NState → Prop
  | refl {s} : NSteps Γ H s s
  | step {s s' s'' i} : NSteps Γ H s s' → NStep Γ H i s' s'' → NSteps Γ H s s''

end Amino
