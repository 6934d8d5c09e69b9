import Verif.Registry

/-!
# codec.go: the codec mutex

Goroutines as a state machine.  Each goroutine is at a program counter; a step moves one of them.  The codec
is only touched in the critical sections, except for the read of `iinfo.Implementers` in
encodeReflectBinaryInterface (binary-encode.go:248), which holds no lock.  A critical section is left in one step:
what happens inside cannot be interleaved with other critical sections, since the lock is held.
-/

namespace Amino

/-- Goroutines. -/
abbrev Tid := Nat

/-- Where a goroutine is.  `…Wait`: about to call `Lock` or `RLock`. -/
inductive PC
  /-- outside the codec; may start any call -/
  | idle
  /-- codec.go:329-336 assertNotSealed, called from Register* -/
  | checkWait (op : Op) | check (op : Op)
  /-- codec.go:157-164, 212-233: between assertNotSealed and the second critical section.  The panics possible there
  (wrong kind, untagged float, digest of zeros) do not depend on the codec; they are raised in the second critical
  section here, with the same outcome as the unlocking is deferred. -/
  | build (op : Op)
  /-- codec.go:167-177, 236-242 -/
  | regWait (op : Op) | reg (op : Op)
  /-- codec.go:366-390 getTypeInfoWlock -/
  | useWait (id : TId) | use (id : TId)
  /-- codec.go:245-251 Seal -/
  | sealWait | sealing
  /-- codec.go:394-446 getTypeInfoFrom{Prefix,Disfix,Name}Rlock, 259-309 PrintTypes -/
  | readWait | read
  /-- binary-encode.go:248: `len(iinfo.Implementers[cinfo.Prefix])`, without lock -/
  | peek
  /-- a panic was raised and not yet recovered -/
  | failed (p : Pan)
  deriving DecidableEq

/-- Holding the write lock. -/
def PC.writer : PC → Bool
  | .check _ | .reg _ | .use _ | .sealing => true
  | _ => false

/-- Holding the read lock. -/
def PC.reader : PC → Bool
  | .read => true
  | _ => false

/-- The codec, the holder of the write lock and the goroutines. -/
structure LState where
  c : Codec := {}
  owner : Option Tid := none
  pc : Tid → PC := fun _ => .idle

/-- `i` moves to `p`. -/
def LState.goto (s : LState) (i : Tid) (p : PC) : LState :=
  { s with pc := fun j => if j = i then p else s.pc j }

/-- What `sync.RWMutex.Lock` waits for (sync.RWMutex; that waiting writers hold up new readers is not modelled). -/
def LState.free (s : LState) : Prop := s.owner = none ∧ ∀ j, (s.pc j).reader = false

/-- `defer cdc.mtx.Unlock()`: after a critical section with outcome `r`. -/
def LState.leave (s : LState) (i : Tid) (r : Codec × Option Pan) : LState :=
  { s with c := r.1, owner := none }.goto i (match r.2 with | some p => .failed p | none => .idle)

/-- A registration after the check of the seal. -/
def Codec.register (Γ : Prog) (H : Bytes → Bytes) (c : Codec) : Op → Codec × Option Pan
  | .iface id prio always => addInterface Γ H c id prio always
  | .conc t name => addConcrete Γ H c t name
  | _ => (c, none)

/-- Goroutine `i` makes a step. -/
inductive LStep (Γ : Prog) (H : Bytes → Bytes) (i : Tid) : LState → LState → Prop
  | callIface {s id prio always} : s.pc i = .idle → LStep Γ H i s (s.goto i (.checkWait (.iface id prio always)))
  | callConc {s t name} : s.pc i = .idle → LStep Γ H i s (s.goto i (.checkWait (.conc t name)))
  | callUse {s id} : s.pc i = .idle → LStep Γ H i s (s.goto i (.useWait id))
  | callSeal {s} : s.pc i = .idle → LStep Γ H i s (s.goto i .sealWait)
  | callRead {s} : s.pc i = .idle → LStep Γ H i s (s.goto i .readWait)
  | callPeek {s} : s.pc i = .idle → LStep Γ H i s (s.goto i .peek)
  /-- `recover()` -/
  | recovered {s p} : s.pc i = .failed p → LStep Γ H i s (s.goto i .idle)
  | lockCheck {s op} : s.pc i = .checkWait op → s.free →
      LStep Γ H i s ({ s with owner := some i }.goto i (.check op))
  | checked {s op} : s.pc i = .check op → s.c.sealed = false →
      LStep Γ H i s ({ s with owner := none }.goto i (.build op))
  | checkedSealed {s op} : s.pc i = .check op → s.c.sealed = true →
      LStep Γ H i s (s.leave i (s.c, some .sealed))
  | built {s op} : s.pc i = .build op → LStep Γ H i s (s.goto i (.regWait op))
  | lockReg {s op} : s.pc i = .regWait op → s.free → LStep Γ H i s ({ s with owner := some i }.goto i (.reg op))
  | registered {s op} : s.pc i = .reg op → LStep Γ H i s (s.leave i (s.c.register Γ H op))
  | lockUse {s id} : s.pc i = .useWait id → s.free → LStep Γ H i s ({ s with owner := some i }.goto i (.use id))
  | used {s id} : s.pc i = .use id → (useType Γ s.c id).2 = none →
      LStep Γ H i s (s.leave i (useType Γ s.c id))
  /-- codec.go:385 panics in newTypeInfoUnregistered: there is no deferred Unlock -/
  | usedPanic {s id p} : s.pc i = .use id → (useType Γ s.c id).2 = some p →
      LStep Γ H i s ({ s with c := (useType Γ s.c id).1 }.goto i (.failed p))
  | lockSeal {s} : s.pc i = .sealWait → s.free → LStep Γ H i s ({ s with owner := some i }.goto i .sealing)
  | sealed {s} : s.pc i = .sealing → LStep Γ H i s (s.leave i (s.c.seal, none))
  | lockRead {s} : s.pc i = .readWait → s.owner = none → LStep Γ H i s (s.goto i .read)
  | wasRead {s} : s.pc i = .read → LStep Γ H i s (s.goto i .idle)
  | peeked {s} : s.pc i = .peek → LStep Γ H i s (s.goto i .idle)

/-- Any number of steps of any goroutines. -/
inductive LSteps (Γ : Prog) (H : Bytes → Bytes) : LState → LState → Prop
  | refl {s} : LSteps Γ H s s
  | step {s s' s'' i} : LSteps Γ H s s' → LStep Γ H i s' s'' → LSteps Γ H s s''

end Amino
