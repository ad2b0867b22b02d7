import Verif.Model.SpinLock
import Verif.Model.RangeU
import Verif.Model.Stack
/-!
# Objects guarded by a lock

Goroutines that share an object and surround each of its methods by `Lock` and `Unlock` of a `SpinLock` (`sync/spinlock.go`),
or of a lock that waits without limit.  The method is executed one access to memory at a time, so that an unprotected use
would show every intermediate state.
-/

namespace Verif.Guarded
open Verif.Spec

/-- An object in the hands of its methods: `σ` is its memory, `ρ` what a method in progress keeps in registers.
Any client of spinlock.go:16-35, as math/seq/sequence64.go:22-26. -/
structure Obj (σ ρ Op Ret : Type) where
  /-- A method begins. -/
  start : Op → ρ
  /-- One access to memory: the method goes on, or ends with a result or a panic. -/
  next : σ → ρ → σ × (ρ ⊕ Res Ret)

/-- How the object is used: the limit of attempts of the lock (`some SpinLock.maxLoop` for `SpinLock`, spinlock.go:13; `none` for
a lock that waits), and whether `Unlock` is deferred, so that it is called after a panic as well. -/
structure Cfg where
  limit : Option Nat
  deferred : Bool

/-- More attempts than allowed, spinlock.go:22. -/
def Cfg.tooMany (c : Cfg) (i : Nat) : Prop :=
  match c.limit with
  | none => False
  | some n => i > n

/-- Where a goroutine is.  The points between the accesses of spinlock.go:20-35 and of the method. -/
inductive PC (ρ Op Ret : Type) where
  | idle
  /-- `Lock`, before spinlock.go:26 in round `i`. -/
  | spin (op : Op) (i : Nat)
  /-- inside the method. -/
  | body (op : Op) (r : ρ)
  /-- `Unlock`, before spinlock.go:32. -/
  | unlocking (r : Res Ret)
  /-- about to return. -/
  | done (r : Res Ret)
  /-- panicked in `Lock` (spinlock.go:23). -/
  | deadlock
  /-- panicked in the method, `Unlock` not being deferred. -/
  | crashed
  /-- panicked in `Unlock` (spinlock.go:33). -/
  | misuse

/-- The lock word, the object and the goroutines.  spinlock.go:16-18. -/
structure St (σ ρ Op Ret : Type) where
  lock : Int
  mem : σ
  pc : Nat → PC ρ Op Ret

/-- Before any call: the lock is free.  The zero value of spinlock.go:16-18. -/
def St.init {σ ρ Op Ret : Type} (m : σ) : St σ ρ Op Ret := ⟨0, m, fun _ => .idle⟩

/-- One step of goroutine `t`; the lines are those of spinlock.go. -/
inductive Step {σ ρ Op Ret : Type} (O : Obj σ ρ Op Ret) (c : Cfg) :
    St σ ρ Op Ret → Option (Ev Op (Res Ret)) → St σ ρ Op Ret → Prop
  | call (s : St σ ρ Op Ret) (t : Nat) (op : Op) : s.pc t = .idle →
    Step O c s (some (.call t op)) ⟨s.lock, s.mem, setAt s.pc t (.spin op 0)⟩
  /-- lines 22-23. -/
  | giveUp (s : St σ ρ Op Ret) (t i : Nat) (op : Op) : s.pc t = .spin op i → c.tooMany i →
    Step O c s none ⟨s.lock, s.mem, setAt s.pc t .deadlock⟩
  /-- line 26, failure. -/
  | again (s : St σ ρ Op Ret) (t i : Nat) (op : Op) : s.pc t = .spin op i → ¬ c.tooMany i → s.lock ≠ 0 →
    Step O c s none ⟨s.lock, s.mem, setAt s.pc t (.spin op (i + 1))⟩
  /-- line 26, success. -/
  | acquire (s : St σ ρ Op Ret) (t i : Nat) (op : Op) : s.pc t = .spin op i → ¬ c.tooMany i → s.lock = 0 →
    Step O c s none ⟨1, s.mem, setAt s.pc t (.body op (O.start op))⟩
  /-- inside the method. -/
  | go (s : St σ ρ Op Ret) (t : Nat) (op : Op) (r r' : ρ) (m : σ) : s.pc t = .body op r → O.next s.mem r = (m, .inl r') →
    Step O c s none ⟨s.lock, m, setAt s.pc t (.body op r')⟩
  /-- the method returns, or panics with `Unlock` deferred. -/
  | finish (s : St σ ρ Op Ret) (t : Nat) (op : Op) (r : ρ) (v : Res Ret) (m : σ) : s.pc t = .body op r →
    O.next s.mem r = (m, .inr v) → (v ≠ .panic ∨ c.deferred = true) →
    Step O c s none ⟨s.lock, m, setAt s.pc t (.unlocking v)⟩
  /-- the method panics and `Unlock` is not deferred. -/
  | crash (s : St σ ρ Op Ret) (t : Nat) (op : Op) (r : ρ) (m : σ) : s.pc t = .body op r →
    O.next s.mem r = (m, .inr .panic) → c.deferred = false →
    Step O c s none ⟨s.lock, m, setAt s.pc t .crashed⟩
  /-- line 32, success. -/
  | unlock (s : St σ ρ Op Ret) (t : Nat) (v : Res Ret) : s.pc t = .unlocking v → s.lock = 1 →
    Step O c s none ⟨0, s.mem, setAt s.pc t (.done v)⟩
  /-- lines 32-33. -/
  | misuse (s : St σ ρ Op Ret) (t : Nat) (v : Res Ret) : s.pc t = .unlocking v → s.lock ≠ 1 →
    Step O c s none ⟨s.lock, s.mem, setAt s.pc t .misuse⟩
  | ret (s : St σ ρ Op Ret) (t : Nat) (v : Res Ret) : s.pc t = .done v →
    Step O c s (some (.ret t v)) ⟨s.lock, s.mem, setAt s.pc t .idle⟩

/-- The same goroutines without the lock.  The methods without spinlock.go:20-35. -/
inductive Bare {σ ρ Op Ret : Type} (O : Obj σ ρ Op Ret) :
    St σ ρ Op Ret → Option (Ev Op (Res Ret)) → St σ ρ Op Ret → Prop
  | call (s : St σ ρ Op Ret) (t : Nat) (op : Op) : s.pc t = .idle →
    Bare O s (some (.call t op)) ⟨s.lock, s.mem, setAt s.pc t (.body op (O.start op))⟩
  | go (s : St σ ρ Op Ret) (t : Nat) (op : Op) (r r' : ρ) (m : σ) : s.pc t = .body op r → O.next s.mem r = (m, .inl r') →
    Bare O s none ⟨s.lock, m, setAt s.pc t (.body op r')⟩
  | finish (s : St σ ρ Op Ret) (t : Nat) (op : Op) (r : ρ) (v : Res Ret) (m : σ) : s.pc t = .body op r →
    O.next s.mem r = (m, .inr v) → Bare O s none ⟨s.lock, m, setAt s.pc t (.done v)⟩
  | ret (s : St σ ρ Op Ret) (t : Nat) (v : Res Ret) : s.pc t = .done v →
    Bare O s (some (.ret t v)) ⟨s.lock, s.mem, setAt s.pc t .idle⟩

/-- What a goroutine in `Seq64.Next` keeps: nothing yet, or the value read for the sum in range_uint64.go:93, or the two values
read in lines 93 and 104. -/
inductive SeqReg where
  | begin
  | sum (v : BitVec 64)
  | both (v r : BitVec 64)
  deriving DecidableEq

/-- `Seq64.Next`, math/seq/sequence64.go:55-78, access by access: `me.val` is read in range_uint64.go:93 for the argument of
`Set`, read again in line 104 for the result, and written in line 106.  Left out: reads of the fields that never change, and
the read of line 90, whose branch is empty.  Errors and panics do not occur (`RangeU.verify` is constantly false). -/
def seqObj : Obj (BitVec 64) SeqReg Unit (BitVec 64) where
  start _ := .begin
  next m
    | .begin => (m, .inl (.sum m))
    | .sum v => (m, .inl (.both v m))
    | .both v r => (v + 1#64, .inr (.ok r))

/-- `SeqNext64`, math/seq/sequence64.go:15-20: `LockGet` is taken to wait for the lock, the type assertion to hold; `Unlock` is
deferred.  `async.AutoLock` is not in the repository. -/
def seqCfg : Cfg := ⟨none, true⟩

/-- A `SpinLock` around the methods of an object, `Unlock` deferred or not.  spinlock.go:20-35. -/
def spinCfg (deferred : Bool) : Cfg := ⟨some SpinLock.maxLoop, deferred⟩

/-- `IntStack`, stl/stack.gp_int.go:26-91 (`Verif/Model/Stack.lean`), as an object.  Simplification: a method is one access; under
the lock nobody sees its parts. -/
def stackObj (α : Type) [Inhabited α] : Obj (Stack.Stack α) (StackOp α) (StackOp α) (Out α) where
  start op := op
  next m op :=
    match Stack.step m op with
    | .ok (m', o) => (m', .inr (.ok o))
    | .panic => (m, .inr .panic)

end Verif.Guarded
