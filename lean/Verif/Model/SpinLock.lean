import Verif.Spec.Linearizable
/-!
# Model of `sync/spinlock.go` and `sync/spinrwlock.go`

Interleaving models: a step of a goroutine is one atomic operation.  `held`, `wHeld` and `rHeld` are the places
between a returned lock call and the matching unlock call.
-/

namespace Verif.SpinLock
open Verif.Spec

/-- `spinLockMaxLoop`, spinlock.go:13. -/
def maxLoop : Nat := 16777216

/-- Calls.  spinlock.go:20 and 31. -/
inductive Op where
  | lock | unlock
  deriving DecidableEq

/-- Where a goroutine is.  The points between the accesses of spinlock.go:20-35. -/
inductive PC where
  | idle
  /-- `Lock`, before line 22 in round `i`. -/
  | spin (i : Nat)
  /-- `Lock` has returned. -/
  | held
  /-- `Unlock`, before line 32. -/
  | unlocking
  /-- panicked in `Lock` (line 23). -/
  | deadlock
  /-- panicked in `Unlock` (line 33). -/
  | misuse
  deriving DecidableEq

/-- `SpinLock`, spinlock.go:16-18, and the goroutines. -/
structure St where
  state : Int
  pc : Nat → PC

/-- The zero value.  spinlock.go:16-18. -/
def St.init : St := ⟨0, fun _ => .idle⟩

/-- One step of goroutine `t`.  The statements of spinlock.go:20-35. -/
inductive Step : St → Option (Ev Op Unit) → St → Prop
  | callLock (s : St) (t : Nat) : s.pc t = .idle → Step s (some (.call t .lock)) ⟨s.state, setAt s.pc t (.spin 0)⟩
  /-- lines 22-23. -/
  | giveUp (s : St) (t i : Nat) : s.pc t = .spin i → i > maxLoop → Step s none ⟨s.state, setAt s.pc t .deadlock⟩
  /-- line 26, success. -/
  | acquire (s : St) (t i : Nat) : s.pc t = .spin i → ¬ i > maxLoop → s.state = 0 →
    Step s (some (.ret t ())) ⟨1, setAt s.pc t .held⟩
  /-- line 26, failure. -/
  | again (s : St) (t i : Nat) : s.pc t = .spin i → ¬ i > maxLoop → s.state ≠ 0 →
    Step s none ⟨s.state, setAt s.pc t (.spin (i + 1))⟩
  | callUnlock (s : St) (t : Nat) : s.pc t = .idle ∨ s.pc t = .held →
    Step s (some (.call t .unlock)) ⟨s.state, setAt s.pc t .unlocking⟩
  /-- line 32, success. -/
  | release (s : St) (t : Nat) : s.pc t = .unlocking → s.state = 1 →
    Step s (some (.ret t ())) ⟨0, setAt s.pc t .idle⟩
  /-- lines 32-33. -/
  | misuse (s : St) (t : Nat) : s.pc t = .unlocking → s.state ≠ 1 → Step s none ⟨s.state, setAt s.pc t .misuse⟩

end Verif.SpinLock

namespace Verif.RWSpinLock
open Verif.Spec
open Verif.SpinLock (maxLoop)

/-- `rwSpinLockMaxReaders`, spinrwlock.go:8. -/
def maxReaders : Int := 1073741824

/-- `atomic.AddInt32`: addition of 32-bit signed numbers.  spinrwlock.go:17-53. -/
def add32 (x y : Int) : Int := Int.bmod (x + y) 4294967296

/-- Calls.  spinrwlock.go:17, 22, 29 and 43. -/
inductive Op where
  | lock | unlock | rlock | runlock
  deriving DecidableEq

/-- Where a goroutine is.  The points between the accesses of spinrwlock.go:17-53. -/
inductive PC where
  | idle
  /-- `Lock`: in `w.Lock` (line 18) round `i`, before line 19. -/
  | wSpin (i : Nat) | wAdd
  /-- `Lock` has returned. -/
  | wHeld
  /-- `Unlock`: before line 23, before `w.Unlock` (line 26). -/
  | wuAdd | wuUnlock
  /-- `RLock`: before line 35 in round `i`, before line 36, in `w.Lock` (line 37) round `j`. -/
  | rLoad (i : Nat) | rAdd | rSpin (j : Nat)
  /-- `RLock` has returned. -/
  | rHeld
  /-- `RUnlock`: before line 44. -/
  | ruAdd
  /-- panicked. -/
  | crashed
  /-- panicked in line 37, after being counted as a reader. -/
  | rCrashed
  deriving DecidableEq

/-- `RWSpinLock`, spinrwlock.go:11-15, and the goroutines. -/
structure St where
  w : Int
  rc : Int
  pc : Nat → PC

/-- The zero value.  spinrwlock.go:11-15. -/
def St.init : St := ⟨0, 0, fun _ => .idle⟩

/-- Goroutine `t` goes to `p`.  Control flow of spinrwlock.go:17-53. -/
def St.goto (s : St) (t : Nat) (p : PC) : St := ⟨s.w, s.rc, setAt s.pc t p⟩

/-- One step of goroutine `t`.  `Unlock` is called only by a goroutine that holds the write lock and `RUnlock` only
by one that holds a read lock.  The statements of spinrwlock.go:17-53. -/
inductive Step : St → Option (Ev Op Unit) → St → Prop
  | callLock (s : St) (t : Nat) : s.pc t = .idle → Step s (some (.call t .lock)) (s.goto t (.wSpin 0))
  /-- line 18, spinlock.go:22-29. -/
  | wGiveUp (s : St) (t i : Nat) : s.pc t = .wSpin i → i > maxLoop → Step s none (s.goto t .crashed)
  | wAcquire (s : St) (t i : Nat) : s.pc t = .wSpin i → ¬ i > maxLoop → s.w = 0 →
    Step s none ⟨1, s.rc, setAt s.pc t .wAdd⟩
  | wAgain (s : St) (t i : Nat) : s.pc t = .wSpin i → ¬ i > maxLoop → s.w ≠ 0 →
    Step s none (s.goto t (.wSpin (i + 1)))
  /-- line 19. -/
  | wAdd (s : St) (t : Nat) : s.pc t = .wAdd →
    Step s (some (.ret t ())) ⟨s.w, add32 s.rc (-maxReaders), setAt s.pc t .wHeld⟩
  | callUnlock (s : St) (t : Nat) : s.pc t = .wHeld → Step s (some (.call t .unlock)) (s.goto t .wuAdd)
  /-- lines 23-25. -/
  | wuAdd (s : St) (t : Nat) : s.pc t = .wuAdd →
    Step s none ⟨s.w, add32 s.rc maxReaders,
      setAt s.pc t (if add32 s.rc maxReaders ≥ maxReaders then .crashed else .wuUnlock)⟩
  /-- line 26, spinlock.go:32. -/
  | wuUnlock (s : St) (t : Nat) : s.pc t = .wuUnlock → s.w = 1 →
    Step s (some (.ret t ())) ⟨0, s.rc, setAt s.pc t .idle⟩
  | wuMisuse (s : St) (t : Nat) : s.pc t = .wuUnlock → s.w ≠ 1 → Step s none (s.goto t .crashed)
  | callRLock (s : St) (t : Nat) : s.pc t = .idle → Step s (some (.call t .rlock)) (s.goto t (.rLoad 0))
  /-- lines 31-33. -/
  | rGiveUp (s : St) (t i : Nat) : s.pc t = .rLoad i → i > maxLoop → Step s none (s.goto t .crashed)
  /-- line 35. -/
  | rLoad (s : St) (t i : Nat) : s.pc t = .rLoad i → ¬ i > maxLoop →
    Step s none (s.goto t (if s.rc ≥ 0 then .rAdd else .rLoad (i + 1)))
  /-- line 36, the first reader goes on to line 37. -/
  | rAddFirst (s : St) (t : Nat) : s.pc t = .rAdd → add32 s.rc 1 = 1 →
    Step s none ⟨s.w, add32 s.rc 1, setAt s.pc t (.rSpin 0)⟩
  /-- line 36, another reader returns. -/
  | rAdd (s : St) (t : Nat) : s.pc t = .rAdd → add32 s.rc 1 ≠ 1 →
    Step s (some (.ret t ())) ⟨s.w, add32 s.rc 1, setAt s.pc t .rHeld⟩
  /-- line 37, spinlock.go:22-29. -/
  | rsGiveUp (s : St) (t j : Nat) : s.pc t = .rSpin j → j > maxLoop → Step s none (s.goto t .rCrashed)
  | rsAcquire (s : St) (t j : Nat) : s.pc t = .rSpin j → ¬ j > maxLoop → s.w = 0 →
    Step s (some (.ret t ())) ⟨1, s.rc, setAt s.pc t .rHeld⟩
  | rsAgain (s : St) (t j : Nat) : s.pc t = .rSpin j → ¬ j > maxLoop → s.w ≠ 0 →
    Step s none (s.goto t (.rSpin (j + 1)))
  | callRUnlock (s : St) (t : Nat) : s.pc t = .rHeld → Step s (some (.call t .runlock)) (s.goto t .ruAdd)
  /-- lines 44-47, panic. -/
  | ruPanic (s : St) (t : Nat) : s.pc t = .ruAdd → add32 s.rc (-1) < 0 →
    (add32 (add32 s.rc (-1)) 1 = 0 ∨ add32 (add32 s.rc (-1)) 1 = -maxReaders) →
    Step s none ⟨s.w, add32 s.rc (-1), setAt s.pc t .crashed⟩
  /-- lines 44-53: the test `r == 0` of line 48 stands under `r < 0`. -/
  | ruAdd (s : St) (t : Nat) : s.pc t = .ruAdd →
    ¬ (add32 s.rc (-1) < 0 ∧ (add32 (add32 s.rc (-1)) 1 = 0 ∨ add32 (add32 s.rc (-1)) 1 = -maxReaders)) →
    Step s (some (.ret t ()))
      ⟨(if add32 s.rc (-1) < 0 ∧ add32 s.rc (-1) = 0 then 0 else s.w), add32 s.rc (-1), setAt s.pc t .idle⟩

/-- The same when `Unlock` and `RUnlock` may also be called by goroutines that hold nothing (spinrwlock.go:22, 43). -/
inductive StepM : St → Option (Ev Op Unit) → St → Prop
  | use (s s' : St) (e : Option (Ev Op Unit)) : Step s e s' → StepM s e s'
  | unlockFree (s : St) (t : Nat) : s.pc t = .idle → StepM s (some (.call t .unlock)) (s.goto t .wuAdd)
  | runlockFree (s : St) (t : Nat) : s.pc t = .idle → StepM s (some (.call t .runlock)) (s.goto t .ruAdd)

end Verif.RWSpinLock
