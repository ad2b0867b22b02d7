import Verif.Model.SpinLock
import Verif.Spec.Race
/-!
# `sync/spinlock.go` with the accesses it makes and those it guards

The machine of Model/SpinLock with the location and the kind of every access.  A goroutine between its `Lock` and its `Unlock` may
access data of its own choice, plainly or atomically.  The return of `Lock` and of `Unlock` is part of the last access.
-/

namespace Verif.SpinLock
open Verif.Spec
variable {D : Type}

/-- Locations: the field `state` (spinlock.go:17), and the data of the client. -/
inductive Loc (D : Type) where
  | state
  | data (x : D)
  deriving DecidableEq

/-- Labels of steps: calls, and accesses.  spinlock.go:20-35. -/
abbrev GLab (D : Type) := Lab (Ev Op Unit) (Loc D)

/-- One step of goroutine `t`.  The statements of spinlock.go:20-35, and the accesses of the client. -/
inductive GStep : St → Option (GLab D) → St → Prop
  | callLock (s : St) (t : Nat) : s.pc t = .idle → GStep s (some (.ev (.call t .lock))) ⟨s.state, setAt s.pc t (.spin 0)⟩
  /-- lines 22-23. -/
  | giveUp (s : St) (t i : Nat) : s.pc t = .spin i → i > maxLoop → GStep s none ⟨s.state, setAt s.pc t .deadlock⟩
  /-- line 26, success. -/
  | acquire (s : St) (t i : Nat) : s.pc t = .spin i → ¬ i > maxLoop → s.state = 0 →
    GStep s (some (.acc ⟨t, .rmw, .state⟩)) ⟨1, setAt s.pc t .held⟩
  /-- line 26, failure. -/
  | again (s : St) (t i : Nat) : s.pc t = .spin i → ¬ i > maxLoop → s.state ≠ 0 →
    GStep s (some (.acc ⟨t, .load, .state⟩)) ⟨s.state, setAt s.pc t (.spin (i + 1))⟩
  /-- the client, between lines 27 and 31. -/
  | data (s : St) (t : Nat) (k : AccKind) (x : D) : s.pc t = .held → GStep s (some (.acc ⟨t, k, .data x⟩)) s
  | callUnlock (s : St) (t : Nat) : s.pc t = .idle ∨ s.pc t = .held →
    GStep s (some (.ev (.call t .unlock))) ⟨s.state, setAt s.pc t .unlocking⟩
  /-- line 32, success. -/
  | release (s : St) (t : Nat) : s.pc t = .unlocking → s.state = 1 →
    GStep s (some (.acc ⟨t, .rmw, .state⟩)) ⟨0, setAt s.pc t .idle⟩
  /-- lines 32-33. -/
  | misuse (s : St) (t : Nat) : s.pc t = .unlocking → s.state ≠ 1 →
    GStep s (some (.acc ⟨t, .load, .state⟩)) ⟨s.state, setAt s.pc t .misuse⟩

end Verif.SpinLock
