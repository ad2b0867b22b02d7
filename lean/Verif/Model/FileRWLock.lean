import Verif.Spec.Linearizable
/-!
# Model of `sync/filelock/rwmutex.go`

Any number of `RWMutex` objects and goroutines.  All four methods have an empty body, so that the only steps are calls and
returns; the field `w` is never used.
-/

namespace Verif.FileRWLock
open Verif.Spec

/-- Calls: `Lock`, `Unlock`, `RLock`, `RUnlock`, rwmutex.go:8, 12, 16, 20. -/
inductive Op where
  | lock (path : String) | unlock | rlock (path : String) | runlock
  deriving DecidableEq

/-- A call returned: goroutine, mutex, call.  rwmutex.go:8-22. -/
structure Event where
  t : Nat
  m : Nat
  op : Op
  deriving DecidableEq

/-- What the goroutines are doing.  rwmutex.go:4-6, whose field no method uses. -/
structure St where
  pc : Nat → Option (Nat × Op)

/-- Before any call.  The zero value of rwmutex.go:4-6. -/
def St.start : St := ⟨fun _ => none⟩

/-- One step of a goroutine.  The empty methods of rwmutex.go:8-22. -/
inductive Step : St → Option Event → St → Prop
  | call (s : St) (t m : Nat) (op : Op) : s.pc t = none → Step s none ⟨setAt s.pc t (some (m, op))⟩
  /-- rwmutex.go:8-10, 12-14, 16-18, 20-22: the body is empty. -/
  | ret (s : St) (t m : Nat) (op : Op) : s.pc t = some (m, op) → Step s (some ⟨t, m, op⟩) ⟨setAt s.pc t none⟩

end Verif.FileRWLock
