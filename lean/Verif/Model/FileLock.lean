import Verif.Spec.Linearizable
/-!
# Model of `sync/filelock/mutex.go`

Any number of `Mutex` objects (in one or several processes; they are numbered), any number of goroutines.  The inner
`sync.Mutex` is the field `w` (who holds it).  The body of a call between taking and releasing `w` is one step, except
that a `Lock` that has to wait keeps `w` between its attempts.  `CreateFile` with share mode 0 and `OPEN_EXISTING` succeeds
exactly when the file exists and nobody has it open; texts of paths are compared as they are.  Handles are numbered from 1
and not used again.  Programs other than these may open and close files as well.

`eacces` says whether the error of `CreateFile` on a file that is open elsewhere is the one compared with in line 39,
`syscall.EACCES`.  (On Windows it is ERROR_SHARING_VIOLATION, number 32, which is not: `eacces = false`.)
-/

namespace Verif.FileLock
open Verif.Spec

/-- Calls.  mutex.go:15, 25 and 47. -/
inductive Op where
  | init (path : String) | lock | unlock
  deriving DecidableEq

/-- What can be seen: a call returned.  Of mutex.go:15-53. -/
inductive Event where
  /-- `Lock` returned without error; the path is the one of the mutex. -/
  | acquired (t m : Nat) (path : String)
  /-- `Lock` returned an error. -/
  | failed (t m : Nat)
  /-- `Unlock` returned. -/
  | released (t m : Nat)
  /-- `Init` returned. -/
  | inited (t m : Nat) (ok : Bool)
  deriving DecidableEq

/-- Where a goroutine is.  The points between the accesses of mutex.go:15-53. -/
inductive PC where
  | idle
  /-- before `this.w.Lock()` of a call on mutex `m`, lines 16, 26, 48. -/
  | wait (m : Nat) (op : Op)
  /-- inside `this.w`. -/
  | inside (m : Nat) (op : Op)
  /-- `Lock`, in line 42. -/
  | sleep (m : Nat)
  deriving DecidableEq

/-- `Mutex`, mutex.go:9-13, for every number; the open files; the goroutines. -/
structure St where
  path : Nat → String
  w : Nat → Option Nat
  h : Nat → Nat
  opened : String → Option Nat
  next : Nat
  pc : Nat → PC

/-- Before any call.  The zero value of mutex.go:9-13. -/
def St.start : St := ⟨fun _ => "", fun _ => none, fun _ => 0, fun _ => none, 1, fun _ => .idle⟩

/-- Change one entry of a table.  The assignments of mutex.go:15-53. -/
def setKey {β : Type} (f : String → β) (k : String) (v : β) : String → β := fun x => if x = k then v else f x

/-- `CloseHandle`.  Called at mutex.go:50. -/
def closeHandle (opened : String → Option Nat) (n : Nat) : String → Option Nat :=
  fun p => if opened p = some n then none else opened p

/-- The end of a call: release `w`, go on.  The ends of mutex.go:15-53. -/
def St.done (s : St) (t m : Nat) : St := { s with w := setAt s.w m none, pc := setAt s.pc t .idle }

/-- One step.  `exist` are the existing files.  The statements of mutex.go:15-53. -/
inductive Step (eacces : Bool) (exist : String → Prop) : St → Option Event → St → Prop
  | call (s : St) (t m : Nat) (op : Op) : s.pc t = .idle →
    Step eacces exist s none { s with pc := setAt s.pc t (.wait m op) }
  /-- lines 16, 26, 48. -/
  | enter (s : St) (t m : Nat) (op : Op) : s.pc t = .wait m op → s.w m = none →
    Step eacces exist s none { s with w := setAt s.w m (some t), pc := setAt s.pc t (.inside m op) }
  /-- lines 18-22. -/
  | init (s : St) (t m : Nat) (p : String) : s.pc t = .inside m (.init p) →
    Step eacces exist s (some (.inited t m (s.path m == "")))
      ({ s with path := setAt s.path m (if s.path m = "" then p else s.path m) }.done t m)
  /-- lines 29-38. -/
  | acquire (s : St) (t m : Nat) : s.pc t = .inside m .lock → exist (s.path m) → s.path m ≠ "" →
    s.opened (s.path m) = none →
    Step eacces exist s (some (.acquired t m (s.path m)))
      ({ s with h := setAt s.h m s.next, opened := setKey s.opened (s.path m) (some s.next), next := s.next + 1 }.done t m)
  /-- lines 29-35, 39-40: no such file. -/
  | missing (s : St) (t m : Nat) : s.pc t = .inside m .lock → ¬ (exist (s.path m) ∧ s.path m ≠ "") →
    Step eacces exist s (some (.failed t m)) (s.done t m)
  /-- lines 29-35, 39-40: the file is open, with another error. -/
  | busy (s : St) (t m : Nat) : s.pc t = .inside m .lock → exist (s.path m) → s.path m ≠ "" →
    s.opened (s.path m) ≠ none → eacces = false →
    Step eacces exist s (some (.failed t m)) (s.done t m)
  /-- lines 29-35, 42: the file is open. -/
  | sleep (s : St) (t m : Nat) : s.pc t = .inside m .lock → exist (s.path m) → s.path m ≠ "" →
    s.opened (s.path m) ≠ none → eacces = true →
    Step eacces exist s none { s with pc := setAt s.pc t (.sleep m) }
  /-- line 42, the minute is over. -/
  | wake (s : St) (t m : Nat) : s.pc t = .sleep m →
    Step eacces exist s none { s with pc := setAt s.pc t (.inside m .lock) }
  /-- lines 50-51. -/
  | unlock (s : St) (t m : Nat) : s.pc t = .inside m .unlock →
    Step eacces exist s (some (.released t m))
      ({ s with h := setAt s.h m 0, opened := closeHandle s.opened (s.h m) }.done t m)
  /-- Another program opens a file. -/
  | envOpen (s : St) (p : String) : s.opened p = none →
    Step eacces exist s none { s with opened := setKey s.opened p (some s.next), next := s.next + 1 }
  /-- Another program closes a file it has open. -/
  | envClose (s : St) (p : String) (n : Nat) : s.opened p = some n → (∀ m, s.h m ≠ n) →
    Step eacces exist s none { s with opened := setKey s.opened p none }

end Verif.FileLock
