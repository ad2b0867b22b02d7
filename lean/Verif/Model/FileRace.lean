import Verif.Model.FileLock
import Verif.Spec.LockRace
/-!
# `sync/filelock/mutex.go` with the accesses it makes

The machine of Model/FileLock with the accesses to the fields and the operations on the inner mutex.
-/

namespace Verif.FileLock
open Verif.Spec

/-- Locations: the fields of each `Mutex`, mutex.go:11-12. -/
inductive Var where
  | path (m : Nat)
  | h (m : Nat)
  deriving DecidableEq

/-- What a goroutine does; the mutexes are the fields `w`.  mutex.go:10. -/
abbrev FAct := Act Var Nat

/-- One step of goroutine `t` (of anybody, for the other programs), with what it does.  The statements of mutex.go:15-53. -/
inductive TStep (eacces : Bool) (exist : String → Prop) : St → Nat → List FAct → Option Event → St → Prop
  | call (s : St) (t m : Nat) (op : Op) : s.pc t = .idle →
    TStep eacces exist s t [] none { s with pc := setAt s.pc t (.wait m op) }
  /-- lines 16, 26, 48. -/
  | enter (s : St) (t m : Nat) (op : Op) : s.pc t = .wait m op → s.w m = none →
    TStep eacces exist s t [.lock m] none { s with w := setAt s.w m (some t), pc := setAt s.pc t (.inside m op) }
  /-- lines 18-22, 17. -/
  | init (s : St) (t m : Nat) (p : String) : s.pc t = .inside m (.init p) →
    TStep eacces exist s t ([.read (.path m)] ++ (if s.path m = "" then [.write (.path m)] else []) ++ [.unlock m])
      (some (.inited t m (s.path m == "")))
      ({ s with path := setAt s.path m (if s.path m = "" then p else s.path m) }.done t m)
  /-- lines 29-38, 27. -/
  | acquire (s : St) (t m : Nat) : s.pc t = .inside m .lock → exist (s.path m) → s.path m ≠ "" →
    s.opened (s.path m) = none →
    TStep eacces exist s t [.read (.path m), .write (.h m), .unlock m] (some (.acquired t m (s.path m)))
      ({ s with h := setAt s.h m s.next, opened := setKey s.opened (s.path m) (some s.next), next := s.next + 1 }.done t m)
  /-- lines 29-35, 39-40, 27. -/
  | missing (s : St) (t m : Nat) : s.pc t = .inside m .lock → ¬ (exist (s.path m) ∧ s.path m ≠ "") →
    TStep eacces exist s t [.read (.path m), .unlock m] (some (.failed t m)) (s.done t m)
  /-- lines 29-35, 39-40, 27. -/
  | busy (s : St) (t m : Nat) : s.pc t = .inside m .lock → exist (s.path m) → s.path m ≠ "" →
    s.opened (s.path m) ≠ none → eacces = false →
    TStep eacces exist s t [.read (.path m), .unlock m] (some (.failed t m)) (s.done t m)
  /-- lines 29-35, 42. -/
  | sleep (s : St) (t m : Nat) : s.pc t = .inside m .lock → exist (s.path m) → s.path m ≠ "" →
    s.opened (s.path m) ≠ none → eacces = true →
    TStep eacces exist s t [.read (.path m)] none { s with pc := setAt s.pc t (.sleep m) }
  /-- line 42. -/
  | wake (s : St) (t m : Nat) : s.pc t = .sleep m →
    TStep eacces exist s t [] none { s with pc := setAt s.pc t (.inside m .lock) }
  /-- lines 50-51, 49. -/
  | unlock (s : St) (t m : Nat) : s.pc t = .inside m .unlock →
    TStep eacces exist s t [.read (.h m), .write (.h m), .unlock m] (some (.released t m))
      ({ s with h := setAt s.h m 0, opened := closeHandle s.opened (s.h m) }.done t m)
  /-- Another program opens a file. -/
  | envOpen (s : St) (t : Nat) (p : String) : s.opened p = none →
    TStep eacces exist s t [] none { s with opened := setKey s.opened p (some s.next), next := s.next + 1 }
  /-- Another program closes a file it has open. -/
  | envClose (s : St) (t : Nat) (p : String) (n : Nat) : s.opened p = some n → (∀ m, s.h m ≠ n) →
    TStep eacces exist s t [] none { s with opened := setKey s.opened p none }

end Verif.FileLock
