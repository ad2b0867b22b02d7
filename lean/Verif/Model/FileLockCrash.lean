import Verif.Model.FileLock
/-!
# `sync/filelock/mutex.go` when processes crash

The goroutines and mutex objects of Model/FileLock belong to processes; a goroutine only uses mutex objects of its own
process.  A process may end at any moment, in the middle of any call: its memory and its goroutines are gone, and the
operating system closes the handles that it opened (the handles of line 37).  A program that is started again is a new
process with new objects.  The kernel's table of who opened a handle is explicit (`own`), it does not refer to the
field `h` of the mutex objects.
-/

namespace Verif.FileLock
open Verif.Spec

/-- What can be seen: what the calls of mutex.go:15-53 return, and crashes. -/
inductive CEvent where
  | ev (e : Event)
  | crash (P : Nat)
  deriving DecidableEq

/-- The objects and goroutines, which process opened a handle, and which processes are gone.  mutex.go:9-13. -/
structure CSt where
  base : St
  own : Nat → Option Nat
  dead : Nat → Bool

/-- Before any call.  mutex.go:9-13. -/
def CSt.start : CSt := ⟨St.start, fun _ => none, fun _ => false⟩

/-- The table of the kernel after a step: `CreateFile` (mutex.go:29-35) gave the handle `n` to the process of the mutex. -/
def owns (mp : Nat → Nat) (own : Nat → Option Nat) (n : Nat) : Option Event → Nat → Option Nat
  | some (.acquired _ m _) => setAt own n (some (mp m))
  | _ => own

/-- The end of process `P`: memory (mutex.go:9-13) and goroutines are gone, its handles are closed. -/
def St.crash (mp tp : Nat → Nat) (own : Nat → Option Nat) (P : Nat) (s : St) : St where
  path m := if mp m = P then "" else s.path m
  w m := if mp m = P then none else s.w m
  h m := if mp m = P then 0 else s.h m
  opened p := match s.opened p with
    | some n => if own n = some P then none else some n
    | none => none
  next := s.next
  pc t := if tp t = P then .idle else s.pc t

/-- One step; `mp` and `tp` say to which process a mutex and a goroutine belong.  mutex.go:15-53. -/
inductive CStep (eacces : Bool) (exist : String → Prop) (mp tp : Nat → Nat) : CSt → Option CEvent → CSt → Prop
  /-- A step of Model/FileLock; only goroutines of living processes call, and only methods of their own objects. -/
  | run (s : CSt) (e : Option Event) (b : St) : Step eacces exist s.base e b →
    (∀ t, s.base.pc t = .idle → b.pc t ≠ .idle → s.dead (tp t) = false ∧ ∀ m op, b.pc t = .wait m op → mp m = tp t) →
    CStep eacces exist mp tp s (e.map .ev) ⟨b, owns mp s.own s.base.next e, s.dead⟩
  | crash (s : CSt) (P : Nat) : s.dead P = false →
    CStep eacces exist mp tp s (some (.crash P)) ⟨s.base.crash mp tp s.own P, s.own, setAt s.dead P true⟩

end Verif.FileLock
