import Verif.Model.WorkDir
import Verif.Spec.LockRace
/-!
# The working directory of `fs/file_line.go` with several goroutines, with the accesses to memory

`Chdir` and `WorkPath` as steps of goroutines that may be interleaved.  `os.Chdir` and `os.Getwd` are one step each, and so is reading and writing the
variable `gWorkPath` (a string of two words; that only part of it is written when it is read is one more thing that may go wrong).
-/

namespace Verif.WorkDir
open Verif.Spec Verif.Path

/-- Where a goroutine is in `Chdir`, file_line.go:93-98, or `WorkPath`, 69-71. -/
inductive Pc
  | idle
  /-- before `os.Chdir`, line 94 -/
  | enter (p : Str)
  /-- before `os.Getwd`, line 60 -/
  | getwd
  /-- before the assignment, line 95 -/
  | store (s : Str)
  | ret (o : Out)
  /-- before the variable is read, line 70 -/
  | load
  | retPath (s : Str)
deriving DecidableEq, Repr

/-- The calls and returns that the client sees: of `Chdir`, file_line.go:93-98, and of `WorkPath`, 69-71. -/
inductive Event
  | chdirCall (t : Nat) (p : Str)
  | chdirRet (t : Nat) (o : Out)
  | pathCall (t : Nat)
  | pathRet (t : Nat) (s : Str)
deriving DecidableEq, Repr

/-- The process (with the variable of file_line.go:17) and its goroutines. -/
structure CSt where
  proc : Proc
  pc : Nat → Pc

/-- Goroutine `t` goes to another place.  Part of file_line.go:59-98. -/
def CSt.go (s : CSt) (t : Nat) (p : Pc) : CSt := { s with pc := fun u => if u = t then p else s.pc u }

/-- One step of goroutine `t`, with its accesses to `gWorkPath`.  No lock is used.  The statements of file_line.go:59-71 and 93-98. -/
inductive CStep (O : Os) : CSt → Nat → List (Act Unit Empty) → Option Event → CSt → Prop
  | callChdir (s : CSt) (t : Nat) (p : Str) : s.pc t = .idle → CStep O s t [] (some (.chdirCall t p)) (s.go t (.enter p))
  /-- line 94. -/
  | enter (s : CSt) (t : Nat) (p : Str) : s.pc t = .enter p →
    O.enter (s.proc.time + 1) (resolve s.proc.cwd (filePath p)) = true →
    CStep O s t [] none ({ s with proc := ⟨resolve s.proc.cwd (filePath p), s.proc.gWorkPath, s.proc.time + 1⟩ }.go t .getwd)
  | enterErr (s : CSt) (t : Nat) (p : Str) : s.pc t = .enter p →
    O.enter (s.proc.time + 1) (resolve s.proc.cwd (filePath p)) = false →
    CStep O s t [] none ({ s with proc := ⟨s.proc.cwd, s.proc.gWorkPath, s.proc.time + 1⟩ }.go t (.ret .err))
  /-- lines 60-61. -/
  | getwd (s : CSt) (t : Nat) (x : Str) : s.pc t = .getwd → O.getwd s.proc.time s.proc.cwd = some x →
    CStep O s t [] none (s.go t (.store x))
  /-- line 63. -/
  | getwdPanic (s : CSt) (t : Nat) : s.pc t = .getwd → O.getwd s.proc.time s.proc.cwd = none →
    CStep O s t [] none (s.go t (.ret .panic))
  /-- line 95. -/
  | store (s : CSt) (t : Nat) (x : Str) : s.pc t = .store x →
    CStep O s t [.write ()] none ({ s with proc := ⟨s.proc.cwd, x, s.proc.time⟩ }.go t (.ret .nil))
  /-- line 97. -/
  | ret (s : CSt) (t : Nat) (o : Out) : s.pc t = .ret o → CStep O s t [] (some (.chdirRet t o)) (s.go t .idle)
  | callPath (s : CSt) (t : Nat) : s.pc t = .idle → CStep O s t [] (some (.pathCall t)) (s.go t .load)
  /-- line 70. -/
  | load (s : CSt) (t : Nat) : s.pc t = .load → CStep O s t [.read ()] none (s.go t (.retPath s.proc.gWorkPath))
  | retPath (s : CSt) (t : Nat) (x : Str) : s.pc t = .retPath x → CStep O s t [] (some (.pathRet t x)) (s.go t .idle)

/-- The process `st` with no goroutine in a call.  After file_line.go:17. -/
def CSt.quiet (st : Proc) : CSt := ⟨st, fun _ => .idle⟩

end Verif.WorkDir
