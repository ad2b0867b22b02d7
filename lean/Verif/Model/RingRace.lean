import Verif.Model.RingBuffer
import Verif.Spec.Race
/-!
# `MustPush` and `MustPop` of `stl/gp/ringbuffer.gp.go` with their accesses

The machine of Model/RingBuffer, every step of which is one access to a variable that some goroutine writes, with the location and
the kind of access.  The fields `mask` and `d` are written by `Init` only and not listed.
-/

namespace Verif.RingBuffer
open Verif.Spec
variable {V : Type}

/-- Locations.  ringbuffer.gp.go:27-31. -/
inductive Loc where
  | head | headR | tail | tailR
  /-- an element of `d`. -/
  | slot (i : Nat)
  deriving DecidableEq, Repr

/-- Labels of steps: events of the client and accesses.  ringbuffer.gp.go:60-85. -/
abbrev RLab (V : Type) := Lab (Ev (Op V) (Ret V)) Loc

/-- The steps of `Step` with the access.  The statements of ringbuffer.gp.go:60-85. -/
inductive RStep : St V → Option (RLab V) → St V → Prop
  | callPush (s : St V) (t : Nat) (v : V) : s.pc t = .idle →
    RStep s (some (.ev (.call t (.mustPush v)))) (s.goto t (.puAdd v))
  /-- lines 61-62. -/
  | puAdd (s : St V) (t : Nat) (v : V) : s.pc t = .puAdd v →
    RStep s (some (.acc ⟨t, .rmw, .tailR⟩)) ⟨{ s.b with tailR := (s.b.tailR + 1) % W }, setAt s.pc t (.puWait v s.b.tailR)⟩
  /-- line 63. -/
  | puWait (s : St V) (t : Nat) (v : V) (old : Nat) : s.pc t = .puWait v old →
    RStep s (some (.acc ⟨t, .load, .head⟩))
      (s.goto t (if (old + 1) % W > (s.b.head + s.b.mask + 1) % W then .puWait v old else .puWrite v old))
  /-- lines 66-67. -/
  | puWrite (s : St V) (t : Nat) (v : V) (old : Nat) (d : List V) : s.pc t = .puWrite v old →
    Go.set s.b.d (old &&& s.b.mask) v = .ok d →
    RStep s (some (.acc ⟨t, .write, .slot (old &&& s.b.mask)⟩)) ⟨{ s.b with d := d }, setAt s.pc t (.puCas v old)⟩
  /-- line 67, the index is out of range: no access. -/
  | puPanic (s : St V) (t : Nat) (v : V) (old : Nat) : s.pc t = .puWrite v old →
    Go.set s.b.d (old &&& s.b.mask) v = .panic → RStep s none (s.goto t .crashed)
  /-- line 68, success. -/
  | puCasOk (s : St V) (t : Nat) (v : V) (old : Nat) : s.pc t = .puCas v old → s.b.tail = old →
    RStep s (some (.acc ⟨t, .rmw, .tail⟩)) ⟨{ s.b with tail := (old + 1) % W }, setAt s.pc t (.ret (.pushed true))⟩
  /-- line 68, failure. -/
  | puCasFail (s : St V) (t : Nat) (v : V) (old : Nat) : s.pc t = .puCas v old → s.b.tail ≠ old →
    RStep s (some (.acc ⟨t, .load, .tail⟩)) s
  | callPop (s : St V) (t : Nat) : s.pc t = .idle →
    RStep s (some (.ev (.call t .mustPop))) (s.goto t .poAdd)
  /-- lines 75-76. -/
  | poAdd (s : St V) (t : Nat) : s.pc t = .poAdd →
    RStep s (some (.acc ⟨t, .rmw, .headR⟩)) ⟨{ s.b with headR := (s.b.headR + 1) % W }, setAt s.pc t (.poWait s.b.headR)⟩
  /-- line 77. -/
  | poWait (s : St V) (t : Nat) (old : Nat) : s.pc t = .poWait old →
    RStep s (some (.acc ⟨t, .load, .tail⟩)) (s.goto t (if old ≥ s.b.tail then .poWait old else .poRead old))
  /-- lines 80-81. -/
  | poRead (s : St V) (t : Nat) (old : Nat) (v : V) : s.pc t = .poRead old →
    Go.get s.b.d (old &&& s.b.mask) = .ok v →
    RStep s (some (.acc ⟨t, .read, .slot (old &&& s.b.mask)⟩)) (s.goto t (.poCas old v))
  /-- line 81, the index is out of range: no access. -/
  | poPanic (s : St V) (t : Nat) (old : Nat) : s.pc t = .poRead old →
    Go.get s.b.d (old &&& s.b.mask) = .panic → RStep s none (s.goto t .crashed)
  /-- line 82, success. -/
  | poCasOk (s : St V) (t : Nat) (old : Nat) (v : V) : s.pc t = .poCas old v → s.b.head = old →
    RStep s (some (.acc ⟨t, .rmw, .head⟩)) ⟨{ s.b with head := (old + 1) % W }, setAt s.pc t (.ret (.popped v true))⟩
  /-- line 82, failure. -/
  | poCasFail (s : St V) (t : Nat) (old : Nat) (v : V) : s.pc t = .poCas old v → s.b.head ≠ old →
    RStep s (some (.acc ⟨t, .load, .head⟩)) s
  | ret (s : St V) (t : Nat) (r : Ret V) : s.pc t = .ret r →
    RStep s (some (.ev (.ret t r))) (s.goto t .idle)

end Verif.RingBuffer
