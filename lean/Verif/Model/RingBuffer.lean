import Verif.Model.Go
import Verif.Spec.Linearizable
/-!
# Model of the template `stl/gp/ringbuffer.gp.go`

The 64-bit counters are natural numbers reduced modulo 2^64.  `busy` is left out (never written).
-/

namespace Verif.RingBuffer
open Verif.Spec
variable {V : Type}

/-- 2^64.  The counters of ringbuffer.gp.go:20-32 wrap there. -/
def W : Nat := 18446744073709551616

/-- `RingBuffer`, ringbuffer.gp.go:20-32; `d = []` is the nil slice. -/
structure B (V : Type) where
  head : Nat
  headR : Nat
  tail : Nat
  tailR : Nat
  mask : Nat
  d : List V

/-- The zero value.  ringbuffer.gp.go:20-32. -/
def B.zero : B V := ⟨0, 0, 0, 0, 0, []⟩

/-- The loop of ringbuffer.gp.go:41 over a 64-bit `int`; it declares its own `sizeRndUp`, so only the question
whether it ends matters.  `none`: not finished within `fuel` rounds. -/
def roundUp (sizeRndUp bufSize : BitVec 64) : Nat → Option Unit
  | 0 => none
  | fuel + 1 => if sizeRndUp.slt bufSize then roundUp (sizeRndUp * 2) bufSize fuel else some ()

/-- `Init`, ringbuffer.gp.go:35-50, with `newBuf`, 53-57.  The outer `sizeRndUp` stays 1. -/
def init [Inhabited V] (fuel : Nat) (b : B V) (bufSize : BitVec 64) : Option (B V) := do
  if b.d = [] then
    let bufSize := if bufSize.sle 8 then 8 else bufSize
    let sizeRndUp := 1
    roundUp 1 bufSize fuel
    return { b with mask := sizeRndUp - 1, d := List.replicate sizeRndUp default }
  else return b

/-- `Push`, ringbuffer.gp.go:88-95, without other goroutines; `none`: the loop of line 92 never ends.  The named
result `ok` is never set. -/
def push (b : B V) (v : V) : Res (Option (B V × Bool)) := do
  let tailR := (b.tailR + 1) % W
  let d ← Go.set b.d (tailR &&& b.mask) v
  let old := (tailR + (W - 1)) % W
  if b.tail = old then return some ({ b with tailR := tailR, d := d, tail := tailR }, false)
  return none

/-- `Pop`, ringbuffer.gp.go:98-105, without other goroutines. -/
def pop (b : B V) : Res (Option (B V × V × Bool)) := do
  let headR := (b.headR + 1) % W
  let v ← Go.get b.d (headR &&& b.mask)
  let old := (headR + (W - 1)) % W
  if b.head = old then return some ({ b with headR := headR, head := headR }, v, true)
  return none

/-- `Cap`, ringbuffer.gp.go:108-110, with the conversion to 32 bits. -/
def cap (b : B V) : Nat := b.d.length % 2 ^ 32

/-- `Size`, ringbuffer.gp.go:113-115: a difference of unsigned numbers, converted to a signed one. -/
def size (b : B V) : Int := (BitVec.ofNat 64 (b.tail + (W - b.head))).toInt

/-- `Empty`, ringbuffer.gp.go:123-125. -/
def empty (b : B V) : Bool := size b == 0

/-! ## `MustPush` and `MustPop` under interleaving -/

/-- Operations.  ringbuffer.gp.go:60-125. -/
inductive Op (V : Type) where
  | mustPush (v : V) | mustPop
  deriving DecidableEq

/-- Results.  ringbuffer.gp.go:60-125. -/
inductive Ret (V : Type) where
  | pushed (ok : Bool) | popped (v : V) (ok : Bool)
  deriving DecidableEq

/-- Where a goroutine is.  The points between the accesses of ringbuffer.gp.go:60-105. -/
inductive PC (V : Type) where
  | idle
  /-- `MustPush`: before line 61, 63, 67, 68; `old` is the ticket. -/
  | puAdd (v : V) | puWait (v : V) (old : Nat) | puWrite (v : V) (old : Nat) | puCas (v : V) (old : Nat)
  /-- `MustPop`: before line 75, 77, 81, 82. -/
  | poAdd | poWait (old : Nat) | poRead (old : Nat) | poCas (old : Nat) (v : V)
  /-- about to return. -/
  | ret (r : Ret V)
  /-- panicked. -/
  | crashed
  deriving DecidableEq

/-- Shared object and goroutines.  ringbuffer.gp.go:20-32. -/
structure St (V : Type) where
  b : B V
  pc : Nat → PC V

/-- Goroutine `t` goes to `p`.  Control flow of ringbuffer.gp.go:60-105. -/
def St.goto (s : St V) (t : Nat) (p : PC V) : St V := ⟨s.b, setAt s.pc t p⟩

/-- One step of goroutine `t`: one access to shared memory.  The statements of ringbuffer.gp.go:60-105. -/
inductive Step : St V → Option (Ev (Op V) (Ret V)) → St V → Prop
  | callPush (s : St V) (t : Nat) (v : V) : s.pc t = .idle →
    Step s (some (.call t (.mustPush v))) (s.goto t (.puAdd v))
  /-- lines 61-62 (`tail_r - 1` is the value before the addition). -/
  | puAdd (s : St V) (t : Nat) (v : V) : s.pc t = .puAdd v →
    Step s none ⟨{ s.b with tailR := (s.b.tailR + 1) % W }, setAt s.pc t (.puWait v s.b.tailR)⟩
  /-- line 63. -/
  | puWait (s : St V) (t : Nat) (v : V) (old : Nat) : s.pc t = .puWait v old →
    Step s none (s.goto t (if (old + 1) % W > (s.b.head + s.b.mask + 1) % W then .puWait v old else .puWrite v old))
  /-- lines 66-67. -/
  | puWrite (s : St V) (t : Nat) (v : V) (old : Nat) : s.pc t = .puWrite v old →
    Step s none
      (match Go.set s.b.d (old &&& s.b.mask) v with
        | .ok d => ⟨{ s.b with d := d }, setAt s.pc t (.puCas v old)⟩
        | .panic => s.goto t .crashed)
  /-- line 68. -/
  | puCas (s : St V) (t : Nat) (v : V) (old : Nat) : s.pc t = .puCas v old →
    Step s none
      (if s.b.tail = old then ⟨{ s.b with tail := (old + 1) % W }, setAt s.pc t (.ret (.pushed true))⟩ else s)
  | callPop (s : St V) (t : Nat) : s.pc t = .idle →
    Step s (some (.call t .mustPop)) (s.goto t .poAdd)
  /-- lines 75-76. -/
  | poAdd (s : St V) (t : Nat) : s.pc t = .poAdd →
    Step s none ⟨{ s.b with headR := (s.b.headR + 1) % W }, setAt s.pc t (.poWait s.b.headR)⟩
  /-- line 77. -/
  | poWait (s : St V) (t : Nat) (old : Nat) : s.pc t = .poWait old →
    Step s none (s.goto t (if old ≥ s.b.tail then .poWait old else .poRead old))
  /-- lines 80-81. -/
  | poRead (s : St V) (t : Nat) (old : Nat) : s.pc t = .poRead old →
    Step s none
      (match Go.get s.b.d (old &&& s.b.mask) with
        | .ok v => s.goto t (.poCas old v)
        | .panic => s.goto t .crashed)
  /-- line 82. -/
  | poCas (s : St V) (t : Nat) (old : Nat) (v : V) : s.pc t = .poCas old v →
    Step s none
      (if s.b.head = old then ⟨{ s.b with head := (old + 1) % W }, setAt s.pc t (.ret (.popped v true))⟩ else s)
  | ret (s : St V) (t : Nat) (r : Ret V) : s.pc t = .ret r →
    Step s (some (.ret t r)) (s.goto t .idle)

end Verif.RingBuffer
