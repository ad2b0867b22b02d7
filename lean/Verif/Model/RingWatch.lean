import Verif.Model.RingBuffer
/-!
# Model of the template `stl/gp/ringbuffer.gp.go`: `Size`, `Empty` and `Cap` among `MustPush` and `MustPop`

The interleaving model of `Verif.Model.RingBuffer` with the operations that only look.  `Size` loads `tail` and then `head`, two
accesses (the calls in line 114 are evaluated from left to right); `Empty` calls `Size`; `Cap` reads the length of the buffer,
which never changes once it has been made.
-/

namespace Verif.RingBuffer
open Verif.Spec
variable {V : Type}

/-- The operations that look.  ringbuffer.gp.go:108-115, 123-125. -/
inductive Look where
  | size | empty | cap
  deriving DecidableEq

/-- All operations.  ringbuffer.gp.go:60-125. -/
inductive WOp (V : Type) where
  | base (op : Op V) | look (k : Look)
  deriving DecidableEq

/-- All results.  ringbuffer.gp.go:60-125. -/
inductive WRet (V : Type) where
  | base (r : Ret V) | num (n : Int) | flag (b : Bool) | slots (n : Nat)
  deriving DecidableEq

/-- What `Size` and `Empty` make of the two values loaded, ringbuffer.gp.go:114 and 124. -/
def lookAns (k : Look) (tail head : Nat) : WRet V :=
  let size := (BitVec.ofNat 64 (tail + (W - head))).toInt
  match k with
  | .empty => .flag (size == 0)
  | _ => .num size

/-- Where a goroutine is with respect to the operations that look: in none of them, before its first access, between the two
loads of line 114, or about to return.  ringbuffer.gp.go:108-125. -/
inductive WPC (V : Type) where
  | out | before (k : Look) | between (k : Look) (tail : Nat) | after (r : WRet V)
  deriving DecidableEq

/-- Shared object and goroutines.  ringbuffer.gp.go:20-32. -/
structure WSt (V : Type) where
  base : St V
  w : Nat → WPC V

/-- A client event of `MustPush` and `MustPop`, among all events.  ringbuffer.gp.go:60-85. -/
def up : Ev (Op V) (Ret V) → Ev (WOp V) (WRet V)
  | .call t op => .call t (.base op)
  | .ret t r => .ret t (.base r)

/-- One step: of `MustPush` or `MustPop`, or of an operation that looks.  A goroutine calls one operation at a time.
ringbuffer.gp.go:60-125. -/
inductive WStep : WSt V → Option (Ev (WOp V) (WRet V)) → WSt V → Prop
  | base (s : WSt V) (e : Option (Ev (Op V) (Ret V))) (b : St V) : Step s.base e b →
    (∀ t op, e = some (.call t op) → s.w t = .out) →
    WStep s (e.map up) ⟨b, s.w⟩
  | call (s : WSt V) (t : Nat) (k : Look) : s.base.pc t = .idle → s.w t = .out →
    WStep s (some (.call t (.look k))) ⟨s.base, setAt s.w t (.before k)⟩
  /-- line 109. -/
  | cap (s : WSt V) (t : Nat) : s.w t = .before .cap →
    WStep s none ⟨s.base, setAt s.w t (.after (.slots (cap s.base.b)))⟩
  /-- line 114, first load. -/
  | loadTail (s : WSt V) (t : Nat) (k : Look) : s.w t = .before k → k ≠ .cap →
    WStep s none ⟨s.base, setAt s.w t (.between k s.base.b.tail)⟩
  /-- line 114, second load, and for `Empty` line 124. -/
  | loadHead (s : WSt V) (t : Nat) (k : Look) (tail : Nat) : s.w t = .between k tail →
    WStep s none ⟨s.base, setAt s.w t (.after (lookAns k tail s.base.b.head))⟩
  | ret (s : WSt V) (t : Nat) (r : WRet V) : s.w t = .after r →
    WStep s (some (.ret t r)) ⟨s.base, setAt s.w t .out⟩

end Verif.RingBuffer
