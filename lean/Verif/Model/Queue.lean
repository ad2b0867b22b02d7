import Verif.Model.Go
import Verif.Spec.Containers
/-!
# Model of `stl/queue.gp_int.go` (instance of the template `stl/gp/queue.gp.go`)
-/

namespace Verif.Queue
open Verif.Spec
variable {α : Type} [Inhabited α]

/-- `IntQueue`, queue.gp_int.go:26-33.  `d = []` stands for the nil slice. -/
structure Queue (α : Type) where
  head : Nat
  tail : Nat
  d : List α
deriving Repr, DecidableEq

/-- The zero value `IntQueue{}`.  queue.gp_int.go:26-33. -/
def zero : Queue α := ⟨0, 0, []⟩

/-- `Cap`, queue.gp_int.go:142-144. -/
def cap (s : Queue α) : Nat := s.d.length

/-- `newBuf`, queue.gp_int.go:55-59. -/
def newBuf (s : Queue α) (n : Nat) : Queue α :=
  if n > 0 then { s with d := List.replicate n default } else s

/-- `Clear`, queue.gp_int.go:62-64. -/
def clear (s : Queue α) : Queue α := { s with head := 0, tail := 0 }

/-- `Init`, queue.gp_int.go:43-52. -/
def init (s : Queue α) (bufSize : Int) : Queue α :=
  let s := if s.d = [] then newBuf s (if bufSize ≤ 0 then 8 else bufSize.toNat) else s
  clear s

/-- The two-part copy of queue.gp_int.go:77-81 and 131-133 into a new buffer of size `newSize`
(the second part is copied to `this.d[:h]`).  When `newSize = 0` the buffer is the old one and
both copies act in place (Go's `copy` handles the overlap like a copy from a snapshot). The second
copy then reads the buffer as left by the first. -/
def regrow (s : Queue α) (newSize : Nat) : Queue α :=
  let d := s.d
  let s' := newBuf s newSize
  let src1 := d.drop s.head
  let h := min s'.d.length src1.length
  let d1 := Go.copy s'.d src1
  let src2 := (if newSize > 0 then d else d1).take s.tail
  let t := min h src2.length
  let d2 := Go.copy (d1.take h) src2 ++ d1.drop h
  ⟨0, h + t, d2⟩

/-- `Push`, queue.gp_int.go:67-86: the full test is nested in the wrap-around branch. -/
def push (s : Queue α) (v : α) : Res (Queue α × Bool) :=
  let s := if s.d = [] then init s (-1) else s
  do
  let d ← Go.set s.d s.tail v
  let s : Queue α := { s with d := d, tail := s.tail + 1 }
  if s.tail ≥ cap s then
    let s := { s with tail := 0 }
    if s.tail = s.head then return (regrow s (cap s * 2), true)
    else return (s, true)
  else return (s, true)

/-- `Pop`, queue.gp_int.go:89-97. -/
def pop (s : Queue α) : Res (Queue α × α × Bool) :=
  if s.head ≠ s.tail then do
    let v ← Go.get s.d s.head
    let hd := s.head + 1
    let hd := if hd ≥ cap s ∧ hd ≠ s.tail then 0 else hd
    return ({ s with head := hd }, v, true)
  else return (s, default, false)

/-- `Front`, queue.gp_int.go:100-105. -/
def front (s : Queue α) : Res (α × Bool) :=
  if s.head ≠ s.tail then do
    let v ← Go.get s.d s.head
    return (v, true)
  else return (default, false)

/-- `Back`, queue.gp_int.go:108-117. -/
def back (s : Queue α) : Res (α × Bool) :=
  if s.head ≠ s.tail then do
    let t := if s.tail = 0 then cap s - 1 else s.tail - 1
    let v ← Go.get s.d t
    return (v, true)
  else return (default, false)

/-- `Size`, queue.gp_int.go:147-154.  After a `Shrink` the indices can exceed the capacity, but then
`tail ≥ head = 0`; in the other branch `head < cap`, so `Nat` subtraction is exact. -/
def size (s : Queue α) : Nat :=
  if s.tail ≥ s.head then s.tail - s.head else cap s - s.head + s.tail

/-- `Empty`, queue.gp_int.go:157-159. -/
def empty (s : Queue α) : Bool := size s == 0

/-- `Shrink`, queue.gp_int.go:120-137: the new buffer is sized `oldSize / 2` (not `oldCap / 2`);
with `oldSize ≤ 1` no new buffer is made.  A slice expression `d[head:tail]` panics when
`tail > cap`. Always returns false (shadowed `ok`). -/
def shrink (s : Queue α) : Res (Queue α × Bool) :=
  if cap s > 8 ∧ cap s ≥ 3 * size s then
    if s.tail ≥ s.head then
      if s.tail ≤ cap s then
        let d := s.d
        let s' := newBuf s (size s / 2)
        .ok (⟨0, s.tail - s.head, Go.copy s'.d ((d.drop s.head).take (s.tail - s.head))⟩, false)
      else .panic
    else .ok (regrow s (size s / 2), false)
  else .ok (s, false)

/-- One client call on the modelled object.  The methods of queue.gp_int.go:43-159. -/
def step (s : Queue α) : QueueOp α → Res (Queue α × Out α)
  | .push v => do let (s', b) ← push s v; return (s', .bool b)
  | .pop => do let (s', v, ok) ← pop s; return (s', .val v ok)
  | .front => do let (v, ok) ← front s; return (s, .val v ok)
  | .back => do let (v, ok) ← back s; return (s, .val v ok)
  | .size => .ok (s, .nat (size s))
  | .empty => .ok (s, .bool (empty s))
  | .clear => .ok (clear s, .unit)
  | .init n => .ok (init s n, .unit)

/-- A whole history of calls; collects every returned value.  Calls of queue.gp_int.go:43-159. -/
def run (s : Queue α) : List (QueueOp α) → Res (Queue α × List (Out α))
  | [] => .ok (s, [])
  | op :: ops => do
    let (s', o) ← step s op
    let (s'', os) ← run s' ops
    return (s'', o :: os)

end Verif.Queue
