import Verif.Model.Go
import Verif.Spec.Containers
/-!
# Model of `stl/deque.gp_int.go` (instance of the template `stl/gp/deque.gp.go`)
-/

namespace Verif.Deque
open Verif.Spec
variable {α : Type} [Inhabited α]

/-- `IntDeque`, deque.gp_int.go:29-37.  `d = []` stands for the nil slice: `newBuf` only ever makes
slices of positive length, so nil and length 0 coincide.  Indices are `Nat`: they never get
negative, `prev` tests for that (deque.gp_int.go:197-202). -/
structure Deque (α : Type) where
  head : Nat
  tail : Nat
  d : List α
deriving Repr, DecidableEq

/-- The zero value `IntDeque{}`.  deque.gp_int.go:29-37. -/
def zero : Deque α := ⟨0, 0, []⟩

/-- `Cap`, deque.gp_int.go:169-171. -/
def cap (s : Deque α) : Nat := s.d.length

/-- `newBuf`, deque.gp_int.go:59-63: `make([]int, n, n)` when `n > 0`, else unchanged. -/
def newBuf (s : Deque α) (n : Nat) : Deque α :=
  if n > 0 then { s with d := List.replicate n default } else s

/-- `Clear`, deque.gp_int.go:66-68. -/
def clear (s : Deque α) : Deque α := { s with head := 0, tail := 0 }

/-- `Init`, deque.gp_int.go:47-56. -/
def init (s : Deque α) (bufSize : Int) : Deque α :=
  let s := if s.d = [] then newBuf s (if bufSize ≤ 0 then 8 else bufSize.toNat) else s
  clear s

/-- `next`, deque.gp_int.go:189-194. -/
def next (s : Deque α) (idx : Nat) : Nat :=
  if idx + 1 ≥ cap s then 0 else idx + 1

/-- `prev`, deque.gp_int.go:197-202.  (`cap s ≥ 1` whenever the code calls it on a deque with a
buffer; on a nil buffer the following index expression panics for either value.) -/
def prev (s : Deque α) (idx : Nat) : Nat :=
  if idx = 0 then cap s - 1 else idx - 1

/-- The growth block, deque.gp_int.go:80-86 and 100-106, entered with `head = tail`:
```
d := this.d; this.newBuf(oldCap*2)
h := copy(this.d, d[this.head:])
t := copy(this.d[:h], d[:this.tail])
this.head, this.tail = 0, h+t
```
The second `copy` targets `this.d[:h]`, i.e. the first `h` slots again. -/
def regrow (s : Deque α) (newSize : Nat) : Deque α :=
  let d := s.d
  let s := newBuf s newSize
  let src1 := d.drop s.head
  let h := min s.d.length src1.length
  let d1 := Go.copy s.d src1
  let src2 := d.take s.tail
  let t := min h src2.length
  let d2 := Go.copy (d1.take h) src2 ++ d1.drop h
  ⟨0, h + t, d2⟩

/-- `PushFront`, deque.gp_int.go:71-89. -/
def pushFront (s : Deque α) (v : α) : Res (Deque α × Bool) :=
  let s := if s.d = [] then init s (-1) else s
  let hd := prev s s.head
  do
  let d ← Go.set s.d hd v
  let s : Deque α := { s with head := hd, d := d }
  if s.head = s.tail then return (regrow s (cap s * 2), true)
  else return (s, true)

/-- `PushBack`, deque.gp_int.go:92-109. -/
def pushBack (s : Deque α) (v : α) : Res (Deque α × Bool) :=
  let s := if s.d = [] then init s (-1) else s
  do
  let d ← Go.set s.d s.tail v
  let s : Deque α := { s with d := d }
  let s := { s with tail := next s s.tail }
  if s.tail = s.head then return (regrow s (cap s * 2), true)
  else return (s, true)

/-- `PopFront`, deque.gp_int.go:112-118. -/
def popFront (s : Deque α) : Res (Deque α × α × Bool) :=
  if s.head ≠ s.tail then do
    let v ← Go.get s.d s.head
    return ({ s with head := next s s.head }, v, true)
  else return (s, default, false)

/-- `PopBack`, deque.gp_int.go:121-127. -/
def popBack (s : Deque α) : Res (Deque α × α × Bool) :=
  if s.head ≠ s.tail then do
    let t := prev s s.tail
    let v ← Go.get s.d t
    return ({ s with tail := t }, v, true)
  else return (s, default, false)

/-- `Front`, deque.gp_int.go:130-135. -/
def front (s : Deque α) : Res (α × Bool) :=
  if s.head ≠ s.tail then do
    let v ← Go.get s.d s.head
    return (v, true)
  else return (default, false)

/-- `Back`, deque.gp_int.go:138-144. -/
def back (s : Deque α) : Res (α × Bool) :=
  if s.head ≠ s.tail then do
    let v ← Go.get s.d (prev s s.tail)
    return (v, true)
  else return (default, false)

/-- `Size`, deque.gp_int.go:174-181. -/
def size (s : Deque α) : Nat :=
  if s.tail ≥ s.head then s.tail - s.head else cap s - (s.head - s.tail)

/-- `Empty`, deque.gp_int.go:184-186. -/
def empty (s : Deque α) : Bool := size s == 0

/-- `Shrink`, deque.gp_int.go:147-164.  The inner `ok :=` shadows the result, so the call always
returns false. -/
def shrink (s : Deque α) : Deque α × Bool :=
  if cap s > 8 ∧ cap s ≥ 3 * size s then
    if s.tail ≥ s.head then
      let d := s.d
      let s' := newBuf s (cap s / 2)
      (⟨0, s.tail - s.head, Go.copy s'.d ((d.drop s.head).take (s.tail - s.head))⟩, false)
    else (regrow s (cap s / 2), false)
  else (s, false)

/-- One client call on the modelled object.  The methods of deque.gp_int.go:47-186. -/
def step (s : Deque α) : DequeOp α → Res (Deque α × Out α)
  | .pushFront v => do let (s', b) ← pushFront s v; return (s', .bool b)
  | .pushBack v => do let (s', b) ← pushBack s v; return (s', .bool b)
  | .popFront => do let (s', v, ok) ← popFront s; return (s', .val v ok)
  | .popBack => do let (s', v, ok) ← popBack s; return (s', .val v ok)
  | .front => do let (v, ok) ← front s; return (s, .val v ok)
  | .back => do let (v, ok) ← back s; return (s, .val v ok)
  | .size => .ok (s, .nat (size s))
  | .empty => .ok (s, .bool (empty s))
  | .clear => .ok (clear s, .unit)
  | .init n => .ok (init s n, .unit)

/-- A whole history of calls; collects every returned value.  Calls of deque.gp_int.go:47-186. -/
def run (s : Deque α) : List (DequeOp α) → Res (Deque α × List (Out α))
  | [] => .ok (s, [])
  | op :: ops => do
    let (s', o) ← step s op
    let (s'', os) ← run s' ops
    return (s'', o :: os)

end Verif.Deque
