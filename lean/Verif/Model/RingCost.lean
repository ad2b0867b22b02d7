import Verif.Model.Queue
import Verif.Model.Deque
/-!
# `stl/queue.gp_int.go` and `stl/deque.gp_int.go` with the moved elements counted

The functions of `Verif/Model/Queue.lean` and `Verif/Model/Deque.lean` that call `copy`, once more; each also returns the sum of
what its calls of `copy` return.
-/

namespace Verif.Queue
open Verif.Spec
variable {α : Type} [Inhabited α]

/-- The two-part copy of queue.gp_int.go:77-81 (`h + t` elements) into a new buffer of positive size. -/
def regrowC (s : Queue α) (newSize : Nat) : Queue α × Nat :=
  let d := s.d
  let s' := newBuf s newSize
  let src1 := d.drop s.head
  let h := min s'.d.length src1.length
  let d1 := Go.copy s'.d src1
  let src2 := (if newSize > 0 then d else d1).take s.tail
  let t := min h src2.length
  let d2 := Go.copy (d1.take h) src2 ++ d1.drop h
  (⟨0, h + t, d2⟩, h + t)

/-- `Push`, queue.gp_int.go:67-86. -/
def pushC (s : Queue α) (v : α) : Res (Queue α × Bool × Nat) :=
  let s := if s.d = [] then init s (-1) else s
  do
  let d ← Go.set s.d s.tail v
  let s : Queue α := { s with d := d, tail := s.tail + 1 }
  if s.tail ≥ cap s then
    let s := { s with tail := 0 }
    if s.tail = s.head then
      let p := regrowC s (cap s * 2)
      return (p.1, true, p.2)
    else return (s, true, 0)
  else return (s, true, 0)

/-- One client call with the number of elements moved; only `Push` calls `copy` (`Shrink` is not among the calls, see C06).
The methods of queue.gp_int.go:43-159; `copy` at 79-80. -/
def stepC (s : Queue α) : QueueOp α → Res (Queue α × Out α × Nat)
  | .push v => do let (s', b, n) ← pushC s v; return (s', .bool b, n)
  | op => do let (s', o) ← step s op; return (s', o, 0)

/-- A history of calls with the number of elements moved altogether.  Calls of queue.gp_int.go:43-159. -/
def runC (s : Queue α) : List (QueueOp α) → Res (Queue α × List (Out α) × Nat)
  | [] => .ok (s, [], 0)
  | op :: ops => do
    let (s', o, n) ← stepC s op
    let (s'', os, m) ← runC s' ops
    return (s'', o :: os, n + m)

end Verif.Queue

namespace Verif.Deque
open Verif.Spec
variable {α : Type} [Inhabited α]

/-- The growth block, deque.gp_int.go:80-86, 100-106 and 158-160: `h + t` elements are moved. -/
def regrowC (s : Deque α) (newSize : Nat) : Deque α × Nat :=
  let d := s.d
  let s := newBuf s newSize
  let src1 := d.drop s.head
  let h := min s.d.length src1.length
  let d1 := Go.copy s.d src1
  let src2 := d.take s.tail
  let t := min h src2.length
  let d2 := Go.copy (d1.take h) src2 ++ d1.drop h
  (⟨0, h + t, d2⟩, h + t)

/-- `PushFront`, deque.gp_int.go:71-89. -/
def pushFrontC (s : Deque α) (v : α) : Res (Deque α × Bool × Nat) :=
  let s := if s.d = [] then init s (-1) else s
  let hd := prev s s.head
  do
  let d ← Go.set s.d hd v
  let s : Deque α := { s with head := hd, d := d }
  if s.head = s.tail then
    let p := regrowC s (cap s * 2)
    return (p.1, true, p.2)
  else return (s, true, 0)

/-- `PushBack`, deque.gp_int.go:92-109. -/
def pushBackC (s : Deque α) (v : α) : Res (Deque α × Bool × Nat) :=
  let s := if s.d = [] then init s (-1) else s
  do
  let d ← Go.set s.d s.tail v
  let s : Deque α := { s with d := d }
  let s := { s with tail := next s s.tail }
  if s.tail = s.head then
    let p := regrowC s (cap s * 2)
    return (p.1, true, p.2)
  else return (s, true, 0)

/-- `Shrink`, deque.gp_int.go:147-164. -/
def shrinkC (s : Deque α) : Deque α × Bool × Nat :=
  if cap s > 8 ∧ cap s ≥ 3 * size s then
    if s.tail ≥ s.head then
      let d := s.d
      let s' := newBuf s (cap s / 2)
      let src := (d.drop s.head).take (s.tail - s.head)
      (⟨0, s.tail - s.head, Go.copy s'.d src⟩, false, min s'.d.length src.length)
    else
      let p := regrowC s (cap s / 2)
      (p.1, false, p.2)
  else (s, false, 0)

/-- One client call with the number of elements moved (`none` is `Shrink`); the other functions do not call `copy`.
The methods of deque.gp_int.go:47-186. -/
def stepC (s : Deque α) : Option (DequeOp α) → Res (Deque α × Out α × Nat)
  | none => let p := shrinkC s; .ok (p.1, .bool p.2.1, p.2.2)
  | some (.pushFront v) => do let (s', b, n) ← pushFrontC s v; return (s', .bool b, n)
  | some (.pushBack v) => do let (s', b, n) ← pushBackC s v; return (s', .bool b, n)
  | some op => do let (s', o) ← step s op; return (s', o, 0)

/-- A history of calls with the number of elements moved altogether.  Calls of deque.gp_int.go:47-186. -/
def runC (s : Deque α) : List (Option (DequeOp α)) → Res (Deque α × List (Out α) × Nat)
  | [] => .ok (s, [], 0)
  | op :: ops => do
    let (s', o, n) ← stepC s op
    let (s'', os, m) ← runC s' ops
    return (s'', o :: os, n + m)

end Verif.Deque
