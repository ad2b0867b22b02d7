import Verif.Spec.Linearizable
/-!
# Model of the template `stl/gp/lfqueue.gp.go` (lock-free list)

An interleaving model: a step of one goroutine is one access to shared memory.  Assumptions: `sync/atomic`
operations are sequentially consistent (the Go memory model); addresses of nodes are never reused while a
goroutine still holds them (garbage collection), so every allocation is fresh; a node is private to its
creator until the successful CAS, therefore the load of `head.next` and the store into the private `n.next`
(line 56) are one step, and `n.next` of a published node is never written.
-/

namespace Verif.LFQueue
open Verif.Spec
variable {V : Type}

/-- A pointer.  lfqueue.gp.go:33-43. -/
abbrev Ptr := Option Nat

/-- `LFQueueNode`, lfqueue.gp.go:33-36. -/
structure Node (V : Type) where
  val : V
  next : Ptr

/-- Operations of the object.  lfqueue.gp.go:52-121. -/
inductive Op (V : Type) where
  | push (v : V) | pop | clear | empty

/-- Results.  lfqueue.gp.go:52-121. -/
inductive Ret (V : Type) where
  | pushed (ok : Bool) | popped (v : V) (ok : Bool) | cleared | isEmpty (b : Bool)
  deriving DecidableEq

/-- Where a goroutine is.  The points between the accesses of lfqueue.gp.go:52-111. -/
inductive PC (V : Type) where
  | idle
  /-- `PushFront` before line 56, `n` is the new node. -/
  | pushLoad (v : V) (n : Nat)
  /-- before the CAS of line 57. -/
  | pushCas (v : V) (n : Nat)
  /-- before line 64. -/
  | pushAdd
  /-- `PopFront` before line 92. -/
  | popLoad
  /-- before line 97, with `t` not nil. -/
  | popRead (t : Nat)
  /-- before the CAS of line 98. -/
  | popCas (t : Nat) (next : Ptr)
  /-- before line 104, with the named results. -/
  | popSub (v : V) (ok : Bool)
  /-- `Clear` before line 109. -/
  | clear
  /-- `Empty` before line 120. -/
  | empty
  /-- `Clear`, about to return. -/
  | retClear
  /-- `Empty`, about to return. -/
  | retEmpty (b : Bool)

/-- `LFQueue`, lfqueue.gp.go:39-43, with the memory, the number of allocated nodes and the goroutines.
`head` is the field `head.next`. -/
structure St (V : Type) where
  mem : Nat → Node V
  alloc : Nat
  head : Ptr
  size : BitVec 32
  pc : Nat → PC V

/-- The zero value.  lfqueue.gp.go:39-43. -/
def St.init [Inhabited V] : St V := ⟨fun _ => ⟨default, none⟩, 0, none, 0, fun _ => .idle⟩

variable [Inhabited V]

/-- One step of goroutine `t`.  The statements of lfqueue.gp.go:52-111. -/
inductive Step : St V → Option (Ev (Op V) (Ret V)) → St V → Prop
  /-- `PushFront`, lines 52-54 and `makeNode`, 45-50. -/
  | callPush (s : St V) (t : Nat) (v : V) : s.pc t = .idle →
    Step s (some (.call t (.push v)))
      { s with mem := setAt s.mem s.alloc ⟨v, none⟩, alloc := s.alloc + 1, pc := setAt s.pc t (.pushLoad v s.alloc) }
  /-- line 56. -/
  | pushLoad (s : St V) (t : Nat) (v : V) (n : Nat) : s.pc t = .pushLoad v n →
    Step s none
      { s with mem := setAt s.mem n { s.mem n with next := s.head }, pc := setAt s.pc t (.pushCas v n) }
  /-- line 57, success. -/
  | pushCasOk (s : St V) (t : Nat) (v : V) (n : Nat) : s.pc t = .pushCas v n → s.head = (s.mem n).next →
    Step s none { s with head := some n, pc := setAt s.pc t .pushAdd }
  /-- line 57, failure. -/
  | pushCasFail (s : St V) (t : Nat) (v : V) (n : Nat) : s.pc t = .pushCas v n → s.head ≠ (s.mem n).next →
    Step s none { s with pc := setAt s.pc t (.pushLoad v n) }
  /-- lines 64-65. -/
  | pushAdd (s : St V) (t : Nat) : s.pc t = .pushAdd →
    Step s (some (.ret t (.pushed true))) { s with size := s.size + 1, pc := setAt s.pc t .idle }
  /-- `PopFront`, line 90. -/
  | callPop (s : St V) (t : Nat) : s.pc t = .idle →
    Step s (some (.call t .pop)) { s with pc := setAt s.pc t .popLoad }
  /-- lines 92-94, nil. -/
  | popNil (s : St V) (t : Nat) : s.pc t = .popLoad → s.head = none →
    Step s none { s with pc := setAt s.pc t (.popSub default false) }
  /-- line 92, not nil. -/
  | popLoad (s : St V) (t n : Nat) : s.pc t = .popLoad → s.head = some n →
    Step s none { s with pc := setAt s.pc t (.popRead n) }
  /-- line 97. -/
  | popRead (s : St V) (t n : Nat) : s.pc t = .popRead n →
    Step s none { s with pc := setAt s.pc t (.popCas n (s.mem n).next) }
  /-- lines 98-100, success. -/
  | popCasOk (s : St V) (t n : Nat) (nx : Ptr) : s.pc t = .popCas n nx → s.head = some n →
    Step s none { s with head := nx, pc := setAt s.pc t (.popSub (s.mem n).val true) }
  /-- line 98, failure. -/
  | popCasFail (s : St V) (t n : Nat) (nx : Ptr) : s.pc t = .popCas n nx → s.head ≠ some n →
    Step s none { s with pc := setAt s.pc t .popLoad }
  /-- lines 104-105. -/
  | popSub (s : St V) (t : Nat) (v : V) (ok : Bool) : s.pc t = .popSub v ok →
    Step s (some (.ret t (.popped v ok))) { s with size := s.size - 1, pc := setAt s.pc t .idle }
  /-- `Clear`, line 108. -/
  | callClear (s : St V) (t : Nat) : s.pc t = .idle →
    Step s (some (.call t .clear)) { s with pc := setAt s.pc t .clear }
  /-- line 109. -/
  | clear (s : St V) (t : Nat) : s.pc t = .clear →
    Step s none { s with head := none, pc := setAt s.pc t .retClear }
  /-- `Empty`, line 119. -/
  | callEmpty (s : St V) (t : Nat) : s.pc t = .idle →
    Step s (some (.call t .empty)) { s with pc := setAt s.pc t .empty }
  /-- line 120. -/
  | empty (s : St V) (t : Nat) : s.pc t = .empty →
    Step s none { s with pc := setAt s.pc t (.retEmpty s.head.isNone) }
  /-- return of `Clear`, line 111. -/
  | retClear (s : St V) (t : Nat) : s.pc t = .retClear →
    Step s (some (.ret t .cleared)) { s with pc := setAt s.pc t .idle }
  /-- return of `Empty`, line 120. -/
  | retEmpty (s : St V) (t : Nat) (b : Bool) : s.pc t = .retEmpty b →
    Step s (some (.ret t (.isEmpty b))) { s with pc := setAt s.pc t .idle }

/-- `Size`, lfqueue.gp.go:115-117. -/
def size (s : St V) : Int := s.size.toInt

/-- `Empty`, lfqueue.gp.go:119-121, when nothing else runs. -/
def isEmpty (s : St V) : Bool := s.head.isNone

end Verif.LFQueue
