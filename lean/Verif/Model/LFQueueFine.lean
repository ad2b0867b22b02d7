import Verif.Model.LFQueue
import Verif.Spec.Race
/-!
# The template `stl/gp/lfqueue.gp.go`, one access at a time

The same machine as in Model/LFQueue, but every single access to memory is a step of its own, the accesses to a node that is still
private included, and every step says which location it accesses and how.  Allocation gives a fresh, zeroed node.  `Size` is an
atomic load whose result is not tracked.
-/

namespace Verif.LFQueue
open Verif.Spec
variable {V : Type}

/-- Locations: `head.next`, `size`, and the fields of the nodes.  lfqueue.gp.go:33-43. -/
inductive Loc where
  | head | size
  | val (n : Nat)
  | next (n : Nat)
  deriving DecidableEq, Repr

/-- Where a goroutine is; the numbers are the line of the next access in lfqueue.gp.go. -/
inductive FPC (V : Type) where
  | idle
  /-- `makeNode`, 47. -/
  | pVal (v : V) (n : Nat)
  /-- `makeNode`, 48. -/
  | pNil (v : V) (n : Nat)
  /-- 56, the load. -/
  | pLoad (v : V) (n : Nat)
  /-- 56, the store into `n.next` of the value loaded. -/
  | pNext (v : V) (n : Nat) (h : Ptr)
  /-- 57, reading `n.next` for the second argument. -/
  | pOld (v : V) (n : Nat)
  /-- 57, the compare-and-swap. -/
  | pCas (v : V) (n : Nat) (old : Ptr)
  /-- 64. -/
  | pAdd
  /-- 92. -/
  | oLoad
  /-- 97. -/
  | oNext (n : Nat)
  /-- 98. -/
  | oCas (n : Nat) (next : Ptr)
  /-- 99, reading `n.val`. -/
  | oVal (n : Nat)
  /-- 104. -/
  | oSub (v : V) (ok : Bool)
  /-- 109. -/
  | clear
  /-- 120. -/
  | empty
  /-- about to return from `PushFront` (65), `PopFront` (105), `Clear` (111) or `Empty` (120). -/
  | ret (r : Ret V)

/-- Shared memory and goroutines, as `St`.  lfqueue.gp.go:39-43. -/
structure FSt (V : Type) where
  mem : Nat → Node V
  alloc : Nat
  head : Ptr
  size : BitVec 32
  pc : Nat → FPC V

/-- The zero value.  lfqueue.gp.go:39-43. -/
def FSt.init [Inhabited V] : FSt V := ⟨fun _ => ⟨default, none⟩, 0, none, 0, fun _ => .idle⟩

/-- Labels of steps: events of the client and accesses.  lfqueue.gp.go:52-121. -/
abbrev FLab (V : Type) := Lab (Ev (Op V) (Ret V)) Loc

variable [Inhabited V]

/-- One step of goroutine `t`: one access to memory.  The statements of lfqueue.gp.go:45-121. -/
inductive FStep : FSt V → Option (FLab V) → FSt V → Prop
  /-- lines 52-53, 46: the call, and the allocation. -/
  | callPush (s : FSt V) (t : Nat) (v : V) : s.pc t = .idle →
    FStep s (some (.ev (.call t (.push v))))
      { s with mem := setAt s.mem s.alloc ⟨default, none⟩, alloc := s.alloc + 1, pc := setAt s.pc t (.pVal v s.alloc) }
  /-- line 47. -/
  | pVal (s : FSt V) (t : Nat) (v : V) (n : Nat) : s.pc t = .pVal v n →
    FStep s (some (.acc ⟨t, .write, .val n⟩))
      { s with mem := setAt s.mem n { s.mem n with val := v }, pc := setAt s.pc t (.pNil v n) }
  /-- line 48. -/
  | pNil (s : FSt V) (t : Nat) (v : V) (n : Nat) : s.pc t = .pNil v n →
    FStep s (some (.acc ⟨t, .write, .next n⟩))
      { s with mem := setAt s.mem n { s.mem n with next := none }, pc := setAt s.pc t (.pLoad v n) }
  /-- line 56, the load. -/
  | pLoad (s : FSt V) (t : Nat) (v : V) (n : Nat) : s.pc t = .pLoad v n →
    FStep s (some (.acc ⟨t, .load, .head⟩)) { s with pc := setAt s.pc t (.pNext v n s.head) }
  /-- line 56, the store. -/
  | pNext (s : FSt V) (t : Nat) (v : V) (n : Nat) (h : Ptr) : s.pc t = .pNext v n h →
    FStep s (some (.acc ⟨t, .write, .next n⟩))
      { s with mem := setAt s.mem n { s.mem n with next := h }, pc := setAt s.pc t (.pOld v n) }
  /-- line 57, the argument. -/
  | pOld (s : FSt V) (t : Nat) (v : V) (n : Nat) : s.pc t = .pOld v n →
    FStep s (some (.acc ⟨t, .read, .next n⟩)) { s with pc := setAt s.pc t (.pCas v n (s.mem n).next) }
  /-- line 57, success. -/
  | pCasOk (s : FSt V) (t : Nat) (v : V) (n : Nat) (old : Ptr) : s.pc t = .pCas v n old → s.head = old →
    FStep s (some (.acc ⟨t, .rmw, .head⟩)) { s with head := some n, pc := setAt s.pc t .pAdd }
  /-- line 57, failure. -/
  | pCasFail (s : FSt V) (t : Nat) (v : V) (n : Nat) (old : Ptr) : s.pc t = .pCas v n old → s.head ≠ old →
    FStep s (some (.acc ⟨t, .load, .head⟩)) { s with pc := setAt s.pc t (.pLoad v n) }
  /-- line 64. -/
  | pAdd (s : FSt V) (t : Nat) : s.pc t = .pAdd →
    FStep s (some (.acc ⟨t, .rmw, .size⟩)) { s with size := s.size + 1, pc := setAt s.pc t (.ret (.pushed true)) }
  /-- line 90. -/
  | callPop (s : FSt V) (t : Nat) : s.pc t = .idle →
    FStep s (some (.ev (.call t .pop))) { s with pc := setAt s.pc t .oLoad }
  /-- lines 92-94, nil. -/
  | oNil (s : FSt V) (t : Nat) : s.pc t = .oLoad → s.head = none →
    FStep s (some (.acc ⟨t, .load, .head⟩)) { s with pc := setAt s.pc t (.oSub default false) }
  /-- line 92, not nil. -/
  | oLoad (s : FSt V) (t n : Nat) : s.pc t = .oLoad → s.head = some n →
    FStep s (some (.acc ⟨t, .load, .head⟩)) { s with pc := setAt s.pc t (.oNext n) }
  /-- line 97. -/
  | oNext (s : FSt V) (t n : Nat) : s.pc t = .oNext n →
    FStep s (some (.acc ⟨t, .read, .next n⟩)) { s with pc := setAt s.pc t (.oCas n (s.mem n).next) }
  /-- line 98, success. -/
  | oCasOk (s : FSt V) (t n : Nat) (nx : Ptr) : s.pc t = .oCas n nx → s.head = some n →
    FStep s (some (.acc ⟨t, .rmw, .head⟩)) { s with head := nx, pc := setAt s.pc t (.oVal n) }
  /-- line 98, failure. -/
  | oCasFail (s : FSt V) (t n : Nat) (nx : Ptr) : s.pc t = .oCas n nx → s.head ≠ some n →
    FStep s (some (.acc ⟨t, .load, .head⟩)) { s with pc := setAt s.pc t .oLoad }
  /-- line 99. -/
  | oVal (s : FSt V) (t n : Nat) : s.pc t = .oVal n →
    FStep s (some (.acc ⟨t, .read, .val n⟩)) { s with pc := setAt s.pc t (.oSub (s.mem n).val true) }
  /-- line 104. -/
  | oSub (s : FSt V) (t : Nat) (v : V) (ok : Bool) : s.pc t = .oSub v ok →
    FStep s (some (.acc ⟨t, .rmw, .size⟩)) { s with size := s.size - 1, pc := setAt s.pc t (.ret (.popped v ok)) }
  /-- line 108. -/
  | callClear (s : FSt V) (t : Nat) : s.pc t = .idle →
    FStep s (some (.ev (.call t .clear))) { s with pc := setAt s.pc t .clear }
  /-- line 109. -/
  | clear (s : FSt V) (t : Nat) : s.pc t = .clear →
    FStep s (some (.acc ⟨t, .store, .head⟩)) { s with head := none, pc := setAt s.pc t (.ret .cleared) }
  /-- line 119. -/
  | callEmpty (s : FSt V) (t : Nat) : s.pc t = .idle →
    FStep s (some (.ev (.call t .empty))) { s with pc := setAt s.pc t .empty }
  /-- line 120. -/
  | empty (s : FSt V) (t : Nat) : s.pc t = .empty →
    FStep s (some (.acc ⟨t, .load, .head⟩)) { s with pc := setAt s.pc t (.ret (.isEmpty s.head.isNone)) }
  /-- `Size`, line 116. -/
  | size (s : FSt V) (t : Nat) : s.pc t = .idle →
    FStep s (some (.acc ⟨t, .load, .size⟩)) s
  /-- lines 65, 105, 111 and 120. -/
  | ret (s : FSt V) (t : Nat) (r : Ret V) : s.pc t = .ret r →
    FStep s (some (.ev (.ret t r))) { s with pc := setAt s.pc t .idle }

end Verif.LFQueue
