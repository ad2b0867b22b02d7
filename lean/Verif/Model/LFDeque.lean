import Verif.Model.Go
import Verif.Spec.Linearizable
/-!
# Model of the template `stl/gp/lfdeque.gp.go` (bounded lock-free deque)

First the index arithmetic and one pass through the loop of each operation when no other goroutine interferes
(the CAS then succeeds), then the interleaving model in which one step is one access to shared memory.
The counter `busy` is left out (it is only reported by `Busy`).
-/

namespace Verif.LFDeque
open Verif.Spec
variable {V : Type}

/-- `LFDeque`, lfdeque.gp.go:39-49; `d = []` stands for the nil slice. -/
structure Q (V : Type) where
  headtail : BitVec 64
  d : List V

/-- `Cap`, lfdeque.gp.go:169-171. -/
def cap (d : List V) : BitVec 32 := BitVec.ofNat 32 d.length

/-- `headTail`, lfdeque.gp.go:193-198. -/
def headTail (ht : BitVec 64) : BitVec 32 × BitVec 32 :=
  ((ht &&& 0xFFFFFFFF#64).setWidth 32, ((ht >>> 32) &&& 0xFFFFFFFF#64).setWidth 32)

/-- `makeHeadTail`, lfdeque.gp.go:200-203 (`&` and `<<` have the same precedence in Go and associate to the
left). -/
def makeHeadTail (head tail : BitVec 32) : BitVec 64 :=
  (head.setWidth 64 &&& 0xFFFFFFFF#64) ||| ((tail.setWidth 64 &&& 0xFFFFFFFF#64) <<< 32)

/-- `next`, lfdeque.gp.go:206-211. -/
def next (d : List V) (idx : BitVec 32) : BitVec 32 :=
  if idx + 1 ≥ cap d then 0 else idx + 1

/-- `prev`, lfdeque.gp.go:214-219; the test `r < 0` on an unsigned number is never true. -/
def prev (idx : BitVec 32) : BitVec 32 := idx - 1

/-- `Init`, lfdeque.gp.go:59-68, with `newBuf`, 71-76, and `Clear`, 79-82. -/
def init [Inhabited V] (q : Q V) (bufSize : Int) : Q V :=
  if q.d = [] then ⟨0, List.replicate (if bufSize ≤ 0 then 8 else bufSize.toNat) default⟩
  else { q with headtail := 0 }

/-- `NewLFDeque`, lfdeque.gp.go:52-56. -/
def new [Inhabited V] (bufSize : Int) : Q V := init ⟨0, []⟩ bufSize

/-- `PushBack`, lfdeque.gp.go:110-132; `none`: the buffer is full and the caller waits. -/
def pushBack [Inhabited V] (q : Q V) (v : V) : Res (Option (Q V)) := do
  let q := if q.d = [] then init q (-1) else q
  let (head, tail) := headTail q.headtail
  let tailNext := next q.d tail
  if head = tailNext then return none
  let d ← Go.set q.d tail.toNat v
  return some ⟨makeHeadTail head tailNext, d⟩

/-- `PushFront`, lfdeque.gp.go:85-107. -/
def pushFront [Inhabited V] (q : Q V) (v : V) : Res (Option (Q V)) := do
  let q := if q.d = [] then init q (-1) else q
  let (head, tail) := headTail q.headtail
  let head := prev head
  if head = tail then return none
  let d ← Go.set q.d head.toNat v
  return some ⟨makeHeadTail head tail, d⟩

/-- `PopFront`, lfdeque.gp.go:135-149. -/
def popFront [Inhabited V] (q : Q V) : Res (Q V × V × Bool) := do
  let (head, tail) := headTail q.headtail
  if head = tail then return (q, default, false)
  let v ← Go.get q.d head.toNat
  return ({ q with headtail := makeHeadTail (next q.d head) tail }, v, true)

/-- `PopBack`, lfdeque.gp.go:152-166. -/
def popBack [Inhabited V] (q : Q V) : Res (Q V × V × Bool) := do
  let (head, tail) := headTail q.headtail
  let tailPrev := prev tail
  if head = tail then return (q, default, false)
  let v ← Go.get q.d tailPrev.toNat
  return ({ q with headtail := makeHeadTail head tailPrev }, v, true)

/-- `Clear`, lfdeque.gp.go:79-82. -/
def clear (q : Q V) : Q V := { q with headtail := 0 }

/-- `Size`, lfdeque.gp.go:174-182. -/
def size (q : Q V) : BitVec 32 :=
  let (head, tail) := headTail q.headtail
  if tail ≥ head then tail - head else cap q.d - (head - tail)

/-- `Empty`, lfdeque.gp.go:189-191. -/
def empty (q : Q V) : Bool := size q == 0

/-! ## Interleavings -/

/-- Operations.  lfdeque.gp.go:79-191. -/
inductive Op (V : Type) where
  | pushBack (v : V) | pushFront (v : V) | popFront | popBack
  deriving DecidableEq

/-- Results.  lfdeque.gp.go:79-191. -/
inductive Ret (V : Type) where
  | pushed | popped (v : V) (ok : Bool)
  deriving DecidableEq

/-- Where a goroutine is.  The points between the accesses of lfdeque.gp.go:79-166. -/
inductive PC (V : Type) where
  | idle
  /-- `PushBack`: before line 117, before line 124, before line 126. -/
  | pbLoad (v : V) | pbWrite (v : V) (h t : BitVec 32) (ht : BitVec 64) | pbCas (v : V) (h t : BitVec 32) (ht : BitVec 64)
  /-- `PushFront`: before line 92, 99, 101. -/
  | pfLoad (v : V) | pfWrite (v : V) (h t : BitVec 32) (ht : BitVec 64) | pfCas (v : V) (h t : BitVec 32) (ht : BitVec 64)
  /-- `PopFront`: before line 137 (with the value of the named result `front` so far), 141, 144. -/
  | ofLoad (v : V) | ofRead (h t : BitVec 32) (ht : BitVec 64) | ofCas (v : V) (h t : BitVec 32) (ht : BitVec 64)
  /-- `PopBack`: before line 154 (with the value of the named result `back` so far), 159, 161. -/
  | obLoad (v : V) | obRead (h t : BitVec 32) (ht : BitVec 64) | obCas (v : V) (h t : BitVec 32) (ht : BitVec 64)
  /-- about to return. -/
  | ret (r : Ret V)
  /-- panicked. -/
  | crashed
  deriving DecidableEq

/-- Shared object and goroutines.  The object has been initialised (`d` is not nil).  lfdeque.gp.go:39-49. -/
structure St (V : Type) where
  q : Q V
  pc : Nat → PC V

/-- Goroutine `t` goes to `p`.  Control flow of lfdeque.gp.go:79-166. -/
def St.goto (s : St V) (t : Nat) (p : PC V) : St V := ⟨s.q, setAt s.pc t p⟩

/-- One step of goroutine `t`.  A goroutine that finds the buffer full loads again (the waiting of lines 95-97
and 120-122).  The statements of lfdeque.gp.go:79-166. -/
inductive Step [Inhabited V] : St V → Option (Ev (Op V) (Ret V)) → St V → Prop
  | callPB (s : St V) (t : Nat) (v : V) : s.pc t = .idle →
    Step s (some (.call t (.pushBack v))) (s.goto t (.pbLoad v))
  /-- lines 117-123. -/
  | pbLoad (s : St V) (t : Nat) (v : V) : s.pc t = .pbLoad v →
    Step s none (s.goto t (if (headTail s.q.headtail).1 = next s.q.d (headTail s.q.headtail).2 then .pbLoad v
        else .pbWrite v (headTail s.q.headtail).1 (headTail s.q.headtail).2 s.q.headtail))
  /-- line 124. -/
  | pbWrite (s : St V) (t : Nat) (v : V) (h tl : BitVec 32) (ht : BitVec 64) : s.pc t = .pbWrite v h tl ht →
    Step s none
      (match Go.set s.q.d tl.toNat v with
        | .ok d => ⟨⟨s.q.headtail, d⟩, setAt s.pc t (.pbCas v h tl ht)⟩
        | .panic => (s.goto t .crashed))
  /-- lines 125-128. -/
  | pbCas (s : St V) (t : Nat) (v : V) (h tl : BitVec 32) (ht : BitVec 64) : s.pc t = .pbCas v h tl ht →
    Step s none
      (if s.q.headtail = ht then ⟨⟨makeHeadTail h (next s.q.d tl), s.q.d⟩, setAt s.pc t (.ret .pushed)⟩
        else (s.goto t (.pbLoad v)))
  | callPF (s : St V) (t : Nat) (v : V) : s.pc t = .idle →
    Step s (some (.call t (.pushFront v))) (s.goto t (.pfLoad v))
  /-- lines 92-98. -/
  | pfLoad (s : St V) (t : Nat) (v : V) : s.pc t = .pfLoad v →
    Step s none (s.goto t (if prev (headTail s.q.headtail).1 = (headTail s.q.headtail).2 then .pfLoad v
        else .pfWrite v (prev (headTail s.q.headtail).1) (headTail s.q.headtail).2 s.q.headtail))
  /-- line 99. -/
  | pfWrite (s : St V) (t : Nat) (v : V) (h tl : BitVec 32) (ht : BitVec 64) : s.pc t = .pfWrite v h tl ht →
    Step s none
      (match Go.set s.q.d h.toNat v with
        | .ok d => ⟨⟨s.q.headtail, d⟩, setAt s.pc t (.pfCas v h tl ht)⟩
        | .panic => (s.goto t .crashed))
  /-- lines 100-103. -/
  | pfCas (s : St V) (t : Nat) (v : V) (h tl : BitVec 32) (ht : BitVec 64) : s.pc t = .pfCas v h tl ht →
    Step s none
      (if s.q.headtail = ht then ⟨⟨makeHeadTail h tl, s.q.d⟩, setAt s.pc t (.ret .pushed)⟩
        else (s.goto t (.pfLoad v)))
  | callOF (s : St V) (t : Nat) : s.pc t = .idle →
    Step s (some (.call t .popFront)) (s.goto t (.ofLoad default))
  /-- lines 137-140. -/
  | ofLoad (s : St V) (t : Nat) (v : V) : s.pc t = .ofLoad v →
    Step s none (s.goto t (if (headTail s.q.headtail).1 = (headTail s.q.headtail).2 then .ret (.popped v false)
        else .ofRead (headTail s.q.headtail).1 (headTail s.q.headtail).2 s.q.headtail))
  /-- line 141. -/
  | ofRead (s : St V) (t : Nat) (h tl : BitVec 32) (ht : BitVec 64) : s.pc t = .ofRead h tl ht →
    Step s none (s.goto t (match Go.get s.q.d h.toNat with
        | .ok v => .ofCas v h tl ht
        | .panic => .crashed))
  /-- lines 142-146. -/
  | ofCas (s : St V) (t : Nat) (v : V) (h tl : BitVec 32) (ht : BitVec 64) : s.pc t = .ofCas v h tl ht →
    Step s none
      (if s.q.headtail = ht then ⟨⟨makeHeadTail (next s.q.d h) tl, s.q.d⟩, setAt s.pc t (.ret (.popped v true))⟩
        else (s.goto t (.ofLoad v)))
  | callOB (s : St V) (t : Nat) : s.pc t = .idle →
    Step s (some (.call t .popBack)) (s.goto t (.obLoad default))
  /-- lines 154-158. -/
  | obLoad (s : St V) (t : Nat) (v : V) : s.pc t = .obLoad v →
    Step s none (s.goto t (if (headTail s.q.headtail).1 = (headTail s.q.headtail).2 then .ret (.popped v false)
        else .obRead (headTail s.q.headtail).1 (prev (headTail s.q.headtail).2) s.q.headtail))
  /-- line 159. -/
  | obRead (s : St V) (t : Nat) (h tl : BitVec 32) (ht : BitVec 64) : s.pc t = .obRead h tl ht →
    Step s none (s.goto t (match Go.get s.q.d tl.toNat with
        | .ok v => .obCas v h tl ht
        | .panic => .crashed))
  /-- lines 160-163. -/
  | obCas (s : St V) (t : Nat) (v : V) (h tl : BitVec 32) (ht : BitVec 64) : s.pc t = .obCas v h tl ht →
    Step s none
      (if s.q.headtail = ht then ⟨⟨makeHeadTail h tl, s.q.d⟩, setAt s.pc t (.ret (.popped v true))⟩
        else (s.goto t (.obLoad v)))
  | ret (s : St V) (t : Nat) (r : Ret V) : s.pc t = .ret r →
    Step s (some (.ret t r)) (s.goto t .idle)

end Verif.LFDeque
