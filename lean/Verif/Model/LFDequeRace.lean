import Verif.Model.LFDequeWatch
import Verif.Spec.Race
/-!
# `PushBack`, `PopFront` and `Clear` of `stl/gp/lfdeque.gp.go` with their accesses

The machine of Model/LFDeque for these operations, every step of which is one access, with the location and the kind of access.
Here the counter `busy` is a location too.  `Size` and `Empty` are loads of the index word and `Busy` is a load of the counter, by a
goroutine that is in no other operation; their results are not tracked.  The field `d` is written by `Init` only and not listed.
-/

namespace Verif.LFDeque
open Verif.Spec
variable {V : Type}

/-- Locations.  lfdeque.gp.go:46-48. -/
inductive Loc where
  | headtail | busy
  /-- an element of `d`. -/
  | slot (i : Nat)
  deriving DecidableEq, Repr

/-- Where a goroutine is besides its `PC`: in no such place; about to add to `busy` since the buffer is full (line 120); in `Clear`
before line 80, before line 81, about to return.  lfdeque.gp.go:79-82, 117-121. -/
inductive XPC where
  | out | full | clear | reset | done
  deriving DecidableEq

/-- Shared object and goroutines.  lfdeque.gp.go:39-49. -/
structure DSt (V : Type) where
  base : St V
  x : Nat → XPC

/-- Labels of steps: events of the client and accesses.  lfdeque.gp.go:79-191. -/
abbrev DLab (V : Type) := Lab (Ev (WOp V) (WRet V)) Loc

variable [Inhabited V]

/-- One step of goroutine `t`: one access.  The statements of lfdeque.gp.go:79-82, 110-149, 174-191. -/
inductive DStep : DSt V → Option (DLab V) → DSt V → Prop
  | callPB (s : DSt V) (t : Nat) (v : V) : s.base.pc t = .idle → s.x t = .out →
    DStep s (some (.ev (.call t (.base (.pushBack v))))) ⟨s.base.goto t (.pbLoad v), s.x⟩
  /-- lines 117-119, full. -/
  | pbFull (s : DSt V) (t : Nat) (v : V) : s.base.pc t = .pbLoad v → s.x t = .out →
    (headTail s.base.q.headtail).1 = next s.base.q.d (headTail s.base.q.headtail).2 →
    DStep s (some (.acc ⟨t, .load, .headtail⟩)) ⟨s.base, setAt s.x t .full⟩
  /-- line 120. -/
  | pbBusy (s : DSt V) (t : Nat) : s.x t = .full → DStep s (some (.acc ⟨t, .rmw, .busy⟩)) ⟨s.base, setAt s.x t .out⟩
  /-- lines 117-119, not full. -/
  | pbLoad (s : DSt V) (t : Nat) (v : V) : s.base.pc t = .pbLoad v → s.x t = .out →
    (headTail s.base.q.headtail).1 ≠ next s.base.q.d (headTail s.base.q.headtail).2 →
    DStep s (some (.acc ⟨t, .load, .headtail⟩))
      ⟨s.base.goto t (.pbWrite v (headTail s.base.q.headtail).1 (headTail s.base.q.headtail).2 s.base.q.headtail), s.x⟩
  /-- line 124. -/
  | pbWrite (s : DSt V) (t : Nat) (v : V) (h tl : BitVec 32) (ht : BitVec 64) (d : List V) : s.base.pc t = .pbWrite v h tl ht →
    Go.set s.base.q.d tl.toNat v = .ok d →
    DStep s (some (.acc ⟨t, .write, .slot tl.toNat⟩)) ⟨⟨⟨s.base.q.headtail, d⟩, setAt s.base.pc t (.pbCas v h tl ht)⟩, s.x⟩
  /-- line 124, the index is out of range: no access. -/
  | pbPanic (s : DSt V) (t : Nat) (v : V) (h tl : BitVec 32) (ht : BitVec 64) : s.base.pc t = .pbWrite v h tl ht →
    Go.set s.base.q.d tl.toNat v = .panic → DStep s none ⟨s.base.goto t .crashed, s.x⟩
  /-- lines 125-127, success. -/
  | pbCasOk (s : DSt V) (t : Nat) (v : V) (h tl : BitVec 32) (ht : BitVec 64) : s.base.pc t = .pbCas v h tl ht →
    s.base.q.headtail = ht →
    DStep s (some (.acc ⟨t, .rmw, .headtail⟩))
      ⟨⟨⟨makeHeadTail h (next s.base.q.d tl), s.base.q.d⟩, setAt s.base.pc t (.ret .pushed)⟩, s.x⟩
  /-- line 126, failure. -/
  | pbCasFail (s : DSt V) (t : Nat) (v : V) (h tl : BitVec 32) (ht : BitVec 64) : s.base.pc t = .pbCas v h tl ht →
    s.base.q.headtail ≠ ht → DStep s (some (.acc ⟨t, .load, .headtail⟩)) ⟨s.base.goto t (.pbLoad v), s.x⟩
  | callOF (s : DSt V) (t : Nat) : s.base.pc t = .idle → s.x t = .out →
    DStep s (some (.ev (.call t (.base .popFront)))) ⟨s.base.goto t (.ofLoad default), s.x⟩
  /-- lines 137-140, empty. -/
  | ofEmpty (s : DSt V) (t : Nat) (v : V) : s.base.pc t = .ofLoad v →
    (headTail s.base.q.headtail).1 = (headTail s.base.q.headtail).2 →
    DStep s (some (.acc ⟨t, .load, .headtail⟩)) ⟨s.base.goto t (.ret (.popped v false)), s.x⟩
  /-- lines 137-138, not empty. -/
  | ofLoad (s : DSt V) (t : Nat) (v : V) : s.base.pc t = .ofLoad v →
    (headTail s.base.q.headtail).1 ≠ (headTail s.base.q.headtail).2 →
    DStep s (some (.acc ⟨t, .load, .headtail⟩))
      ⟨s.base.goto t (.ofRead (headTail s.base.q.headtail).1 (headTail s.base.q.headtail).2 s.base.q.headtail), s.x⟩
  /-- line 141. -/
  | ofRead (s : DSt V) (t : Nat) (h tl : BitVec 32) (ht : BitVec 64) (v : V) : s.base.pc t = .ofRead h tl ht →
    Go.get s.base.q.d h.toNat = .ok v →
    DStep s (some (.acc ⟨t, .read, .slot h.toNat⟩)) ⟨s.base.goto t (.ofCas v h tl ht), s.x⟩
  /-- line 141, the index is out of range: no access. -/
  | ofPanic (s : DSt V) (t : Nat) (h tl : BitVec 32) (ht : BitVec 64) : s.base.pc t = .ofRead h tl ht →
    Go.get s.base.q.d h.toNat = .panic → DStep s none ⟨s.base.goto t .crashed, s.x⟩
  /-- lines 142-145, success. -/
  | ofCasOk (s : DSt V) (t : Nat) (v : V) (h tl : BitVec 32) (ht : BitVec 64) : s.base.pc t = .ofCas v h tl ht →
    s.base.q.headtail = ht →
    DStep s (some (.acc ⟨t, .rmw, .headtail⟩))
      ⟨⟨⟨makeHeadTail (next s.base.q.d h) tl, s.base.q.d⟩, setAt s.base.pc t (.ret (.popped v true))⟩, s.x⟩
  /-- line 144, failure. -/
  | ofCasFail (s : DSt V) (t : Nat) (v : V) (h tl : BitVec 32) (ht : BitVec 64) : s.base.pc t = .ofCas v h tl ht →
    s.base.q.headtail ≠ ht → DStep s (some (.acc ⟨t, .load, .headtail⟩)) ⟨s.base.goto t (.ofLoad v), s.x⟩
  | ret (s : DSt V) (t : Nat) (r : Ret V) : s.base.pc t = .ret r →
    DStep s (some (.ev (.ret t (.base r)))) ⟨s.base.goto t .idle, s.x⟩
  | callClear (s : DSt V) (t : Nat) : s.base.pc t = .idle → s.x t = .out →
    DStep s (some (.ev (.call t (.quick .clear)))) ⟨s.base, setAt s.x t .clear⟩
  /-- line 80. -/
  | clear (s : DSt V) (t : Nat) : s.x t = .clear →
    DStep s (some (.acc ⟨t, .store, .headtail⟩)) ⟨⟨clear s.base.q, s.base.pc⟩, setAt s.x t .reset⟩
  /-- line 81, not an atomic store. -/
  | reset (s : DSt V) (t : Nat) : s.x t = .reset → DStep s (some (.acc ⟨t, .write, .busy⟩)) ⟨s.base, setAt s.x t .done⟩
  | retClear (s : DSt V) (t : Nat) : s.x t = .done →
    DStep s (some (.ev (.ret t .cleared))) ⟨s.base, setAt s.x t .out⟩
  /-- `Size` and `Empty`, lines 175 and 190. -/
  | size (s : DSt V) (t : Nat) : s.base.pc t = .idle → s.x t = .out → DStep s (some (.acc ⟨t, .load, .headtail⟩)) s
  /-- `Busy`, line 185. -/
  | busy (s : DSt V) (t : Nat) : s.base.pc t = .idle → s.x t = .out → DStep s (some (.acc ⟨t, .load, .busy⟩)) s

end Verif.LFDeque
