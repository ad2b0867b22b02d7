import Verif.Model.LFDeque
/-!
# Model of the template `stl/gp/lfdeque.gp.go`: `Clear`, `Size`, `Empty` and `Cap` among the other operations

The interleaving model of `Verif.Model.LFDeque` with the four operations that make one access to the index word.
`Cap` reads the length of the buffer, which never changes once the deque has been made.
-/

namespace Verif.LFDeque
open Verif.Spec
variable {V : Type}

/-- The operations with one access to shared memory.  lfdeque.gp.go:79-82, 169-191. -/
inductive Quick where
  | clear | size | empty | cap
  deriving DecidableEq

/-- All operations.  lfdeque.gp.go:79-191. -/
inductive WOp (V : Type) where
  | base (op : Op V) | quick (k : Quick)
  deriving DecidableEq

/-- All results.  lfdeque.gp.go:79-191. -/
inductive WRet (V : Type) where
  | base (r : Ret V) | cleared | num (n : BitVec 32) | flag (b : Bool)
  deriving DecidableEq

/-- What a quick operation does to the shared object: `Clear` stores 0 in the index word, lfdeque.gp.go:80; the others
load, lines 170, 175 and 190.  The plain store to `busy` in line 81 is left out. -/
def quickDo (q : Q V) : Quick → Q V
  | .clear => clear q
  | .size | .empty | .cap => q

/-- What a quick operation answers.  lfdeque.gp.go:79-82, 169-182, 189-191. -/
def quickAns (q : Q V) : Quick → WRet V
  | .clear => .cleared
  | .size => .num (size q)
  | .empty => .flag (empty q)
  | .cap => .num (cap q.d)

/-- Where a goroutine is with respect to the quick operations: in none of them, before its access, or after it.
lfdeque.gp.go:79-82, 169-191. -/
inductive WPC (V : Type) where
  | out | before (k : Quick) | after (r : WRet V)
  deriving DecidableEq

/-- Shared object and goroutines.  lfdeque.gp.go:39-49. -/
structure WSt (V : Type) where
  base : St V
  w : Nat → WPC V

/-- A client event of the four operations that insert and remove, among all events.  lfdeque.gp.go:85-166. -/
def up : Ev (Op V) (Ret V) → Ev (WOp V) (WRet V)
  | .call t op => .call t (.base op)
  | .ret t r => .ret t (.base r)

/-- One step: of an operation that inserts or removes, or the call, the access, or the return of a quick operation.
A goroutine calls one operation at a time.  lfdeque.gp.go:79-191. -/
inductive WStep [Inhabited V] : WSt V → Option (Ev (WOp V) (WRet V)) → WSt V → Prop
  | base (s : WSt V) (e : Option (Ev (Op V) (Ret V))) (b : St V) : Step s.base e b →
    (∀ t op, e = some (.call t op) → s.w t = .out) →
    WStep s (e.map up) ⟨b, s.w⟩
  | call (s : WSt V) (t : Nat) (k : Quick) : s.base.pc t = .idle → s.w t = .out →
    WStep s (some (.call t (.quick k))) ⟨s.base, setAt s.w t (.before k)⟩
  | access (s : WSt V) (t : Nat) (k : Quick) : s.w t = .before k →
    WStep s none ⟨⟨quickDo s.base.q k, s.base.pc⟩, setAt s.w t (.after (quickAns s.base.q k))⟩
  | ret (s : WSt V) (t : Nat) (r : WRet V) : s.w t = .after r →
    WStep s (some (.ret t r)) ⟨s.base, setAt s.w t .out⟩

end Verif.LFDeque
