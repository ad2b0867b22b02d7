import Mathlib.Logic.Relation
/-!
# Data races

Independent of every model.  Goroutines access memory locations; some accesses are atomic operations (`sync/atomic`).  The
sequence of accesses of an execution determines which of them *happen before* which others, as the Go memory model says: accesses
of one goroutine in program order, and an atomic operation before every atomic operation that observes its effect.  Two accesses
to one location race if at least one of them writes, at least one of them is not atomic, and neither happens before the other.  A
program none of whose sequentially consistent executions has a race has only these executions.
-/

namespace Verif.Spec

/-- The kinds of accesses: the last three are atomic; `rmw` reads and writes (a successful compare-and-swap, an addition), a failed
compare-and-swap is a `load`. -/
inductive AccKind where
  | read | write | load | store | rmw
  deriving DecidableEq, Repr

/-- An atomic operation. -/
def AccKind.atomic : AccKind → Bool
  | .load => true
  | .store => true
  | .rmw => true
  | _ => false

/-- An access that writes. -/
def AccKind.writes : AccKind → Bool
  | .write => true
  | .store => true
  | .rmw => true
  | _ => false

/-- An atomic operation that observes the location. -/
def AccKind.observes : AccKind → Bool
  | .load => true
  | .rmw => true
  | _ => false

/-- An access of goroutine `t`. -/
structure Acc (L : Type) where
  t : Nat
  kind : AccKind
  loc : L
  deriving DecidableEq, Repr

variable {L : Type}

/-- Program order: an earlier access of the same goroutine. -/
def ProgOrder (τ : List (Acc L)) (i j : Nat) : Prop :=
  i < j ∧ ∃ a b, τ[i]? = some a ∧ τ[j]? = some b ∧ a.t = b.t

/-- The `i`-th access is the last one before position `n` that writes the location. -/
def LastWrite (τ : List (Acc L)) (n : Nat) (x : L) (i : Nat) : Prop :=
  i < n ∧ (∃ a, τ[i]? = some a ∧ a.loc = x ∧ a.kind.writes = true) ∧
    ∀ k, i < k → k < n → ∀ c, τ[k]? = some c → c.loc = x → c.kind.writes = false

/-- The effect of the atomic operation `i` is observed by the atomic operation `j`. -/
def Observed (τ : List (Acc L)) (i j : Nat) : Prop :=
  ∃ a b, τ[i]? = some a ∧ τ[j]? = some b ∧ a.kind.atomic = true ∧ b.kind.observes = true ∧ LastWrite τ j b.loc i

/-- The happens-before order. -/
def HappensBefore (τ : List (Acc L)) : Nat → Nat → Prop :=
  Relation.TransGen fun i j => ProgOrder τ i j ∨ Observed τ i j

/-- Two accesses that need an order. -/
def Conflict (a b : Acc L) : Prop :=
  a.loc = b.loc ∧ (a.kind.writes = true ∨ b.kind.writes = true) ∧ (a.kind.atomic = false ∨ b.kind.atomic = false)

/-- No two accesses race. -/
def RaceFree (τ : List (Acc L)) : Prop :=
  ∀ i j a b, i < j → τ[i]? = some a → τ[j]? = some b → Conflict a b → HappensBefore τ i j

/-- What an execution shows when the accesses are recorded: events of the client, and accesses. -/
inductive Lab (E L : Type) where
  | ev (e : E)
  | acc (a : Acc L)

/-- The accesses of an execution. -/
def accs {E : Type} (τ : List (Lab E L)) : List (Acc L) :=
  τ.filterMap fun
    | .acc a => some a
    | .ev _ => none

/-- The events of an execution. -/
def evs {E : Type} (τ : List (Lab E L)) : List E :=
  τ.filterMap fun
    | .acc _ => none
    | .ev e => some e

end Verif.Spec
