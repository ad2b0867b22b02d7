import Mathlib.Logic.Relation
/-!
# Data races in programs with mutexes

Independent of every model.  Goroutines read and write memory locations and lock and unlock mutexes (`sync.Mutex`,
`sync.RWMutex`).  The sequence of these actions in an execution determines which of them *happen before* which others, as the Go
memory model says: actions of one goroutine in program order; an `Unlock` before the next `Lock` of the same mutex and before the
`RLock`s up to then; an `RUnlock` before the next `Lock`.  Two accesses to one location race if at least one of them writes and neither
happens before the other.  A program none of whose sequentially consistent executions has a race has only these executions.
-/

namespace Verif.Spec

/-- What a goroutine does. -/
inductive Act (L M : Type) where
  | read (x : L) | write (x : L)
  | lock (m : M) | unlock (m : M) | rlock (m : M) | runlock (m : M)
  deriving DecidableEq, Repr

/-- An action of goroutine `t`. -/
structure Did (L M : Type) where
  t : Nat
  act : Act L M
  deriving DecidableEq, Repr

variable {L M : Type}

/-- Program order: an earlier action of the same goroutine. -/
def Before (τ : List (Did L M)) (i j : Nat) : Prop :=
  i < j ∧ ∃ a b, τ[i]? = some a ∧ τ[j]? = some b ∧ a.t = b.t

/-- An `Unlock` and the `Lock` or `RLock` behind it, or an `RUnlock` and the `Lock` behind it, of one mutex, with no `Lock` of it in between. -/
def Hands (τ : List (Did L M)) (i j : Nat) : Prop :=
  i < j ∧ ∃ m a b, τ[i]? = some a ∧ τ[j]? = some b ∧
    ((a.act = .unlock m ∧ (b.act = .lock m ∨ b.act = .rlock m)) ∨ (a.act = .runlock m ∧ b.act = .lock m)) ∧
    ∀ k c, i < k → k < j → τ[k]? = some c → c.act ≠ .lock m

/-- The happens-before order. -/
def Precedes (τ : List (Did L M)) : Nat → Nat → Prop :=
  Relation.TransGen fun i j => Before τ i j ∨ Hands τ i j

/-- Two accesses that need an order: to one location, one of them writes. -/
def Clash (a b : Act L M) : Prop :=
  ∃ x, (a = .write x ∧ (b = .write x ∨ b = .read x)) ∨ (a = .read x ∧ b = .write x)

/-- No two accesses race. -/
def NoRace (τ : List (Did L M)) : Prop :=
  ∀ i j a b, i < j → τ[i]? = some a → τ[j]? = some b → Clash a.act b.act → Precedes τ i j

/-- Executions of a machine whose steps show who takes them, the actions in order, and perhaps an event. -/
inductive Runs {S E : Type} (step : S → Nat → List (Act L M) → Option E → S → Prop) (s₀ : S) : List (Did L M) → List E → S → Prop
  | start : Runs step s₀ [] [] s₀
  | next {τ : List (Did L M)} {σ : List E} {s s' : S} {t : Nat} {as : List (Act L M)} {e : Option E} :
    Runs step s₀ τ σ s → step s t as e s' → Runs step s₀ (τ ++ as.map (Did.mk t)) (σ ++ e.toList) s'

end Verif.Spec
