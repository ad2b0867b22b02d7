import Verif.Spec.Race
import Verif.Spec.Linearizable
/-!
# Handing values over

Independent of every model.  A goroutine prepares something, gives it to a container, and another goroutine takes it out and uses it.
This is safe if everything the first goroutine did before it called the container happens before everything the second one does once
it has the value.  The events of an execution (calls and returns) take part in the order of their goroutine; the synchronization
between goroutines is that of the atomic operations, as in Spec/Race.
-/

namespace Verif.Spec
variable {Op Ret L V : Type}

/-- The goroutine of an event. -/
def Ev.by : Ev Op Ret → Nat
  | .call t _ => t
  | .ret t _ => t

/-- Events ordered among the accesses: an event counts as reading a location that nobody ever writes, so that it is ordered with what
its own goroutine does and with nothing else. -/
def Lab.asAcc : Lab (Ev Op Ret) L → Acc (Option L)
  | .ev e => ⟨e.by, .read, none⟩
  | .acc a => ⟨a.t, a.kind, some a.loc⟩

/-- What stands at position `i` of the execution happens before what stands at position `j`. -/
def EvBefore (τ : List (Lab (Ev Op Ret) L)) (i j : Nat) : Prop := HappensBefore (τ.map Lab.asAcc) i j

/-- Every value taken out was put in: position `j`, where `took v` is returned, has its own position `src j`, where `put v` was
called, and what was done before that call happens before what is done after the return.  Different values taken out come from
different calls. -/
def HandsOver (put : V → Op) (took : V → Ret) (τ : List (Lab (Ev Op Ret) L)) : Prop :=
  ∃ src : Nat → Nat,
    (∀ j t v, τ[j]? = some (.ev (.ret t (took v))) → (∃ u, τ[src j]? = some (.ev (.call u (put v)))) ∧ EvBefore τ (src j) j) ∧
    ∀ j j' t t' v v', τ[j]? = some (.ev (.ret t (took v))) → τ[j']? = some (.ev (.ret t' (took v'))) → src j = src j' → j = j'

end Verif.Spec
