import Verif.Spec.Linearizable
/-!
# Locks as seen in the history of calls and returns

Independent of every model.
-/

namespace Verif.Spec
variable {Op Ret : Type}

/-- The last call of goroutine `t` in a history, and whether it has returned. -/
def lastCall (t : Nat) (τ : List (Ev Op Ret)) : Option (Op × Bool) :=
  τ.foldl (fun a e => match e with
    | .call u op => if u = t then some (op, false) else a
    | .ret u _ => if u = t then a.map (fun p => (p.1, true)) else a) none

/-- After the history `τ`, goroutine `t` has returned from `lock` and called nothing since. -/
def HoldsAfter (lock : Op) (τ : List (Ev Op Ret)) (t : Nat) : Prop := lastCall t τ = some (lock, true)

/-- Every `unlock` in the history is called by a goroutine that holds the lock at that time. -/
def OwnUnlocks (lock unlock : Op) (τ : List (Ev Op Ret)) : Prop :=
  ∀ τ₁ t τ₂, τ = τ₁ ++ .call t unlock :: τ₂ → HoldsAfter lock τ₁ t

end Verif.Spec
