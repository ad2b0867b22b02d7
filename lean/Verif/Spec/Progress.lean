import Verif.Spec.Linearizable
import Mathlib.Data.Finset.Dedup
/-!
# Counting the steps of executions

Independent of every model.
-/

namespace Verif.Spec

/-- `ExecN step s n τ s'`: an execution of exactly `n` steps leads from `s` to `s'` and shows the events `τ`. -/
inductive ExecN {S E : Type} (step : S → Option E → S → Prop) : S → Nat → List E → S → Prop
  | refl (s : S) : ExecN step s 0 [] s
  | silent {s s' s'' : S} {n : Nat} {τ : List E} : ExecN step s n τ s' → step s' none s'' → ExecN step s (n + 1) τ s''
  | visible {s s' s'' : S} {n : Nat} {τ : List E} {e : E} :
    ExecN step s n τ s' → step s' (some e) s'' → ExecN step s (n + 1) (τ ++ [e]) s''

/-- The event is a call. -/
def Ev.isCall {Op Ret : Type} : Ev Op Ret → Bool
  | .call _ _ => true
  | .ret _ _ => false

/-- The number of calls. -/
def calls {Op Ret : Type} (τ : List (Ev Op Ret)) : Nat := τ.countP Ev.isCall

/-- All calls are made by goroutines of the set. -/
def CallsBy {Op Ret : Type} (T : Nat → Prop) (τ : List (Ev Op Ret)) : Prop := ∀ t op, Ev.call t op ∈ τ → T t

/-- The goroutines that have called. -/
def callers {Op Ret : Type} (τ : List (Ev Op Ret)) : Finset Nat :=
  (τ.filterMap fun e => match e with
    | .call t _ => some t
    | .ret _ _ => none).toFinset

theorem callsBy_callers {Op Ret : Type} (τ : List (Ev Op Ret)) : CallsBy (· ∈ callers τ) τ := by
  intro t op h
  simp only [callers, List.mem_toFinset, List.mem_filterMap]
  exact ⟨_, h, rfl⟩

theorem ExecN.exec {S E : Type} {step : S → Option E → S → Prop} {s s' : S} {n : Nat} {τ : List E}
    (h : ExecN step s n τ s') : Exec step s τ s' := by
  induction h with
  | refl => exact .refl _
  | silent _ hs ih => exact .silent ih hs
  | visible _ hs ih => exact .visible ih hs

theorem Exec.counted {S E : Type} {step : S → Option E → S → Prop} {s s' : S} {τ : List E}
    (h : Exec step s τ s') : ∃ n, ExecN step s n τ s' := by
  induction h with
  | refl => exact ⟨0, .refl _⟩
  | silent _ hs ih => obtain ⟨n, hn⟩ := ih; exact ⟨n + 1, .silent hn hs⟩
  | visible _ hs ih => obtain ⟨n, hn⟩ := ih; exact ⟨n + 1, .visible hn hs⟩

end Verif.Spec
