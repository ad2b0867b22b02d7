import Verif.Spec.ListWorld
/-!
# Executions of concurrent programs and linearizability

Independent of every model.  Goroutines are numbered.  A concurrent object shows the client two kinds of
events: a goroutine calls an operation, a goroutine gets its result.  An object is *linearizable* with respect
to a sequential specification when every sequence of events it can show is also shown by the canonical atomic
object, in which every operation takes effect in one indivisible step somewhere between its call and its
return.
-/

namespace Verif.Spec

/-- What a client can see. -/
inductive Ev (Op Ret : Type) where
  | call (t : Nat) (op : Op)
  | ret (t : Nat) (r : Ret)
  deriving DecidableEq

/-- `Exec step s τ s'`: some finite execution leads from `s` to `s'` and shows exactly the events `τ`. -/
inductive Exec {S E : Type} (step : S → Option E → S → Prop) : S → List E → S → Prop
  | refl (s : S) : Exec step s [] s
  | silent {s s' s'' : S} {τ : List E} : Exec step s τ s' → step s' none s'' → Exec step s τ s''
  | visible {s s' s'' : S} {τ : List E} {e : E} :
    Exec step s τ s' → step s' (some e) s'' → Exec step s (τ ++ [e]) s''

/-- What a goroutine is doing, seen from the atomic object. -/
inductive AStatus (Op Ret : Type) where
  | idle
  | pending (op : Op)
  | done (r : Ret)

/-- State of the atomic object. -/
structure AState (σ Op Ret : Type) where
  s : σ
  th : Nat → AStatus Op Ret

/-- Steps of the atomic object for the sequential specification `seq`. -/
inductive AStep {σ Op Ret : Type} (seq : σ → Op → σ × Ret) :
    AState σ Op Ret → Option (Ev Op Ret) → AState σ Op Ret → Prop
  | call (a : AState σ Op Ret) (t : Nat) (op : Op) : a.th t = .idle →
    AStep seq a (some (.call t op)) ⟨a.s, setAt a.th t (.pending op)⟩
  | effect (a : AState σ Op Ret) (t : Nat) (op : Op) : a.th t = .pending op →
    AStep seq a none ⟨(seq a.s op).1, setAt a.th t (.done (seq a.s op).2)⟩
  | ret (a : AState σ Op Ret) (t : Nat) (r : Ret) : a.th t = .done r →
    AStep seq a (some (.ret t r)) ⟨a.s, setAt a.th t .idle⟩

/-- The atomic object before any call. -/
def AState.init {σ Op Ret : Type} (s0 : σ) : AState σ Op Ret := ⟨s0, fun _ => .idle⟩

/-- Linearizability of the system `step` started in `s`, with respect to `seq` started in `s0`. -/
def Linearizable {S σ Op Ret : Type} (step : S → Option (Ev Op Ret) → S → Prop) (s : S)
    (seq : σ → Op → σ × Ret) (s0 : σ) : Prop :=
  ∀ τ s', Exec step s τ s' → ∃ a, Exec (AStep seq) (AState.init s0) τ a

/-- Some number of silent steps. -/
theorem Exec.trans {S E : Type} {step : S → Option E → S → Prop} {s s' s'' : S} {τ τ' : List E}
    (h1 : Exec step s τ s') (h2 : Exec step s' τ' s'') : Exec step s (τ ++ τ') s'' := by
  induction h2 with
  | refl => simpa using h1
  | silent _ hs ih => exact .silent ih hs
  | visible _ hs ih => rw [← List.append_assoc]; exact .visible ih hs

/-- Invariants: a property of trace and state that holds initially and is kept by every step. -/
theorem Exec.invariant {S E : Type} {step : S → Option E → S → Prop} {s : S} (P : List E → S → Prop)
    (h0 : P [] s) (h1 : ∀ τ s' s'', P τ s' → step s' none s'' → P τ s'')
    (h2 : ∀ τ s' e s'', P τ s' → step s' (some e) s'' → P (τ ++ [e]) s'')
    {τ : List E} {s' : S} (h : Exec step s τ s') : P τ s' := by
  induction h with
  | refl => exact h0
  | silent _ hs ih => exact h1 _ _ _ ih hs
  | visible _ hs ih => exact h2 _ _ _ _ ih hs

/-- Forward simulation: each concrete step is matched by some abstract execution with the same events. -/
theorem linearizable_of_simulation {S σ Op Ret : Type} {step : S → Option (Ev Op Ret) → S → Prop} {s : S}
    {seq : σ → Op → σ × Ret} {s0 : σ} (R : S → AState σ Op Ret → Prop) (h0 : R s (AState.init s0))
    (hsim : ∀ c a e c', R c a → step c e c' → ∃ a', Exec (AStep seq) a e.toList a' ∧ R c' a')
    {τ : List (Ev Op Ret)} {s' : S} (h : Exec step s τ s') :
    ∃ a, Exec (AStep seq) (AState.init s0) τ a ∧ R s' a := by
  induction h with
  | refl => exact ⟨_, .refl _, h0⟩
  | silent _ hs ih =>
    obtain ⟨a, ha, hr⟩ := ih
    obtain ⟨a', ha', hr'⟩ := hsim _ _ _ _ hr hs
    exact ⟨a', by simpa using ha.trans ha', hr'⟩
  | visible _ hs ih =>
    obtain ⟨a, ha, hr⟩ := ih
    obtain ⟨a', ha', hr'⟩ := hsim _ _ _ _ hr hs
    exact ⟨a', ha.trans ha', hr'⟩

end Verif.Spec
