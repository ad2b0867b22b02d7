import Verif.Spec.Linearizable
/-!
# Refuting linearizability

All states the atomic object can be in after a sequence of events, computed.  When there are none, the events are not
those of any execution of the atomic object.
-/

namespace Verif.Spec
variable {σ Op Ret : Type}

/-- The operation of goroutine `t`, if pending, takes effect. -/
def effectAt (seq : σ → Op → σ × Ret) (a : AState σ Op Ret) (t : Nat) : List (AState σ Op Ret) :=
  match a.th t with
  | .pending op => [⟨(seq a.s op).1, setAt a.th t (.done (seq a.s op).2)⟩]
  | _ => []

/-- One operation of the goroutines `ts` takes effect. -/
def effects (seq : σ → Op → σ × Ret) (ts : List Nat) (A : List (AState σ Op Ret)) : List (AState σ Op Ret) :=
  A.flatMap fun a => ts.flatMap (effectAt seq a)

/-- Exactly `n` operations take effect. -/
def effectsN (seq : σ → Op → σ × Ret) (ts : List Nat) : Nat → List (AState σ Op Ret) → List (AState σ Op Ret)
  | 0, A => A
  | n + 1, A => effects seq ts (effectsN seq ts n A)

/-- Up to `n` operations take effect. -/
def closeN (seq : σ → Op → σ × Ret) (ts : List Nat) (n : Nat) (A : List (AState σ Op Ret)) : List (AState σ Op Ret) :=
  (List.range (n + 1)).flatMap fun k => effectsN seq ts k A

/-- An event happens. -/
def eventAt [DecidableEq Ret] (a : AState σ Op Ret) : Ev Op Ret → List (AState σ Op Ret)
  | .call t op =>
    match a.th t with
    | .idle => [⟨a.s, setAt a.th t (.pending op)⟩]
    | _ => []
  | .ret t r =>
    match a.th t with
    | .done r' => if r' = r then [⟨a.s, setAt a.th t .idle⟩] else []
    | _ => []

/-- All states after the events `τ`, newest first in the argument. -/
def after [DecidableEq Ret] (seq : σ → Op → σ × Ret) (s0 : σ) (ts : List Nat) : List (Ev Op Ret) → List (AState σ Op Ret)
  | [] => [AState.init s0]
  | e :: τ => (closeN seq ts ts.length (after seq s0 ts τ)).flatMap fun a => eventAt a e

/-- The goroutine of an event. -/
def Ev.who : Ev Op Ret → Nat
  | .call t _ => t
  | .ret t _ => t

/-- The goroutine has a pending operation. -/
def isPending (a : AState σ Op Ret) (t : Nat) : Bool :=
  match a.th t with
  | .pending _ => true
  | _ => false

theorem count_lt {p q : Nat → Bool} (ts : List Nat) (t : Nat) (ht : t ∈ ts) (hp : p t = true) (hq : q t = false)
    (h : ∀ u, q u = true → p u = true) : (ts.filter q).length < (ts.filter p).length := by
  induction ts with
  | nil => cases ht
  | cons x r ih =>
    have hle : (r.filter q).length ≤ (r.filter p).length := by
      clear ih ht
      induction r with
      | nil => exact Nat.le_refl _
      | cons y r ih =>
        by_cases hy : q y = true
        · simp [hy, h y hy, ih]
        · by_cases hy' : p y = true
          · simp [hy, hy']; omega
          · simp [hy, hy', ih]
    rcases List.mem_cons.1 ht with e | hr
    · subst e
      simp [hp, hq]; omega
    · have := ih hr
      by_cases hx : q x = true
      · simp [hx, h x hx, this]
      · by_cases hx' : p x = true
        · simp [hx, hx']; omega
        · simp [hx, hx', this]

/-- Every execution of the atomic object ends in one of the computed states, up to operations that took effect since
the last event. -/
theorem after_complete [DecidableEq Ret] {seq : σ → Op → σ × Ret} {s0 : σ} {ts : List Nat} {τ : List (Ev Op Ret)}
    {a : AState σ Op Ret} (h : Exec (AStep seq) (AState.init s0) τ a) (hts : ∀ e ∈ τ, e.who ∈ ts) :
    (∀ t, isPending a t = true → t ∈ ts) ∧
    ∃ k, k + (ts.filter (isPending a)).length ≤ ts.length ∧ a ∈ effectsN seq ts k (after seq s0 ts τ.reverse) := by
  have len_le : ∀ a : AState σ Op Ret, 0 + (ts.filter (isPending a)).length ≤ ts.length := by
    intro a
    rw [Nat.zero_add]
    exact List.length_filter_le _ _
  have close : ∀ {b : AState σ Op Ret} {A : List (AState σ Op Ret)} {k : Nat}, k ≤ ts.length → b ∈ effectsN seq ts k A →
      b ∈ closeN seq ts ts.length A := by
    intro b A k hk hb
    unfold closeN
    exact List.mem_flatMap.2 ⟨k, List.mem_range.2 (by omega), hb⟩
  induction h with
  | refl => exact ⟨fun t ht => by simp [isPending, AState.init] at ht, 0, len_le _, by simp [effectsN, after]⟩
  | @silent b _ _ _ hs ih =>
    obtain ⟨h1, k, hk, hm⟩ := ih hts
    cases hs with
    | effect t op hp =>
      have ht : t ∈ ts := h1 t (by simp [isPending, hp])
      have hsub : ∀ u, isPending (⟨(seq b.s op).1, setAt b.th t (.done (seq b.s op).2)⟩ : AState σ Op Ret) u = true →
          isPending b u = true := by
        intro u hu
        by_cases e : u = t
        · subst e; simp [isPending, hp]
        · simpa [isPending, setAt, e] using hu
      refine ⟨fun u hu => h1 u (hsub u hu), k + 1, ?_, ?_⟩
      · have := count_lt (p := isPending b) ts t ht (by simp [isPending, hp])
          (q := isPending (⟨(seq b.s op).1, setAt b.th t (.done (seq b.s op).2)⟩ : AState σ Op Ret))
          (by simp [isPending, setAt]) hsub
        omega
      · refine List.mem_flatMap.2 ⟨_, hm, List.mem_flatMap.2 ⟨t, ht, ?_⟩⟩
        simp [effectAt, hp]
  | @visible b _ _ e _ hs ih =>
    obtain ⟨h1, k, hk, hm⟩ := ih fun x hx => hts x (List.mem_append_left _ hx)
    have hw : e.who ∈ ts := hts e (List.mem_append_right _ (List.mem_singleton.2 rfl))
    have hc := close (by omega) hm
    cases hs with
    | call t op hp =>
      refine ⟨fun u hu => ?_, 0, len_le _, ?_⟩
      · by_cases e : u = t
        · subst e; exact hw
        · exact h1 u (by simpa [isPending, setAt, e] using hu)
      · simp only [effectsN, List.reverse_append, List.reverse_cons, List.reverse_nil, List.nil_append, List.singleton_append, after]
        exact List.mem_flatMap.2 ⟨_, hc, by simp [eventAt, hp]⟩
    | ret t r hp =>
      refine ⟨fun u hu => ?_, 0, len_le _, ?_⟩
      · by_cases e : u = t
        · subst e; exact hw
        · exact h1 u (by simpa [isPending, setAt, e] using hu)
      · simp only [effectsN, List.reverse_append, List.reverse_cons, List.reverse_nil, List.nil_append, List.singleton_append, after]
        exact List.mem_flatMap.2 ⟨_, hc, by simp [eventAt, hp]⟩

/-- When no state is left after the events, no execution of the atomic object shows them. -/
theorem not_shown [DecidableEq Ret] {seq : σ → Op → σ × Ret} {s0 : σ} {τ : List (Ev Op Ret)} (ts : List Nat)
    (hts : ∀ e ∈ τ, e.who ∈ ts) (hnone : (after seq s0 ts τ.reverse).length = 0) :
    ¬ ∃ a, Exec (AStep seq) (AState.init s0) τ a := by
  rintro ⟨a, ha⟩
  obtain ⟨_, k, _, hm⟩ := after_complete ha hts
  rw [List.length_eq_zero_iff.1 hnone] at hm
  have : ∀ k, effectsN seq ts k ([] : List (AState σ Op Ret)) = [] := by
    intro k
    induction k with
    | zero => rfl
    | succ k ih => simp [effectsN, ih, effects]
  rw [this k] at hm
  cases hm

/-- An execution that shows what the atomic object cannot show refutes linearizability. -/
theorem not_linearizable [DecidableEq Ret] {S : Type} {step : S → Option (Ev Op Ret) → S → Prop} {s s' : S}
    {seq : σ → Op → σ × Ret} {s0 : σ} {τ : List (Ev Op Ret)} (ts : List Nat) (h : Exec step s τ s')
    (hts : ∀ e ∈ τ, e.who ∈ ts) (hnone : (after seq s0 ts τ.reverse).length = 0) :
    ¬ Linearizable step s seq s0 :=
  fun hl => not_shown ts hts hnone (hl τ s' h)

end Verif.Spec
