import Verif.Props.LFDeque
import Verif.Spec.Progress
import Verif.Lemmas.SumStep
import Mathlib.Algebra.BigOperators.Group.Finset.Basic
import Mathlib.Algebra.Order.BigOperators.Group.Finset
import Mathlib.Tactic.SplitIfs
import Mathlib.Tactic.ByContra
/-!
# C130: the lock-free deque makes progress unless it is full
-/

set_option linter.unusedSectionVars false

namespace Verif.LFDeque
open Verif.Spec
variable {V : Type} [Inhabited V]

/-- Goroutine `t` is pushing and the buffer, as its operation tests it, is full. -/
def Waits (s : St V) (t : Nat) : Prop :=
  (∃ v, s.pc t = .pbLoad v ∧ (headTail s.q.headtail).1 = next s.q.d (headTail s.q.headtail).2) ∨
  (∃ v, s.pc t = .pfLoad v ∧ prev (headTail s.q.headtail).1 = (headTail s.q.headtail).2)

/-- Steps that are not idle spinning. -/
def Moves (s : St V) (e : Option (Ev (Op V) (Ret V))) (s' : St V) : Prop := Step s e s' ∧ s' ≠ s

/-- What a goroutine may still cost: its own steps if nobody interferes, the steps of one retry if the word it has
loaded is no longer there, and three steps for each of the `q` others it may still disturb. -/
def cost (q : Nat) (w : BitVec 64) : PC V → Nat
  | .idle | .crashed => 0
  | .pbLoad _ | .pfLoad _ | .ofLoad _ | .obLoad _ => 3 * q + 4
  | .pbWrite _ _ _ ht | .pfWrite _ _ _ ht | .ofRead _ _ ht | .obRead _ _ ht => 3 * q + if w = ht then 3 else 6
  | .pbCas _ _ _ ht | .pfCas _ _ _ ht | .ofCas _ _ _ ht | .obCas _ _ _ ht => 3 * q + if w = ht then 2 else 5
  | .ret _ => 1

/-- The sum over the goroutines of a set. -/
def pot (T : Finset Nat) (s : St V) : Nat := ∑ t ∈ T, cost (T.card - 1) s.q.headtail (s.pc t)

/-- The goroutines that are not idle belong to the set. -/
def Within (T : Finset Nat) (s : St V) : Prop := ∀ t, s.pc t ≠ .idle → t ∈ T

theorem cost_stale {q : Nat} {w w' : BitVec 64} (c : PC V) : cost q w' c ≤ cost q w c + 3 := by
  cases c <;> simp only [cost] <;> try omega
  all_goals split_ifs <;> omega

/-- What a step adds to the potential: only calls add something. -/
def credit (p : Nat) : Option (Ev (Op V) (Ret V)) → Nat
  | some (.call _ _) => 3 * (p - 1) + 5
  | _ => 0

theorem Within.set {T : Finset Nat} {s s' : St V} {t : Nat} {c : PC V} (hw : Within T s) (ht : t ∈ T)
    (h : s'.pc = setAt s.pc t c) : Within T s' := by
  intro t' h'
  by_cases e : t' = t
  · rw [e]; exact ht
  · rw [h, setAt_ne _ _ _ _ e] at h'; exact hw t' h'

/-- A step of `t` that leaves the word alone. -/
theorem pot_quiet {T : Finset Nat} {s s' : St V} {t : Nat} (c : PC V) {k : Nat} (hw : Within T s) (ht : t ∈ T)
    (h : s'.pc = setAt s.pc t c) (h1 : s'.q.headtail = s.q.headtail)
    (hc : cost (T.card - 1) s.q.headtail c + 1 ≤ cost (T.card - 1) s.q.headtail (s.pc t) + k) :
    Within T s' ∧ pot T s' + 1 ≤ pot T s + k := by
  refine ⟨hw.set ht h, ?_⟩
  have := sum_step T t ht (fun x => cost (T.card - 1) s.q.headtail (s.pc x))
    (fun x => cost (T.card - 1) s'.q.headtail (s'.pc x)) 0
    (fun t' _ hn => by simp only [h, h1, setAt_ne _ _ _ _ hn, Nat.add_zero]; exact le_refl _)
  simp only [h, h1, setAt_same] at this
  simp only [pot, h, h1]
  omega

/-- A successful compare-and-swap of `t`. -/
theorem pot_move {T : Finset Nat} {s s' : St V} {t : Nat} {r : Ret V} (hw : Within T s) (ht : t ∈ T)
    (h : s'.pc = setAt s.pc t (.ret r))
    (hc : 3 * (T.card - 1) + 2 ≤ cost (T.card - 1) s.q.headtail (s.pc t)) :
    Within T s' ∧ pot T s' + 1 ≤ pot T s := by
  refine ⟨hw.set ht h, ?_⟩
  have := sum_step T t ht (fun x => cost (T.card - 1) s.q.headtail (s.pc x))
    (fun x => cost (T.card - 1) s'.q.headtail (s'.pc x)) 3
    (fun t' _ hn => by
      simp only [h, setAt_ne _ _ _ _ hn]
      exact cost_stale _)
  have hp : 0 < T.card := Finset.card_pos.2 ⟨t, ht⟩
  simp only [h, setAt_same] at this
  simp only [pot, h]
  have e : cost (T.card - 1) s'.q.headtail (.ret r : PC V) = 1 := rfl
  omega

theorem goto_same {s : St V} {t : Nat} {p : PC V} (h : s.pc t = p) : s.goto t p = s := by
  cases s
  simp only [St.goto]
  congr
  exact setAt_self _ _ _ h

/-- Every step but a call and idle spinning uses up the potential. -/
theorem pot_step (T : Finset Nat) {s s' : St V} {e : Option (Ev (Op V) (Ret V))}
    (hw : Within T s) (hc : ∀ t op, e = some (.call t op) → t ∈ T) (hs : Moves s e s') :
    Within T s' ∧ pot T s' + 1 ≤ pot T s + credit T.card e := by
  obtain ⟨hs, hne⟩ := hs
  cases hs with
  | callPB t v hp | callPF t v hp =>
    exact pot_quiet _ hw (hc _ _ rfl) rfl rfl (by simp [cost, credit, hp])
  | callOF t hp | callOB t hp =>
    exact pot_quiet _ hw (hc _ _ rfl) rfl rfl (by simp [cost, credit, hp])
  | pbLoad t v hp =>
    split at hne
    · exact absurd (goto_same hp) hne
    · rename_i hif
      rw [if_neg hif]
      exact pot_quiet _ hw (hw t (by simp [hp])) rfl rfl (by simp [cost, credit, hp])
  | pfLoad t v hp =>
    split at hne
    · exact absurd (goto_same hp) hne
    · rename_i hif
      rw [if_neg hif]
      exact pot_quiet _ hw (hw t (by simp [hp])) rfl rfl (by simp [cost, credit, hp])
  | ofLoad t v hp | obLoad t v hp =>
    refine pot_quiet _ hw (hw t (by simp [hp])) rfl rfl ?_
    split <;> simp [cost, credit, hp]
  | pbWrite t v h tl ht hp =>
    cases hg : Go.set s.q.d tl.toNat v with
    | ok d => exact pot_quiet _ hw (hw t (by simp [hp])) rfl rfl (by simp only [cost, credit, hp]; split_ifs <;> omega)
    | panic => exact pot_quiet _ hw (hw t (by simp [hp])) rfl rfl (by simp only [cost, credit, hp]; split_ifs <;> omega)
  | pfWrite t v h tl ht hp =>
    cases hg : Go.set s.q.d h.toNat v with
    | ok d => exact pot_quiet _ hw (hw t (by simp [hp])) rfl rfl (by simp only [cost, credit, hp]; split_ifs <;> omega)
    | panic => exact pot_quiet _ hw (hw t (by simp [hp])) rfl rfl (by simp only [cost, credit, hp]; split_ifs <;> omega)
  | ofRead t h tl ht hp =>
    cases hg : Go.get s.q.d h.toNat with
    | ok d => exact pot_quiet _ hw (hw t (by simp [hp])) rfl rfl (by simp only [cost, credit, hp]; split_ifs <;> omega)
    | panic => exact pot_quiet _ hw (hw t (by simp [hp])) rfl rfl (by simp only [cost, credit, hp]; split_ifs <;> omega)
  | obRead t h tl ht hp =>
    cases hg : Go.get s.q.d tl.toNat with
    | ok d => exact pot_quiet _ hw (hw t (by simp [hp])) rfl rfl (by simp only [cost, credit, hp]; split_ifs <;> omega)
    | panic => exact pot_quiet _ hw (hw t (by simp [hp])) rfl rfl (by simp only [cost, credit, hp]; split_ifs <;> omega)
  | pbCas t v h tl ht hp | pfCas t v h tl ht hp | ofCas t v h tl ht hp | obCas t v h tl ht hp =>
    by_cases hif : s.q.headtail = ht
    · rw [if_pos hif]
      exact pot_move hw (hw t (by simp [hp])) rfl (by simp [cost, hp, hif])
    · rw [if_neg hif]
      exact pot_quiet _ hw (hw t (by simp [hp])) rfl rfl (by simp [cost, credit, hp, hif])
  | ret t r hp =>
    exact pot_quiet _ hw (hw t (by simp [hp])) rfl rfl (by simp [cost, credit, hp])

/-- Any part of an execution is paid for by the potential at its start and its calls. -/
theorem pot_exec (T : Finset Nat) {s s' : St V} {n : Nat} {τ : List (Ev (Op V) (Ret V))}
    (hw : Within T s) (h : ExecN Moves s n τ s') (hc : CallsBy (· ∈ T) τ) :
    Within T s' ∧ pot T s' + n ≤ pot T s + calls τ * (3 * (T.card - 1) + 5) := by
  induction h with
  | refl => exact ⟨hw, by simp⟩
  | silent _ hs ih =>
    obtain ⟨h2, h3⟩ := ih hc
    obtain ⟨q1, q2⟩ := pot_step T h2 (by simp) hs
    simp only [credit] at q2
    exact ⟨q1, by omega⟩
  | @visible s' s'' n τ e _ hs ih =>
    obtain ⟨h2, h3⟩ := ih (fun t op hm => hc t op (List.mem_append_left _ hm))
    obtain ⟨q1, q2⟩ := pot_step T h2 (fun t op e' => by cases e'; exact hc t op (by simp)) hs
    refine ⟨q1, ?_⟩
    cases e with
    | call t op =>
      simp only [credit] at q2
      have : calls (τ ++ [Ev.call t op]) = calls τ + 1 := by simp [calls, Ev.isCall]
      rw [this, Nat.add_mul]
      omega
    | ret t r =>
      simp only [credit] at q2
      have : calls (τ ++ [Ev.ret t r]) = calls τ := by simp [calls, Ev.isCall]
      rw [this]
      omega

/-! ## The theorems -/

/-- **C130**: apart from rounds of waiting in a full buffer, which change nothing, an execution with `k` calls by at
most `p ≥ 1` goroutines has at most `k · (3p + 2)` steps, whatever the schedule: retries are bounded by the successes of
the others. -/
theorem C130_bounded (n : Nat) (T : Finset Nat) {m : Nat} {τ : List (Ev (Op V) (Ret V))} {s : St V}
    (h : ExecN Moves (start n) m τ s) (hc : CallsBy (· ∈ T) τ) (hT : T.Nonempty) : m ≤ calls τ * (3 * T.card + 2) := by
  have hp : pot T (start n : St V) = 0 := by simp [pot, start, cost]
  have h1 := (pot_exec T (fun t ht => absurd rfl ht) h hc).2
  have h2 : 0 < T.card := Finset.card_pos.2 hT
  have h3 : 3 * (T.card - 1) + 5 = 3 * T.card + 2 := by omega
  rw [h3] at h1
  omega

/-- The next step of a goroutine inside a call. -/
def nextStep (s : St V) (t : Nat) : Option (Ev (Op V) (Ret V)) × St V :=
  match s.pc t with
  | .idle | .crashed => (none, s)
  | .pbLoad v => (none, s.goto t (if (headTail s.q.headtail).1 = next s.q.d (headTail s.q.headtail).2 then .pbLoad v
        else .pbWrite v (headTail s.q.headtail).1 (headTail s.q.headtail).2 s.q.headtail))
  | .pbWrite v h tl ht => (none, match Go.set s.q.d tl.toNat v with
        | .ok d => ⟨⟨s.q.headtail, d⟩, setAt s.pc t (.pbCas v h tl ht)⟩
        | .panic => s.goto t .crashed)
  | .pbCas v h tl ht => (none,
      if s.q.headtail = ht then ⟨⟨makeHeadTail h (next s.q.d tl), s.q.d⟩, setAt s.pc t (.ret .pushed)⟩
        else s.goto t (.pbLoad v))
  | .pfLoad v => (none, s.goto t (if prev (headTail s.q.headtail).1 = (headTail s.q.headtail).2 then .pfLoad v
        else .pfWrite v (prev (headTail s.q.headtail).1) (headTail s.q.headtail).2 s.q.headtail))
  | .pfWrite v h tl ht => (none, match Go.set s.q.d h.toNat v with
        | .ok d => ⟨⟨s.q.headtail, d⟩, setAt s.pc t (.pfCas v h tl ht)⟩
        | .panic => s.goto t .crashed)
  | .pfCas v h tl ht => (none,
      if s.q.headtail = ht then ⟨⟨makeHeadTail h tl, s.q.d⟩, setAt s.pc t (.ret .pushed)⟩
        else s.goto t (.pfLoad v))
  | .ofLoad v => (none, s.goto t (if (headTail s.q.headtail).1 = (headTail s.q.headtail).2 then .ret (.popped v false)
        else .ofRead (headTail s.q.headtail).1 (headTail s.q.headtail).2 s.q.headtail))
  | .ofRead h tl ht => (none, s.goto t (match Go.get s.q.d h.toNat with
        | .ok v => .ofCas v h tl ht
        | .panic => .crashed))
  | .ofCas v h tl ht => (none,
      if s.q.headtail = ht then ⟨⟨makeHeadTail (next s.q.d h) tl, s.q.d⟩, setAt s.pc t (.ret (.popped v true))⟩
        else s.goto t (.ofLoad v))
  | .obLoad v => (none, s.goto t (if (headTail s.q.headtail).1 = (headTail s.q.headtail).2 then .ret (.popped v false)
        else .obRead (headTail s.q.headtail).1 (prev (headTail s.q.headtail).2) s.q.headtail))
  | .obRead h tl ht => (none, s.goto t (match Go.get s.q.d tl.toNat with
        | .ok v => .obCas v h tl ht
        | .panic => .crashed))
  | .obCas v h tl ht => (none,
      if s.q.headtail = ht then ⟨⟨makeHeadTail h tl, s.q.d⟩, setAt s.pc t (.ret (.popped v true))⟩
        else s.goto t (.obLoad v))
  | .ret r => (some (.ret t r), s.goto t .idle)

theorem nextStep_step (s : St V) (t : Nat) (h : s.pc t ≠ .idle) (hc : s.pc t ≠ .crashed) :
    Step s (nextStep s t).1 (nextStep s t).2 := by
  cases hp : s.pc t with
  | idle => exact absurd hp h
  | crashed => exact absurd hp hc
  | pbLoad v => simp only [nextStep, hp]; exact .pbLoad s t v hp
  | pbWrite v h tl ht => simp only [nextStep, hp]; exact .pbWrite s t v h tl ht hp
  | pbCas v h tl ht => simp only [nextStep, hp]; exact .pbCas s t v h tl ht hp
  | pfLoad v => simp only [nextStep, hp]; exact .pfLoad s t v hp
  | pfWrite v h tl ht => simp only [nextStep, hp]; exact .pfWrite s t v h tl ht hp
  | pfCas v h tl ht => simp only [nextStep, hp]; exact .pfCas s t v h tl ht hp
  | ofLoad v => simp only [nextStep, hp]; exact .ofLoad s t v hp
  | ofRead h tl ht => simp only [nextStep, hp]; exact .ofRead s t h tl ht hp
  | ofCas v h tl ht => simp only [nextStep, hp]; exact .ofCas s t v h tl ht hp
  | obLoad v => simp only [nextStep, hp]; exact .obLoad s t v hp
  | obRead h tl ht => simp only [nextStep, hp]; exact .obRead s t h tl ht hp
  | obCas v h tl ht => simp only [nextStep, hp]; exact .obCas s t v h tl ht hp
  | ret r => simp only [nextStep, hp]; exact .ret s t r hp

/-- The next step moves the goroutine unless it waits. -/
theorem nextStep_moves (s : St V) (t : Nat) (h : s.pc t ≠ .idle) (hc : s.pc t ≠ .crashed) :
    (nextStep s t).2.pc t ≠ s.pc t ∨ Waits s t := by
  cases hp : s.pc t with
  | idle => exact absurd hp h
  | crashed => exact absurd hp hc
  | pbLoad v =>
    by_cases hf : (headTail s.q.headtail).1 = next s.q.d (headTail s.q.headtail).2
    · exact .inr (.inl ⟨v, hp, hf⟩)
    · left; simp [nextStep, hp, hf, St.goto, setAt_same]
  | pfLoad v =>
    by_cases hf : prev (headTail s.q.headtail).1 = (headTail s.q.headtail).2
    · exact .inr (.inr ⟨v, hp, hf⟩)
    · left; simp [nextStep, hp, hf, St.goto, setAt_same]
  | pbWrite v h tl ht | pfWrite v h tl ht =>
    left; simp only [nextStep, hp]; split <;> simp [St.goto, setAt_same]
  | ofRead h tl ht | obRead h tl ht =>
    left; simp only [nextStep, hp]; split <;> simp [St.goto, setAt_same]
  | pbCas v h tl ht | pfCas v h tl ht | ofCas v h tl ht | obCas v h tl ht =>
    left; simp only [nextStep, hp]; split <;> simp [St.goto, setAt_same]
  | ofLoad v | obLoad v =>
    left; simp only [nextStep, hp, St.goto]; split <;> simp [setAt_same]
  | ret r => left; simp [nextStep, hp, St.goto, setAt_same]

theorem mover' {s s' : St V} {t u : Nat} {q : PC V} (hq : s'.pc = setAt s.pc u q) (h : s'.pc t ≠ s.pc t) : u = t := by
  by_contra hut
  rw [hq, setAt_ne _ _ _ _ (Ne.symm hut)] at h
  exact h rfl

/-- **C130**: what a goroutine inside a call does next is determined: there is exactly one step that moves it, unless it
has panicked or waits. -/
theorem C130_next (s : St V) (t : Nat) (h : s.pc t ≠ .idle) (hc : s.pc t ≠ .crashed) (hw : ¬ Waits s t) :
    ∃! p : Option (Ev (Op V) (Ret V)) × St V, Step s p.1 p.2 ∧ p.2.pc t ≠ s.pc t := by
  refine ⟨nextStep s t, ⟨nextStep_step s t h hc, (nextStep_moves s t h hc).resolve_right hw⟩, ?_⟩
  rintro ⟨e, s'⟩ ⟨hs, hne⟩
  dsimp only at hs hne
  cases hs with
  | callPB u v hp | callPF u v hp => obtain rfl := mover' rfl hne; exact absurd hp h
  | callOF u hp | callOB u hp => obtain rfl := mover' rfl hne; exact absurd hp h
  | pbLoad u v hp | pfLoad u v hp | ofLoad u v hp | obLoad u v hp =>
    obtain rfl := mover' rfl hne; simp only [nextStep, hp, St.goto]
  | ofRead u a b c hp | obRead u a b c hp => obtain rfl := mover' rfl hne; simp only [nextStep, hp, St.goto]; rfl
  | ret u r hp => obtain rfl := mover' rfl hne; simp only [nextStep, hp, St.goto]
  | pbWrite u v a b c hp | pfWrite u v a b c hp =>
    have : u = t := by
      split at hne
      · exact mover' rfl hne
      · exact mover' rfl hne
    subst this; simp only [nextStep, hp, St.goto]; rfl
  | pbCas u v a b c hp | pfCas u v a b c hp | ofCas u v a b c hp | obCas u v a b c hp =>
    have : u = t := by
      split at hne
      · exact mover' rfl hne
      · exact mover' rfl hne
    subst this; simp only [nextStep, hp]

/-- **C130**: a goroutine that waits does nothing but wait: no step moves it, and its own step leaves everything as it
is. -/
theorem C130_waits (s : St V) (t : Nat) (hw : Waits s t) :
    (∀ e s', Step s e s' → s'.pc t = s.pc t) ∧ Step s none s := by
  constructor
  · intro e s' hs
    by_contra hne
    cases hs with
    | callPB u v hp | callPF u v hp => obtain rfl := mover' rfl hne; simp [Waits, hp] at hw
    | callOF u hp | callOB u hp => obtain rfl := mover' rfl hne; simp [Waits, hp] at hw
    | pbLoad u v hp | pfLoad u v hp =>
      obtain rfl := mover' rfl hne
      simp only [Waits, hp, PC.pbLoad.injEq, PC.pfLoad.injEq, reduceCtorEq, false_and, exists_false, or_false, false_or,
        exists_eq_left'] at hw
      rw [if_pos hw, goto_same hp] at hne
      exact hne rfl
    | ofLoad u v hp | obLoad u v hp => obtain rfl := mover' rfl hne; simp [Waits, hp] at hw
    | ofRead u a b c hp | obRead u a b c hp => obtain rfl := mover' rfl hne; simp [Waits, hp] at hw
    | ret u r hp => obtain rfl := mover' rfl hne; simp [Waits, hp] at hw
    | pbWrite u v a b c hp | pfWrite u v a b c hp =>
      have : u = t := by
        split at hne
        · exact mover' rfl hne
        · exact mover' rfl hne
      subst this; simp [Waits, hp] at hw
    | pbCas u v a b c hp | pfCas u v a b c hp | ofCas u v a b c hp | obCas u v a b c hp =>
      have : u = t := by
        split at hne
        · exact mover' rfl hne
        · exact mover' rfl hne
      subst this; simp [Waits, hp] at hw
  · rcases hw with ⟨v, hp, hf⟩ | ⟨v, hp, hf⟩
    · have := Step.pbLoad s t v hp
      rwa [if_pos hf, goto_same hp] at this
    · have := Step.pfLoad s t v hp
      rwa [if_pos hf, goto_same hp] at this

/-- **C130**: the only way for a group of calls to get stuck is that every one of them (but for those that panicked) is a
push into a full buffer.  So a pending `PopFront` or `PopBack`, or a push that has seen room, always lets some
goroutine go on. -/
theorem C130_no_deadlock (s : St V) :
    (∃ e s', Moves s e s' ∧ ∀ t op, e ≠ some (.call t op)) ∨
    ∀ t, s.pc t = .idle ∨ s.pc t = .crashed ∨ Waits s t := by
  by_contra hno
  push Not at hno
  obtain ⟨h1, t, ht1, ht2, ht3⟩ := hno
  have hs := nextStep_step s t ht1 ht2
  have hm := (nextStep_moves s t ht1 ht2).resolve_right ht3
  obtain ⟨t', op, he⟩ := h1 _ _ ⟨hs, fun e => hm (by rw [e])⟩
  cases hp : s.pc t <;> simp_all [nextStep]

/-- **C130**: when no further calls are made, what remains to be done is bounded, however the pending goroutines are
scheduled. -/
theorem C130_completes (n : Nat) {τ : List (Ev (Op V) (Ret V))} {s : St V} {m : Nat} (h : ExecN Moves (start n) m τ s) :
    ∀ k τ' s', ExecN Moves s k τ' s' → calls τ' = 0 → m + k ≤ calls τ * (3 * (callers τ).card + 2) := by
  intro k τ' s' h' h0
  by_cases hT : (callers τ).Nonempty
  · have hp : pot (callers τ) (start n : St V) = 0 := by simp [pot, start, cost]
    obtain ⟨q2, q3⟩ := pot_exec (callers τ) (fun t ht => absurd rfl ht) h (callsBy_callers τ)
    have hn : CallsBy (· ∈ callers τ) τ' := by
      intro t op hmem
      simp only [calls, List.countP_eq_zero] at h0
      exact absurd rfl (h0 _ hmem)
    obtain ⟨_, r3⟩ := pot_exec (callers τ) q2 h' hn
    rw [h0] at r3
    have h2 : 0 < (callers τ).card := Finset.card_pos.2 hT
    have h3 : 3 * ((callers τ).card - 1) + 5 = 3 * (callers τ).card + 2 := by omega
    rw [h3] at q3
    omega
  · rw [Finset.not_nonempty_iff_eq_empty] at hT
    have hp : pot ∅ (start n : St V) = 0 := by simp [pot]
    have hc : CallsBy (· ∈ (∅ : Finset Nat)) τ := by rw [← hT]; exact callsBy_callers τ
    obtain ⟨q2, q3⟩ := pot_exec ∅ (fun t ht => absurd rfl ht) h hc
    have hn : CallsBy (· ∈ (∅ : Finset Nat)) τ' := by
      intro t op hmem
      simp only [calls, List.countP_eq_zero] at h0
      exact absurd rfl (h0 _ hmem)
    obtain ⟨_, r3⟩ := pot_exec ∅ q2 h' hn
    have h00 : calls τ = 0 := by
      simp only [calls, List.countP_eq_zero]
      intro e he hcall
      cases e with
      | call t op => exact absurd (hc t op he) (by simp)
      | ret t r => simp [Ev.isCall] at hcall
    rw [h0] at r3
    rw [h00] at q3
    omega

/-! ## Concrete cases -/

/-- One goroutine, one `PushBack`: five steps, the bound for `k = p = 1`. -/
example : ∃ s : St Nat, ExecN Moves (start 4) 5 [.call 0 (.pushBack 7), .ret 0 .pushed] s ∧
    calls ([.call 0 (.pushBack 7), .ret 0 .pushed] : List (Ev (Op Nat) (Ret Nat))) * (3 * ({0} : Finset Nat).card + 2) = 5 := by
  have key : ∀ {s s' : St Nat} {e : Option (Ev (Op Nat) (Ret Nat))}, Step s e s' → s'.pc 0 ≠ s.pc 0 → Moves s e s' :=
    fun h hn => ⟨h, fun e => hn (by rw [e])⟩
  let s1 := (start 4 : St Nat).goto 0 (.pbLoad 7)
  let s2 := s1.goto 0 (.pbWrite 7 0 0 0)
  let s3 : St Nat := ⟨⟨0, [7, 0, 0, 0]⟩, setAt s2.pc 0 (.pbCas 7 0 0 0)⟩
  let s4 : St Nat := ⟨⟨makeHeadTail 0 1, [7, 0, 0, 0]⟩, setAt s3.pc 0 (.ret .pushed)⟩
  have e1 : Moves (start 4) (some (.call 0 (.pushBack 7))) s1 := key (.callPB _ 0 7 rfl) (by simp [s1, St.goto, setAt, start])
  have e2 : Moves s1 none s2 := by
    refine key ?_ (by simp [s1, s2, St.goto, setAt])
    have h := Step.pbLoad s1 0 7 rfl
    have hw : s1.q.headtail = 0 := rfl
    have h0 : headTail 0 = (0, 0) := by decide
    rw [if_neg (by decide), hw, h0] at h
    exact h
  have e3 : Moves s2 none s3 := key (Step.pbWrite s2 0 7 0 0 0 rfl) (by simp [s3, s2, St.goto, setAt])
  have e4 : Moves s3 none s4 := key (Step.pbCas s3 0 7 0 0 0 rfl) (by simp [s3, s4, setAt])
  have e5 : Moves s4 (some (.ret 0 .pushed)) (s4.goto 0 .idle) := key (Step.ret s4 0 .pushed rfl) (by simp [s4, St.goto, setAt])
  exact ⟨_, .visible (.silent (.silent (.silent (.visible (.refl _) e1) e2) e3) e4) e5, by simp [calls, Ev.isCall, List.countP_cons]⟩

/-- A full buffer (two slots, one element) in which one goroutine waits in `PushBack`, one in `PushFront`, and one is
about to take the element out: the first two wait, the third does not. -/
example : ∃ s : St Nat, Waits s 0 ∧ Waits s 1 ∧ ¬ Waits s 2 ∧ s.pc 2 ≠ .idle ∧ s.pc 2 ≠ .crashed :=
  ⟨⟨⟨makeHeadTail 1 0, [5, 6]⟩, fun t => if t = 0 then .pbLoad 7 else if t = 1 then .pfLoad 8 else .ofLoad 0⟩,
    .inl ⟨7, rfl, by decide⟩, .inr ⟨8, rfl, by decide⟩, by simp [Waits], by simp, by simp⟩

end Verif.LFDeque
