import Verif.Props.Rand
import Verif.Spec.Progress
import Verif.Lemmas.SumStep
import Mathlib.Tactic.SplitIfs
import Mathlib.Tactic.ByContra
/-!
# C110: the random number generators never block
-/

set_option linter.unusedSectionVars false

namespace Verif.Rand
open Verif.Spec
variable {w : Nat} {a c : BitVec w}

/-- What a goroutine may still cost: its own steps if nobody interferes, the steps of one retry if the seed it has read
is stale, and two steps for every goroutine it may still disturb. -/
def cost (p : Nat) (s : BitVec w) : PC w → Nat
  | .idle => 0
  | .load _ => 2 * p + 3
  | .cas _ o => 2 * p + if s = o then 2 else 4
  | .done _ _ => 1
  | .seed => 2
  | .swap _ => 2 * p + 2

/-- The sum over the goroutines of a set. -/
def pot (T : Finset Nat) (s : St w) : Nat := ∑ t ∈ T, cost T.card s.seed (s.pc t)

/-- The goroutines that are not idle belong to the set. -/
def Within (T : Finset Nat) (s : St w) : Prop := ∀ t, s.pc t ≠ .idle → t ∈ T

theorem cost_stale {p : Nat} {s s' : BitVec w} {q : PC w} : cost p s' q ≤ cost p s q + 2 := by
  cases q <;> simp only [cost] <;> try omega
  split_ifs <;> omega

theorem Within.set {T : Finset Nat} {s s' : St w} {t : Nat} {q : PC w} (hw : Within T s) (ht : t ∈ T)
    (h : s'.pc = setAt s.pc t q) : Within T s' := by
  intro t' h'
  by_cases e : t' = t
  · rw [e]; exact ht
  · rw [h, setAt_ne _ _ _ _ e] at h'; exact hw t' h'

/-- A step of `t` that leaves the seed. -/
theorem pot_quiet {T : Finset Nat} {s s' : St w} {t : Nat} {q : PC w} {k : Nat} (hw : Within T s) (ht : t ∈ T)
    (h : s'.pc = setAt s.pc t q) (h1 : s'.seed = s.seed)
    (hc : cost T.card s.seed q + 1 ≤ cost T.card s.seed (s.pc t) + k) :
    Within T s' ∧ pot T s' + 1 ≤ pot T s + k := by
  refine ⟨hw.set ht h, ?_⟩
  have := sum_step T t ht (fun x => cost T.card s.seed (s.pc x)) (fun x => cost T.card s'.seed (s'.pc x)) 0
    (fun t' _ hn => by simp only [h, h1, setAt_ne _ _ _ _ hn, Nat.add_zero]; exact Nat.le_refl _)
  simp only [h, h1, setAt_same] at this
  simp only [pot, h, h1]
  omega

/-- A step of `t` that changes the seed. -/
theorem pot_move {T : Finset Nat} {s s' : St w} {t : Nat} {q : PC w} (hw : Within T s) (ht : t ∈ T)
    (h : s'.pc = setAt s.pc t q) (hc : cost T.card s'.seed q + 2 * T.card ≤ cost T.card s.seed (s.pc t) + 1) :
    Within T s' ∧ pot T s' + 1 ≤ pot T s := by
  refine ⟨hw.set ht h, ?_⟩
  have := sum_step T t ht (fun x => cost T.card s.seed (s.pc x)) (fun x => cost T.card s'.seed (s'.pc x)) 2
    (fun t' _ hn => by simp only [h, setAt_ne _ _ _ _ hn]; exact cost_stale)
  simp only [h, setAt_same] at this
  simp only [pot, h]
  omega

/-- What a step adds to the potential: only calls add something. -/
def credit (p : Nat) : Option (Ev (Op w) (Res (BitVec w))) → Nat
  | some (.call _ _) => 2 * p + 4
  | _ => 0

/-- Every step but a call uses up the potential. -/
theorem pot_step (T : Finset Nat) {s s' : St w} {e : Option (Ev (Op w) (Res (BitVec w)))}
    (hw : Within T s) (hc : ∀ t op, e = some (.call t op) → t ∈ T) (hs : Step a c s e s') :
    Within T s' ∧ pot T s' + 1 ≤ pot T s + credit T.card e := by
  cases hs with
  | call t op hp =>
    refine pot_quiet hw (hc _ _ rfl) rfl rfl ?_
    cases op <;> simp only [entry, cost, credit] <;> omega
  | load t op hp => exact pot_quiet hw (hw t (by rw [hp]; simp)) rfl rfl (by simp [cost, hp, credit])
  | casOk t op o hp h => exact pot_move hw (hw t (by rw [hp]; simp)) rfl (by simp [cost, hp, h]; omega)
  | casFail t op o hp h => exact pot_quiet hw (hw t (by rw [hp]; simp)) rfl rfl (by simp [cost, hp, h, credit])
  | seed t hp => exact pot_quiet hw (hw t (by rw [hp]; simp)) rfl rfl (by simp [cost, hp, credit])
  | swap t v hp => exact pot_move hw (hw t (by rw [hp]; simp)) rfl (by simp [cost, hp]; omega)
  | ret t op r hp => exact pot_quiet hw (hw t (by rw [hp]; simp)) rfl rfl (by simp [cost, hp, credit])

/-- Any part of an execution is paid for by the potential at its start and its calls. -/
theorem pot_exec (T : Finset Nat) {s s' : St w} {n : Nat} {τ : List (Ev (Op w) (Res (BitVec w)))}
    (hw : Within T s) (h : ExecN (Step a c) s n τ s') (hc : CallsBy (· ∈ T) τ) :
    Within T s' ∧ pot T s' + n ≤ pot T s + calls τ * (2 * T.card + 4) := by
  induction h with
  | refl => exact ⟨hw, by simp⟩
  | silent _ hs ih =>
    obtain ⟨h2, h3⟩ := ih hc
    obtain ⟨q1, q2⟩ := pot_step T h2 (by simp) hs
    refine ⟨q1, ?_⟩
    simp only [credit] at q2
    omega
  | @visible s' s'' n τ e _ hs ih =>
    obtain ⟨h2, h3⟩ := ih (fun t op hm => hc t op (List.mem_append_left _ hm))
    obtain ⟨q1, q2⟩ := pot_step T h2 (fun t op e' => by cases e'; exact hc t op (by simp)) hs
    refine ⟨q1, ?_⟩
    cases e with
    | call t op =>
      simp only [credit] at q2
      have : calls (τ ++ [Ev.call t op]) = calls τ + 1 := by simp [calls, Ev.isCall]
      rw [this, Nat.add_mul]
      omega
    | ret t r =>
      simp only [credit] at q2
      have : calls (τ ++ [Ev.ret t r]) = calls τ := by simp [calls, Ev.isCall]
      rw [this]
      omega

/-! ## The theorems -/

/-- **C110**: a generator is lock-free.  Whatever the schedule, an execution with `k` calls by at most `p` goroutines
has at most `k · (2p + 4)` steps: retries are bounded by the successes of the others. -/
theorem C110_lock_free (T : Finset Nat) (seed : BitVec w) {n : Nat} {τ : List (Ev (Op w) (Res (BitVec w)))} {s : St w}
    (h : ExecN (Step a c) (St.init seed) n τ s) (hc : CallsBy (· ∈ T) τ) : n ≤ calls τ * (2 * T.card + 4) := by
  have hp : pot T (St.init seed) = 0 := by simp [pot, St.init, cost]
  have := (pot_exec T (fun t ht => absurd rfl ht) h hc).2
  omega

/-- The next step of a goroutine inside a call. -/
def nextStep (a c : BitVec w) (s : St w) (t : Nat) : Option (Ev (Op w) (Res (BitVec w))) × St w :=
  match s.pc t with
  | .idle => (none, s)
  | .load op => (none, ⟨s.seed, setAt s.pc t (.cas op s.seed)⟩)
  | .cas op o => if s.seed = o then (none, ⟨next a c o, setAt s.pc t (.done op (finish op (next a c o)))⟩)
      else (none, ⟨s.seed, setAt s.pc t (.load op)⟩)
  | .seed => (none, ⟨s.seed, setAt s.pc t (.done .seed (.ok s.seed))⟩)
  | .swap v => (none, ⟨v, setAt s.pc t (.done (.srand v) (.ok s.seed))⟩)
  | .done _ r => (some (.ret t r), ⟨s.seed, setAt s.pc t .idle⟩)

/-- **C110**: no goroutine ever waits, and what it does next is determined: one that is inside a call can always make
exactly one step of its own, and that step is not a call. -/
theorem C110_never_waits (s : St w) (t : Nat) (h : s.pc t ≠ .idle) :
    ∃! p : Option (Ev (Op w) (Res (BitVec w))) × St w, Step a c s p.1 p.2 ∧ p.2.pc t ≠ s.pc t := by
  refine ⟨nextStep a c s t, ?_, ?_⟩
  · cases hp : s.pc t with
    | idle => exact absurd hp h
    | load op => simp only [nextStep, hp]; exact ⟨.load s t op hp, by simp [setAt_same]⟩
    | cas op o =>
      simp only [nextStep, hp]
      by_cases hh : s.seed = o
      · rw [if_pos hh]; exact ⟨.casOk s t op o hp hh, by simp [setAt_same]⟩
      · rw [if_neg hh]; exact ⟨.casFail s t op o hp hh, by simp [setAt_same]⟩
    | seed => simp only [nextStep, hp]; exact ⟨.seed s t hp, by simp [setAt_same]⟩
    | swap v => simp only [nextStep, hp]; exact ⟨.swap s t v hp, by simp [setAt_same]⟩
    | done op r => simp only [nextStep, hp]; exact ⟨.ret s t op r hp, by simp [setAt_same]⟩
  · rintro ⟨e, s'⟩ ⟨hs, hne⟩
    have mover : ∀ (u : Nat) (q : PC w) (x : BitVec w), (⟨x, setAt s.pc u q⟩ : St w).pc t ≠ s.pc t → u = t := by
      intro u q x hx
      by_contra hut
      exact hx (setAt_ne _ _ _ _ (Ne.symm hut))
    cases hs with
    | call u op hp => obtain rfl := mover _ _ _ hne; exact absurd hp h
    | load u op hp => obtain rfl := mover _ _ _ hne; simp only [nextStep, hp]
    | casOk u op o hp hh => obtain rfl := mover _ _ _ hne; simp only [nextStep, hp, if_pos hh]
    | casFail u op o hp hh => obtain rfl := mover _ _ _ hne; simp only [nextStep, hp, if_neg hh]
    | seed u hp => obtain rfl := mover _ _ _ hne; simp only [nextStep, hp]
    | swap u v hp => obtain rfl := mover _ _ _ hne; simp only [nextStep, hp]
    | ret u op r hp => obtain rfl := mover _ _ _ hne; simp only [nextStep, hp]

/-- Two goroutines call `Rand`, the first loses the race once: ten steps, below `2 · (2 · 2 + 4)`. -/
example : ∃ (τ : List (Ev (Op 32) (Res (BitVec 32)))) (s : St 32),
    ExecN (Step 7368787#32 2750159#32) (St.init 0#32) 10 τ s ∧ CallsBy (· ∈ ({0, 1} : Finset Nat)) τ ∧ calls τ = 2 ∧
      ∀ t, s.pc t = .idle := by
  have h0 := ExecN.refl (step := Step 7368787#32 2750159#32) (St.init 0#32)
  have h1 := ExecN.visible h0 (.call _ 0 .rand rfl)
  have h2 := ExecN.visible h1 (.call _ 1 .rand rfl)
  have h3 := ExecN.silent h2 (.load _ 0 .rand rfl)
  have h4 := ExecN.silent h3 (.load _ 1 .rand rfl)
  have h5 := ExecN.silent h4 (.casOk _ 1 .rand _ rfl rfl)
  have h6 := ExecN.silent h5 (.casFail _ 0 .rand _ rfl (by decide))
  have h7 := ExecN.visible h6 (.ret _ 1 .rand _ rfl)
  have h8 := ExecN.silent h7 (.load _ 0 .rand rfl)
  have h9 := ExecN.silent h8 (.casOk _ 0 .rand _ rfl rfl)
  have h10 := ExecN.visible h9 (.ret _ 0 .rand _ rfl)
  refine ⟨_, _, h10, ?_, rfl, ?_⟩
  · intro t op hm
    simp at hm
    rcases hm with ⟨rfl, _⟩ | ⟨rfl, _⟩ <;> decide
  · intro t
    simp only [setAt, St.init]
    split_ifs <;> rfl

end Verif.Rand
