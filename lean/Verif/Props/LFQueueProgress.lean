import Verif.Props.LFQueue
import Verif.Spec.Progress
import Verif.Lemmas.SumStep
import Mathlib.Algebra.BigOperators.Group.Finset.Basic
import Mathlib.Algebra.Order.BigOperators.Group.Finset
import Mathlib.Data.Finset.Card
import Mathlib.Tactic.Ring
import Mathlib.Data.Nat.Cast.Basic
import Mathlib.Tactic.SplitIfs
import Mathlib.Tactic.ByContra
/-!
# C106: the lock-free list never blocks
-/

set_option linter.unusedSectionVars false

namespace Verif.LFQueue
open Verif.Spec
variable {V : Type} [Inhabited V]

/-- What a goroutine may still cost: its own steps if nobody interferes, the steps of one retry if what it has read is
stale, and three steps for every goroutine it may still disturb. -/
def cost (p : Nat) (s : St V) : PC V → Nat
  | .idle => 0
  | .pushLoad _ _ => 3 * p + 3
  | .pushCas _ n => 3 * p + if s.head = (s.mem n).next then 2 else 4
  | .pushAdd => 1
  | .popLoad => 3 * p + 4
  | .popRead n => 3 * p + if s.head = some n then 3 else 6
  | .popCas n _ => 3 * p + if s.head = some n then 2 else 5
  | .popSub _ _ => 1
  | .clear => 3 * p + 2
  | .empty => 2
  | .retClear => 1
  | .retEmpty _ => 1

/-- The sum over the goroutines of a set. -/
def pot (T : Finset Nat) (s : St V) : Nat := ∑ t ∈ T, cost T.card s (s.pc t)

/-- The goroutines that are not idle belong to the set. -/
def Within (T : Finset Nat) (s : St V) : Prop := ∀ t, s.pc t ≠ .idle → t ∈ T

/-- The cost of the others does not change when head and the nodes they look at do not. -/
theorem cost_frame {p : Nat} {s s' : St V} {c : PC V} (h1 : s'.head = s.head)
    (h2 : ∀ v n, c = .pushCas v n → (s'.mem n).next = (s.mem n).next) : cost p s' c = cost p s c := by
  cases c <;> simp only [cost, h1]
  rename_i v n
  rw [h2 v n rfl]

/-- A change of head costs everybody at most three steps. -/
theorem cost_stale {p : Nat} {s s' : St V} {c : PC V} : s'.mem = s.mem → cost p s' c ≤ cost p s c + 3 := by
  intro h
  cases c <;> simp only [cost, h] <;> try omega
  all_goals split_ifs <;> omega

/-- What a step adds to the potential: only calls add something. -/
def credit (p : Nat) : Option (Ev (Op V) (Ret V)) → Nat
  | some (.call _ _) => 3 * p + 5
  | _ => 0

theorem Within.set {T : Finset Nat} {s s' : St V} {t : Nat} {c : PC V} (hw : Within T s) (ht : t ∈ T)
    (h : s'.pc = setAt s.pc t c) : Within T s' := by
  intro t' h'
  by_cases e : t' = t
  · rw [e]; exact ht
  · rw [h, setAt_ne _ _ _ _ e] at h'; exact hw t' h'

/-- A step of `t` that disturbs nobody. -/
theorem pot_quiet {T : Finset Nat} {s s' : St V} {t : Nat} {c : PC V} {k : Nat} (hw : Within T s) (ht : t ∈ T)
    (h : s'.pc = setAt s.pc t c) (h1 : s'.head = s.head)
    (h2 : ∀ t' v n, t' ≠ t → s.pc t' = .pushCas v n → (s'.mem n).next = (s.mem n).next)
    (hc : cost T.card s' c + 1 ≤ cost T.card s (s.pc t) + k) :
    Within T s' ∧ pot T s' + 1 ≤ pot T s + k := by
  refine ⟨hw.set ht h, ?_⟩
  have := sum_step T t ht (fun x => cost T.card s (s.pc x)) (fun x => cost T.card s' (s'.pc x)) 0
    (fun t' _ hn => by
      simp only [h, setAt_ne _ _ _ _ hn, Nat.add_zero]
      exact le_of_eq (cost_frame h1 fun v n e => h2 t' v n hn e))
  simp only [h, setAt_same] at this
  simp only [pot, h]
  omega

/-- A step of `t` that moves the head. -/
theorem pot_move {T : Finset Nat} {s s' : St V} {t : Nat} {c : PC V} (hw : Within T s) (ht : t ∈ T)
    (h : s'.pc = setAt s.pc t c) (h1 : s'.mem = s.mem)
    (hc : cost T.card s' c + 3 * T.card ≤ cost T.card s (s.pc t) + 2) :
    Within T s' ∧ pot T s' + 1 ≤ pot T s := by
  refine ⟨hw.set ht h, ?_⟩
  have := sum_step T t ht (fun x => cost T.card s (s.pc x)) (fun x => cost T.card s' (s'.pc x)) 3
    (fun t' _ hn => by
      simp only [h, setAt_ne _ _ _ _ hn]
      exact cost_stale h1)
  simp only [h, setAt_same] at this
  simp only [pot, h]
  omega

/-- Every step but a call uses up the potential. -/
theorem pot_step (T : Finset Nat) {s s' : St V} {l : List Nat} {e : Option (Ev (Op V) (Ret V))}
    (hI : Inv s l) (hw : Within T s) (hc : ∀ t op, e = some (.call t op) → t ∈ T) (hs : Step s e s') :
    Within T s' ∧ pot T s' + 1 ≤ pot T s + credit T.card e := by
  cases hs with
  | callPush t v hp =>
    refine pot_quiet hw (hc _ _ rfl) rfl rfl (fun t' v' n hn e => ?_) (by simp [cost, hp, credit])
    have := (hI.privLt t' v' n (by rw [e]; rfl)).1
    simp only [setAt_ne _ _ _ _ (Nat.ne_of_lt this)]
  | pushLoad t v n hp =>
    refine pot_quiet hw (hw t (by rw [hp]; simp)) rfl rfl (fun t' v' n' hn e => ?_) (by simp [cost, hp, credit, setAt_same])
    have : n' ≠ n := by
      rintro rfl
      exact hn (hI.privNe t' t v' v n' (by rw [e]; rfl) (by rw [hp]; rfl))
    simp only [setAt_ne _ _ _ _ this]
  | pushCasOk t v n hp hh => exact pot_move hw (hw t (by rw [hp]; simp)) rfl rfl (by simp [cost, hp, hh]; omega)
  | pushCasFail t v n hp hh =>
    exact pot_quiet hw (hw t (by rw [hp]; simp)) rfl rfl (fun _ _ _ _ _ => rfl) (by simp [cost, hp, hh, credit])
  | pushAdd t hp =>
    exact pot_quiet hw (hw t (by rw [hp]; simp)) rfl rfl (fun _ _ _ _ _ => rfl) (by simp [cost, hp, credit])
  | callPop t hp =>
    exact pot_quiet hw (hc _ _ rfl) rfl rfl (fun _ _ _ _ _ => rfl) (by simp [cost, credit])
  | popNil t hp hh =>
    exact pot_quiet hw (hw t (by rw [hp]; simp)) rfl rfl (fun _ _ _ _ _ => rfl) (by simp [cost, hp, credit])
  | popLoad t n hp hh =>
    exact pot_quiet hw (hw t (by rw [hp]; simp)) rfl rfl (fun _ _ _ _ _ => rfl) (by simp [cost, hp, hh, credit])
  | popRead t n hp =>
    exact pot_quiet hw (hw t (by rw [hp]; simp)) rfl rfl (fun _ _ _ _ _ => rfl)
      (by simp only [cost, hp, credit]; split_ifs <;> omega)
  | popCasOk t n nx hp hh => exact pot_move hw (hw t (by rw [hp]; simp)) rfl rfl (by simp [cost, hp, hh]; omega)
  | popCasFail t n nx hp hh =>
    exact pot_quiet hw (hw t (by rw [hp]; simp)) rfl rfl (fun _ _ _ _ _ => rfl) (by simp [cost, hp, hh, credit])
  | popSub t v ok hp =>
    exact pot_quiet hw (hw t (by rw [hp]; simp)) rfl rfl (fun _ _ _ _ _ => rfl) (by simp [cost, hp, credit])
  | callClear t hp =>
    exact pot_quiet hw (hc _ _ rfl) rfl rfl (fun _ _ _ _ _ => rfl) (by simp [cost, credit]; omega)
  | clear t hp => exact pot_move hw (hw t (by rw [hp]; simp)) rfl rfl (by simp [cost, hp]; omega)
  | callEmpty t hp =>
    exact pot_quiet hw (hc _ _ rfl) rfl rfl (fun _ _ _ _ _ => rfl) (by simp [cost, credit]; omega)
  | empty t hp =>
    exact pot_quiet hw (hw t (by rw [hp]; simp)) rfl rfl (fun _ _ _ _ _ => rfl) (by simp [cost, hp, credit])
  | retClear t hp =>
    exact pot_quiet hw (hw t (by rw [hp]; simp)) rfl rfl (fun _ _ _ _ _ => rfl) (by simp [cost, hp, credit])
  | retEmpty t b hp =>
    exact pot_quiet hw (hw t (by rw [hp]; simp)) rfl rfl (fun _ _ _ _ _ => rfl) (by simp [cost, hp, credit])

/-- Steps keep the invariant. -/
theorem inv_step {s s' : St V} {e : Option (Ev (Op V) (Ret V))} (h : ∃ l, Inv s l) (hs : Step s e s') :
    ∃ l, Inv s' l := by
  obtain ⟨l, hI⟩ := h
  obtain ⟨_, _, ⟨l', h', _⟩, _⟩ := sim s ⟨l.map fun x => (s.mem x).val, fun t => status (s.pc t)⟩ e s'
    ⟨⟨l, hI, rfl⟩, fun _ => rfl⟩ hs
  exact ⟨l', h'⟩

theorem inv_init : ∃ l, Inv (St.init : St V) l :=
  ⟨[], rfl, by simp, by simp [St.init, priv], by simp [St.init, priv], by simp [St.init, inHand], by simp [St.init]⟩

/-- Any part of an execution is paid for by the potential at its start and its calls. -/
theorem pot_exec (T : Finset Nat) {s s' : St V} {n : Nat} {τ : List (Ev (Op V) (Ret V))} (hI : ∃ l, Inv s l)
    (hw : Within T s) (h : ExecN Step s n τ s') (hc : CallsBy (· ∈ T) τ) :
    (∃ l, Inv s' l) ∧ Within T s' ∧ pot T s' + n ≤ pot T s + calls τ * (3 * T.card + 5) := by
  induction h with
  | refl => exact ⟨hI, hw, by simp⟩
  | silent _ hs ih =>
    obtain ⟨h1, h2, h3⟩ := ih hc
    obtain ⟨l, h1'⟩ := h1
    obtain ⟨q1, q2⟩ := pot_step T h1' h2 (by simp) hs
    refine ⟨inv_step ⟨l, h1'⟩ hs, q1, ?_⟩
    simp only [credit] at q2
    omega
  | @visible s' s'' n τ e _ hs ih =>
    obtain ⟨h1, h2, h3⟩ := ih (fun t op hm => hc t op (List.mem_append_left _ hm))
    obtain ⟨l, h1'⟩ := h1
    obtain ⟨q1, q2⟩ := pot_step T h1' h2
      (fun t op e' => by cases e'; exact hc t op (by simp)) hs
    refine ⟨inv_step ⟨l, h1'⟩ hs, q1, ?_⟩
    cases e with
    | call t op =>
      simp only [credit] at q2
      have : calls (τ ++ [Ev.call t op]) = calls τ + 1 := by simp [calls, Ev.isCall]
      rw [this, Nat.add_mul]
      omega
    | ret t r =>
      simp only [credit] at q2
      have : calls (τ ++ [Ev.ret t r]) = calls τ := by simp [calls, Ev.isCall]
      rw [this]
      omega

/-! ## The theorems -/

/-- **C106**: the list is lock-free.  Whatever the schedule, an execution with `k` calls by at most `p` goroutines
has at most `k · (3p + 5)` steps: retries are bounded by the successes of the others. -/
theorem C106_lock_free (T : Finset Nat) {n : Nat} {τ : List (Ev (Op V) (Ret V))} {s : St V}
    (h : ExecN Step St.init n τ s) (hc : CallsBy (· ∈ T) τ) : n ≤ calls τ * (3 * T.card + 5) := by
  have hp : pot T (St.init : St V) = 0 := by simp [pot, St.init, cost]
  have := (pot_exec T inv_init (fun t ht => absurd rfl ht) h hc).2.2
  omega

/-- **C106**: no goroutine ever waits: one that is inside a call can always make a step of its own. -/
theorem C106_never_waits (s : St V) (t : Nat) (h : s.pc t ≠ .idle) :
    ∃ e s', Step s e s' ∧ s'.pc t ≠ s.pc t ∧ (∀ t', t' ≠ t → s'.pc t' = s.pc t') ∧
      (∀ t' op, e ≠ some (.call t' op)) := by
  have key : ∀ (e : Option (Ev (Op V) (Ret V))) (s' : St V) (c : PC V), Step s e s' → s'.pc = setAt s.pc t c →
      c ≠ s.pc t → (∀ t' op, e ≠ some (.call t' op)) → ∃ e s', Step s e s' ∧ s'.pc t ≠ s.pc t ∧
      (∀ t', t' ≠ t → s'.pc t' = s.pc t') ∧ (∀ t' op, e ≠ some (.call t' op)) := by
    intro e s' c hs hpc hne hcall
    exact ⟨e, s', hs, by rw [hpc, setAt_same]; exact hne, fun t' hn => by rw [hpc, setAt_ne _ _ _ _ hn], hcall⟩
  cases hp : s.pc t with
  | idle => exact absurd hp h
  | pushLoad v n => rw [← hp]; exact key _ _ _ (.pushLoad s t v n hp) rfl (by rw [hp]; simp) (by simp)
  | pushCas v n =>
    rw [← hp]
    by_cases hh : s.head = (s.mem n).next
    · exact key _ _ _ (.pushCasOk s t v n hp hh) rfl (by rw [hp]; simp) (by simp)
    · exact key _ _ _ (.pushCasFail s t v n hp hh) rfl (by rw [hp]; simp) (by simp)
  | pushAdd => rw [← hp]; exact key _ _ _ (.pushAdd s t hp) rfl (by rw [hp]; simp) (by simp)
  | popLoad =>
    rw [← hp]
    cases hh : s.head with
    | none => exact key _ _ _ (.popNil s t hp hh) rfl (by rw [hp]; simp) (by simp)
    | some n => exact key _ _ _ (.popLoad s t n hp hh) rfl (by rw [hp]; simp) (by simp)
  | popRead n => rw [← hp]; exact key _ _ _ (.popRead s t n hp) rfl (by rw [hp]; simp) (by simp)
  | popCas n nx =>
    rw [← hp]
    by_cases hh : s.head = some n
    · exact key _ _ _ (.popCasOk s t n nx hp hh) rfl (by rw [hp]; simp) (by simp)
    · exact key _ _ _ (.popCasFail s t n nx hp hh) rfl (by rw [hp]; simp) (by simp)
  | popSub v ok => rw [← hp]; exact key _ _ _ (.popSub s t v ok hp) rfl (by rw [hp]; simp) (by simp)
  | clear => rw [← hp]; exact key _ _ _ (.clear s t hp) rfl (by rw [hp]; simp) (by simp)
  | empty => rw [← hp]; exact key _ _ _ (.empty s t hp) rfl (by rw [hp]; simp) (by simp)
  | retClear => rw [← hp]; exact key _ _ _ (.retClear s t hp) rfl (by rw [hp]; simp) (by simp)
  | retEmpty b => rw [← hp]; exact key _ _ _ (.retEmpty s t b hp) rfl (by rw [hp]; simp) (by simp)

/-- **C106**: whenever no further calls are made, every schedule that keeps some pending goroutine running completes
all calls: an execution without calls from a reachable state is at most `k · (3p + 5)` steps long, and unless all
goroutines have returned it can be continued. -/
theorem C106_completes {τ : List (Ev (Op V) (Ret V))} {s : St V} (h : Exec Step St.init τ s) :
    ∀ n τ' s', ExecN Step s n τ' s' → calls τ' = 0 →
      n ≤ calls τ * (3 * (callers τ).card + 5) ∧
      ((∃ t, s'.pc t ≠ .idle) → ∃ e s'', Step s' e s'' ∧ (∀ t op, e ≠ some (.call t op))) := by
  intro n τ' s' h' h0
  refine ⟨?_, fun ⟨t, ht⟩ => ?_⟩
  · obtain ⟨m, hm⟩ := h.counted
    have hp : pot (callers τ) (St.init : St V) = 0 := by simp [pot, St.init, cost]
    obtain ⟨q1, q2, q3⟩ := pot_exec (callers τ) inv_init (fun t ht => absurd rfl ht) hm (callsBy_callers τ)
    have hn : CallsBy (· ∈ callers τ) τ' := by
      intro t op hmem
      simp only [calls, List.countP_eq_zero] at h0
      exact absurd rfl (h0 _ hmem)
    obtain ⟨_, _, r3⟩ := pot_exec (callers τ) q1 q2 h' hn
    rw [h0] at r3
    omega
  · obtain ⟨e, s'', hs, _, _, hc⟩ := C106_never_waits s' t ht
    exact ⟨e, s'', hs, hc⟩

/-- **C106**: every reachable state can run on, without further calls, to one where all calls have returned. -/
theorem C106_quiescence {τ : List (Ev (Op V) (Ret V))} {s : St V} (h : Exec Step St.init τ s) :
    ∃ n τ' s', ExecN Step s n τ' s' ∧ calls τ' = 0 ∧ ∀ t, s'.pc t = .idle := by
  by_contra hno
  have hlong : ∀ n, ∃ τ' s', ExecN Step s n τ' s' ∧ calls τ' = 0 := by
    intro n
    induction n with
    | zero => exact ⟨[], s, .refl _, rfl⟩
    | succ n ih =>
      obtain ⟨τ', s', h', h0⟩ := ih
      have hne : ∃ t, s'.pc t ≠ .idle := by
        by_contra hall
        exact hno ⟨n, τ', s', h', h0, fun t => by_contra fun ht => hall ⟨t, ht⟩⟩
      obtain ⟨e, s'', hs, hc⟩ := (C106_completes h n τ' s' h' h0).2 hne
      cases e with
      | none => exact ⟨τ', s'', .silent h' hs, h0⟩
      | some e =>
        refine ⟨τ' ++ [e], s'', .visible h' hs, ?_⟩
        cases e with
        | call t op => exact absurd rfl (hc t op)
        | ret t r => simpa [calls, Ev.isCall] using h0
  obtain ⟨τ', s', h', h0⟩ := hlong (calls τ * (3 * (callers τ).card + 5) + 1)
  have := (C106_completes h _ τ' s' h' h0).1
  omega

/-- Two goroutines push; the first loses the race for the head once: ten steps, below `2 · (3 · 2 + 5)`. -/
example : ∃ (τ : List (Ev (Op Nat) (Ret Nat))) (s : St Nat),
    ExecN Step St.init 10 τ s ∧ CallsBy (· ∈ ({0, 1} : Finset Nat)) τ ∧ calls τ = 2 ∧ ∀ t, s.pc t = .idle := by
  have h0 := ExecN.refl (step := Step) (St.init : St Nat)
  have h1 := ExecN.visible h0 (.callPush _ 0 7 rfl)
  have h2 := ExecN.visible h1 (.callPush _ 1 8 rfl)
  have h3 := ExecN.silent h2 (.pushLoad _ 0 7 0 rfl)
  have h4 := ExecN.silent h3 (.pushLoad _ 1 8 1 rfl)
  have h5 := ExecN.silent h4 (.pushCasOk _ 1 8 1 rfl rfl)
  have h6 := ExecN.silent h5 (.pushCasFail _ 0 7 0 rfl (by decide))
  have h7 := ExecN.visible h6 (.pushAdd _ 1 rfl)
  have h8 := ExecN.silent h7 (.pushLoad _ 0 7 0 rfl)
  have h9 := ExecN.silent h8 (.pushCasOk _ 0 7 0 rfl rfl)
  have h10 := ExecN.visible h9 (.pushAdd _ 0 rfl)
  refine ⟨_, _, h10, ?_, rfl, ?_⟩
  · intro t op hm
    simp at hm
    rcases hm with ⟨rfl, _⟩ | ⟨rfl, _⟩ <;> simp
  · intro t
    simp only [setAt, St.init]
    repeat' split
    all_goals rfl

theorem ex_push : ∃ s : St Nat, Exec Step St.init [.call 0 (.push 7)] s ∧ s.pc 0 = .pushLoad 7 0 :=
  ⟨_, (Exec.refl (step := Step) (St.init : St Nat)).visible (.callPush _ 0 7 rfl), rfl⟩
example : ∃ s : St Nat, ∃ e s', Step s e s' ∧ s'.pc 0 ≠ s.pc 0 ∧ (∀ t', t' ≠ 0 → s'.pc t' = s.pc t') ∧
    (∀ t' op, e ≠ some (.call t' op)) := by
  obtain ⟨s, h, hp⟩ := ex_push
  exact ⟨s, C106_never_waits s 0 (by rw [hp]; simp)⟩
example : ∃ s : St Nat, s.pc 0 = .pushLoad 7 0 ∧ ∀ n τ' s', ExecN Step s n τ' s' → calls τ' = 0 → n ≤ 1 * (3 * 1 + 5) := by
  obtain ⟨s, h, hp⟩ := ex_push
  exact ⟨s, hp, fun n τ' s' h1 h2 => (C106_completes h n τ' s' h1 h2).1⟩

end Verif.LFQueue
