import Verif.Model.Stack
/-!
# C01 — the stack is LIFO
-/

namespace Verif.Stack
open Verif.Spec
variable {α : Type} [Inhabited α]

theorem step_refines (s : Stack α) (op : StackOp α) :
    step s op = .ok (⟨(stackStep s.d.reverse op).1.reverse⟩, (stackStep s.d.reverse op).2) := by
  obtain ⟨d⟩ := s
  cases op with
  | init n => simp [step, init, stackStep]
  | push v => simp [step, push, stackStep]
  | size => simp [step, size, stackStep]
  | empty => cases d <;> simp [step, empty, size, stackStep]
  | clear => simp [step, clear, init, stackStep]
  | top =>
    rcases List.eq_nil_or_concat d with h | ⟨d', x, h⟩ <;> subst h <;>
      simp [step, top, size, stackStep, Go.get, outOpt]
  | pop =>
    rcases List.eq_nil_or_concat d with h | ⟨d', x, h⟩ <;> subst h <;>
      simp [step, pop, top, size, stackStep, Go.get, outOpt]

/-- **C01.** For every history of calls, on a stack holding any contents, no call panics and the
returned values are exactly those of a mathematical LIFO sequence. -/
theorem C01_stack_lifo (s : Stack α) (ops : List (StackOp α)) :
    ∃ s', run s ops = .ok (s', (runSpec stackStep s.d.reverse ops).2) ∧
      s'.d.reverse = (runSpec stackStep s.d.reverse ops).1 := by
  induction ops generalizing s with
  | nil => exact ⟨s, rfl, rfl⟩
  | cons op ops ih =>
    obtain ⟨s', h1, h2⟩ := ih ⟨(stackStep s.d.reverse op).1.reverse⟩
    refine ⟨s', ?_, ?_⟩
    · simp [run, step_refines, h1, runSpec]
    · simpa [runSpec] using h2

/-- Non-trivial instance: interleaved pushes and pops, including a pop on empty. -/
example : (run (⟨[]⟩ : Stack Int) [.push 1, .push 2, .pop, .push 3, .top, .size, .pop, .pop, .pop, .empty])
    = .ok (⟨[]⟩, [.bool true, .bool true, .val 2 true, .bool true, .val 3 true, .nat 2, .val 3 true,
        .val 1 true, .val 0 false, .bool true]) := by decide

end Verif.Stack
