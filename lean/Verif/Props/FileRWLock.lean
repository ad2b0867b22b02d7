import Verif.Model.FileRWLock
import Mathlib.Data.List.Induction
/-!
# Properties of the reader-writer file lock (C103)
-/

namespace Verif.FileRWLock
open Verif.Spec

/-! ## Specification -/

/-- The mutexes that hold `path` after one more return: for writing (`true`) or for reading. -/
def Spec.after (path : String) (hs : List (Nat × Bool)) (e : Event) : List (Nat × Bool) :=
  match e.op with
  | .lock p => if p = path then (e.m, true) :: hs else hs
  | .rlock p => if p = path then (e.m, false) :: hs else hs
  | .unlock => hs.erase (e.m, true)
  | .runlock => hs.erase (e.m, false)

/-- The mutexes that hold `path` after a history of returns. -/
def Spec.holders (path : String) (τ : List Event) : List (Nat × Bool) := τ.foldl (Spec.after path) []

/-- What C103 asks: a writer is alone, at the end of every history. -/
def Spec.Excludes (path : String) : Prop :=
  ∀ τ s, Exec Step St.start τ s → ∀ h ∈ Spec.holders path τ, h.2 = true → Spec.holders path τ = [h]

/-! ## C103 -/

/-- **C103.** Every sequence of calls whatever returns, in every order, and leaves everything as it was: nothing ever waits,
nothing is ever refused. -/
theorem C103_any_history (τ : List Event) : Exec Step St.start τ St.start := by
  induction τ using List.reverseRecOn with
  | nil => exact .refl _
  | append_singleton τ e ih =>
    have h1 := Exec.silent ih (.call St.start e.t e.m e.op rfl)
    have h2 := Exec.visible h1 (.ret _ e.t e.m e.op (by simp [setAt]))
    have : (⟨setAt (setAt St.start.pc e.t (some (e.m, e.op))) e.t none⟩ : St) = St.start := by
      simp only [St.start, St.mk.injEq]
      funext x
      by_cases hx : x = e.t <;> simp [setAt, hx]
    rw [this] at h2
    exact h2

/-- **C103 is false of the code**, for every path: any two mutexes hold it for writing at the same time, and a reader and a
writer do. -/
theorem C103_false (path : String) (m m' : Nat) :
    (∃ τ s, Exec Step St.start τ s ∧ Spec.holders path τ = [(m', true), (m, true)]) ∧
    (∃ τ s, Exec Step St.start τ s ∧ Spec.holders path τ = [(m', false), (m, true)]) ∧ ¬ Spec.Excludes path := by
  have h2 : ∃ τ s, Exec Step St.start τ s ∧ Spec.holders path τ = [(m', false), (m, true)] :=
    ⟨[⟨0, m, .lock path⟩, ⟨1, m', .rlock path⟩], _, C103_any_history _, by simp [Spec.holders, Spec.after]⟩
  refine ⟨⟨[⟨0, m, .lock path⟩, ⟨1, m', .lock path⟩], _, C103_any_history _, by simp [Spec.holders, Spec.after]⟩, h2, ?_⟩
  intro h
  obtain ⟨τ, s, h3, h4⟩ := h2
  have := h τ s h3 (m, true) (by simp [h4]) rfl
  simp [h4] at this

example : Spec.holders "a" [⟨0, 5, .lock "a"⟩, ⟨0, 6, .lock "b"⟩, ⟨0, 5, .unlock⟩, ⟨1, 7, .rlock "a"⟩] = [(7, false)] := by decide

end Verif.FileRWLock
