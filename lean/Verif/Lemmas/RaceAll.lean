import Verif.Lemmas.Race
/-!
# Statements about all accesses of an execution
-/

namespace Verif.Spec
variable {L : Type}

/-- Every access of the execution. -/
def All (τ : List (Acc L)) (P : Nat → Acc L → Prop) : Prop := ∀ i a, τ[i]? = some a → P i a

theorem all_append {τ : List (Acc L)} {a : Acc L} {P : Nat → Acc L → Prop} :
    All (τ ++ [a]) P ↔ All τ P ∧ P τ.length a := by
  constructor
  · intro h
    exact ⟨fun i b hb => h i b (by rwa [get_append (getElem?_lt hb)]), h _ _ get_last⟩
  · rintro ⟨h1, h2⟩ i b hb
    by_cases hi : i < τ.length
    · rw [get_append hi] at hb
      exact h1 i b hb
    · have : i = τ.length := by have := getElem?_lt hb; simp at this; omega
      subst this
      rw [get_last] at hb
      cases hb
      exact h2

theorem All.imp {τ : List (Acc L)} {P Q : Nat → Acc L → Prop} (h : All τ P) (hi : ∀ i a, P i a → Q i a) : All τ Q :=
  fun i a ha => hi i a (h i a ha)

theorem known_mono {τ : List (Acc L)} {a : Acc L} {t i : Nat} (h : Known τ t i) : Known (τ ++ [a]) t i :=
  known_append.mpr (.inl h)

theorem passed_mono {τ : List (Acc L)} {a : Acc L} {x : L} {i : Nat} (hw : a.loc = x → a.kind = .rmw ∨ a.kind.writes = false)
    (h : Passed τ x i) : Passed (τ ++ [a]) x i := by
  rw [passed_append]
  by_cases hc : a.loc = x ∧ a.kind.writes = true
  · rcases hw hc.1 with hr | hr
    · refine .inl ⟨hc.1, hc.2, by rw [hr]; rfl, known_append.mpr (.inr ⟨rfl, .inr ⟨by rw [hr]; rfl, ?_⟩⟩)⟩
      rw [hc.1]; exact h
    · rw [hc.2] at hr; exact absurd hr (by simp)
  · exact .inr ⟨hc, h⟩

end Verif.Spec
