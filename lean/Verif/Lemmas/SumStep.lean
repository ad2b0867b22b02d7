import Mathlib.Algebra.BigOperators.Group.Finset.Basic
import Mathlib.Algebra.Order.BigOperators.Group.Finset
import Mathlib.Data.Finset.Card
import Mathlib.Tactic.Ring
import Mathlib.Data.Nat.Cast.Basic
/-!
# Sums in which one summand changes and the others grow by a bounded amount
-/

namespace Verif.Spec

theorem sum_step (T : Finset Nat) (t : Nat) (ht : t ∈ T) (f f' : Nat → Nat) (d : Nat)
    (h : ∀ t' ∈ T, t' ≠ t → f' t' ≤ f t' + d) :
    ∑ x ∈ T, f' x + f t + d ≤ ∑ x ∈ T, f x + f' t + d * T.card := by
  have h1 := Finset.sum_erase_add T f ht
  have h2 := Finset.sum_erase_add T f' ht
  have h3 : ∑ x ∈ T.erase t, f' x ≤ ∑ x ∈ T.erase t, (f x + d) :=
    Finset.sum_le_sum fun x hx => h x (Finset.mem_of_mem_erase hx) (Finset.ne_of_mem_erase hx)
  rw [Finset.sum_add_distrib, Finset.sum_const, Finset.card_erase_of_mem ht, nsmul_eq_mul, Nat.cast_id] at h3
  have hc : 0 < T.card := Finset.card_pos.2 ⟨t, ht⟩
  have h4 : (T.card - 1) * d + d = d * T.card := by
    obtain ⟨k, hk⟩ : ∃ k, T.card = k + 1 := ⟨T.card - 1, by omega⟩
    rw [hk]; simp only [Nat.add_sub_cancel]; ring
  omega

end Verif.Spec
