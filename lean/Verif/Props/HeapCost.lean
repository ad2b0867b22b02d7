import Verif.Model.HeapCost
import Verif.Lemmas.Heap
import Mathlib.Data.Nat.Log
import Mathlib.Algebra.BigOperators.Group.Finset.Basic
import Mathlib.Algebra.BigOperators.Intervals
import Mathlib.Algebra.Order.BigOperators.Group.Finset
/-!
# C125: how many comparisons the heap makes
-/

set_option linter.unusedSectionVars false

namespace Verif.Heap
variable {α : Type}

/-! ## The counted functions do what the functions do -/

theorem adjustUpC_fst (f : α → α → Bool) (b : List α) (hole : Nat) (hh : hole < b.length) (v : α) :
    (adjustUpC f b hole hh v).1 = adjustUp f b hole hh v := by
  fun_induction adjustUp f b hole hh v with
  | case1 b hole hh h hf ih => rw [adjustUpC]; simp [h, hf, ih]
  | case2 b hole hh h hf => rw [adjustUpC]; simp [h, hf]
  | case3 b hole hh h => rw [adjustUpC]; simp [h]

theorem popBufC_fst (f : α → α → Bool) (b : List α) : (popBufC f b).1 = popBuf f b := by
  unfold popBufC popBuf
  split
  · simp [adjustDownC_fst]
  · rfl

theorem makeLoopC_fst (f : α → α → Bool) (b : List α) (i : Nat) (h : i < b.length) :
    (makeLoopC f b i h).1 = makeLoop f b i h := by
  induction i generalizing b with
  | zero => simp [makeLoopC, makeLoop, adjustDownC_fst]
  | succ i ih =>
    simp only [makeLoopC, makeLoop, ih]
    congr 1
    exact adjustDownC_fst _ _ _ _ _

theorem makeHeapC_fst (f : α → α → Bool) (b : List α) : (makeHeapC f b).1 = makeHeap f b := by
  unfold makeHeapC makeHeap
  split
  · exact makeLoopC_fst _ _ _ _
  · rfl

theorem sortLoopC_fst (f : α → α → Bool) (b : List α) (n : Nat) : (sortLoopC f b n).1 = sortLoop f b n := by
  induction n generalizing b with
  | zero => rfl
  | succ n ih =>
    simp only [sortLoopC, sortLoop]
    split
    · simp only [ih, popBufC_fst]
    · rfl

/-- **C125** The functions with counter compute what the functions without it compute. -/
theorem C125_same (f : α → α → Bool) (b : List α) (v : α) :
    (pushHeapC f b v).1 = pushHeap f b v ∧ (popBufC f b).1 = popBuf f b ∧ (makeHeapC f b).1 = makeHeap f b ∧
      (sortHeapC f b).1 = sortHeap f b := by
  refine ⟨adjustUpC_fst _ _ _ _ _, popBufC_fst _ _, makeHeapC_fst _ _, ?_⟩
  simp only [sortHeapC, sortHeap, sortLoopC_fst, makeHeapC_fst]

/-! ## Bounds -/

theorem upCost (f : α → α → Bool) (b : List α) (hole : Nat) (hh : hole < b.length) (v : α) :
    (adjustUpC f b hole hh v).2.length ≤ Nat.log 2 (hole + 1) := by
  fun_induction adjustUpC f b hole hh v with
  | case1 b hole hh h hf p ih =>
    simp only [List.length_cons, p]
    have : parent hole + 1 = (hole + 1) / 2 := by unfold parent; omega
    rw [this] at ih
    rw [Nat.log_of_one_lt_of_le (by omega) (show 2 ≤ hole + 1 by omega)]
    omega
  | case2 b hole hh h hf =>
    simp only [List.length_cons, List.length_nil]
    rw [Nat.log_of_one_lt_of_le (by omega) (show 2 ≤ hole + 1 by omega)]
    omega
  | case3 b hole hh h => simp

theorem downCost (f : α → α → Bool) (b : List α) (hole : Nat) (hh : hole < b.length) (v : α) :
    (adjustDownC f b hole hh v).2.length ≤ 2 * Nat.log 2 (b.length / (hole + 1)) := by
  have hc : ∀ (b : List α) (hole : Nat) (hl), (bestAsks b hole hl).length ≤ 1 := fun b hole hl => by
    unfold bestAsks; split <;> simp
  have hlog : ∀ n hole : Nat, lchild hole < n → Nat.log 2 (n / (hole + 1)) = Nat.log 2 (n / (2 * (hole + 1))) + 1 := by
    intro n hole h
    unfold lchild at h
    have : 2 ≤ n / (hole + 1) := by
      rw [Nat.le_div_iff_mul_le (by omega)]; omega
    rw [Nat.log_of_one_lt_of_le (by omega) this, Nat.div_div_eq_div_mul, Nat.mul_comm]
  fun_induction adjustDownC f b hole hh v with
  | case1 b hole hh hl hf =>
    have := hc b hole hl
    rw [hlog _ _ hl]
    simp only [List.length_append, List.length_cons, List.length_nil]
    omega
  | case2 b hole hh hl hf p ih =>
    simp only [List.length_set] at ih
    simp only [List.length_append, List.length_cons, p]
    have h1 := hc b hole hl
    have h2 : lchild hole ≤ bestChild f b hole hl := by unfold bestChild; split <;> [split; skip] <;> omega
    have h3 : b.length / (bestChild f b hole hl + 1) ≤ b.length / (2 * (hole + 1)) :=
      Nat.div_le_div_left (by unfold lchild at h2; omega) (by omega)
    have h4 := Nat.log_mono_right (b := 2) h3
    rw [hlog _ _ hl]
    omega
  | case3 b hole hh hl => simp

/-- **C125** `PushHeap` onto `n` elements makes at most `⌊log₂(n+1)⌋` comparisons. -/
theorem C125_push (f : α → α → Bool) (b : List α) (v : α) : (pushHeapC f b v).2.length ≤ Nat.log 2 (b.length + 1) :=
  upCost f _ _ _ v

/-- **C125** `PopHeap` of `n` elements makes at most `2⌊log₂(n-1)⌋` comparisons. -/
theorem C125_pop (f : α → α → Bool) (b : List α) : (popBufC f b).2.length ≤ 2 * Nat.log 2 (b.length - 1) := by
  unfold popBufC
  split
  · rename_i h
    have := downCost f ((b.set 0 b[b.length - 1]).take (b.length - 1)) 0 (by simp; omega) b[b.length - 1]
    simp only [List.length_take, List.length_set, Nat.zero_add, Nat.div_one] at this
    refine Nat.le_trans this (Nat.mul_le_mul_left _ (Nat.log_mono_right (Nat.min_le_left _ _)))
  · simp

/-- `Σ ⌊log₂(n/i)⌋ ≤ n`. -/
theorem sum_log (n : Nat) : ∀ m, ∑ i ∈ Finset.range m, Nat.log 2 (n / (i + 1)) ≤ n := by
  induction n using Nat.strong_induction_on with
  | _ n ih =>
    intro m
    by_cases hn : n = 0
    · subst hn; simp
    have hz : ∀ i, n / 2 ≤ i → Nat.log 2 (n / (i + 1)) = 0 := by
      intro i hi
      apply Nat.log_of_lt
      rw [Nat.div_lt_iff_lt_mul (by omega)]; omega
    have hs : ∀ i, i < n / 2 → Nat.log 2 (n / (i + 1)) = Nat.log 2 (n / 2 / (i + 1)) + 1 := by
      intro i hi
      rw [Nat.log_of_one_lt_of_le (by omega) (show 2 ≤ n / (i + 1) by rw [Nat.le_div_iff_mul_le (by omega)]; omega),
        Nat.div_div_eq_div_mul, Nat.div_div_eq_div_mul, Nat.mul_comm]
    have h1 : ∑ i ∈ Finset.range m, Nat.log 2 (n / (i + 1)) ≤ ∑ i ∈ Finset.range (n / 2), Nat.log 2 (n / (i + 1)) := by
      rcases Nat.le_total m (n / 2) with h | h
      · exact Finset.sum_le_sum_of_subset (Finset.range_mono h)
      · rw [← Finset.sum_range_add_sum_Ico _ h]
        rw [Finset.sum_eq_zero (s := Finset.Ico (n / 2) m) (fun i hi => hz i (Finset.mem_Ico.1 hi).1)]
        omega
    have h2 : ∑ i ∈ Finset.range (n / 2), Nat.log 2 (n / (i + 1)) =
        ∑ i ∈ Finset.range (n / 2), (Nat.log 2 (n / 2 / (i + 1)) + 1) :=
      Finset.sum_congr rfl (fun i hi => hs i (Finset.mem_range.1 hi))
    have h3 := ih (n / 2) (by omega) (n / 2)
    rw [h2, Finset.sum_add_distrib] at h1
    have hk : ∀ k, ∑ _i ∈ Finset.range k, 1 = k := by
      intro k
      induction k with
      | zero => rfl
      | succ k ih => rw [Finset.sum_range_succ, ih]
    rw [hk] at h1
    omega

theorem makeLoopCost (f : α → α → Bool) (b : List α) (i : Nat) (h : i < b.length) :
    (makeLoopC f b i h).2.length ≤ 2 * ∑ j ∈ Finset.range (i + 1), Nat.log 2 (b.length / (j + 1)) := by
  induction i generalizing b with
  | zero =>
    have := downCost f b 0 h b[0]
    simpa [makeLoopC] using this
  | succ i ih =>
    simp only [makeLoopC]
    have h1 := downCost f b (i + 1) h b[i + 1]
    have h2 := ih (adjustDownC f b (i + 1) h b[i + 1]).1 (by rw [adjustDownC_fst, adjustDown_length]; omega)
    rw [Finset.sum_range_succ]
    simp only [adjustDownC_fst, adjustDown_length] at h2
    simp only [adjustDownC_fst, List.length_append]
    omega

/-- **C125** `MakeHeap` of `n` elements makes at most `2n` comparisons. -/
theorem C125_make (f : α → α → Bool) (b : List α) : (makeHeapC f b).2.length ≤ 2 * b.length := by
  unfold makeHeapC
  split
  · have h1 := makeLoopCost f b (b.length / 2) (by omega)
    have h2 := sum_log b.length (b.length / 2 + 1)
    omega
  · simp

theorem sortLoopCost (f : α → α → Bool) (b : List α) (n : Nat) (hn : n ≤ b.length) :
    (sortLoopC f b n).2.length ≤ n * (2 * Nat.log 2 (n - 1)) := by
  induction n generalizing b with
  | zero => simp [sortLoopC]
  | succ n ih =>
    simp only [sortLoopC]
    split
    · have hl : (popBufC f (b.take (n + 1))).1.length = n + 1 := by
        rw [popBufC_fst]
        unfold popBuf
        split
        · simp [adjustDown_length]; omega
        · simp; omega
      have h1 := C125_pop f (b.take (n + 1))
      have h2 := ih ((popBufC f (b.take (n + 1))).1 ++ b.drop (n + 1)) (by simp [hl]; omega)
      rw [List.length_take, Nat.min_eq_left hn] at h1
      have h3 : n * (2 * Nat.log 2 (n - 1)) ≤ n * (2 * Nat.log 2 (n + 1 - 1)) :=
        Nat.mul_le_mul_left _ (Nat.mul_le_mul_left _ (Nat.log_mono_right (by omega)))
      rw [Nat.succ_mul]
      simp only [List.length_append]
      omega
    · simp

/-- **C125** `SortHeap` of `n` elements makes at most `2n + 2n⌊log₂(n-1)⌋` comparisons. -/
theorem C125_sort (f : α → α → Bool) (b : List α) :
    (sortHeapC f b).2.length ≤ 2 * b.length + b.length * (2 * Nat.log 2 (b.length - 1)) := by
  have h1 := C125_make f b
  have hl : (makeHeapC f b).1.length = b.length := by
    rw [makeHeapC_fst]
    exact (makeHeap_perm f b).length_eq
  have h2 := sortLoopCost f (makeHeapC f b).1 (makeHeapC f b).1.length (Nat.le_refl _)
  rw [hl] at h2
  simp only [sortHeapC, hl, List.length_append]
  omega

/-! ## The comparisons recorded are those that matter -/

/-- `g` answers all the questions in `qs` as `f` does. -/
def Agree (f g : α → α → Bool) (qs : List (α × α)) : Prop := ∀ q ∈ qs, g q.1 q.2 = f q.1 q.2

theorem bestChild_agree {f g : α → α → Bool} {b : List α} {hole : Nat} {hl : lchild hole < b.length}
    (h : Agree f g (bestAsks b hole hl)) : bestChild g b hole hl = bestChild f b hole hl := by
  unfold bestChild
  unfold bestAsks at h
  split
  · rename_i hr
    rw [dif_pos hr] at h
    have := h (b[lchild hole + 1], b[lchild hole]) (by simp)
    simp only at this
    rw [this]
  · rfl

theorem down_agree (f g : α → α → Bool) (b : List α) (hole : Nat) (hh : hole < b.length) (v : α)
    (h : Agree f g (adjustDownC f b hole hh v).2) : adjustDownC g b hole hh v = adjustDownC f b hole hh v := by
  fun_induction adjustDownC f b hole hh v with
  | case1 b hole hh hl hf =>
    have hb : bestChild g b hole hl = bestChild f b hole hl := bestChild_agree (fun q hq => h q (by simp [hq]))
    have hv := h (b[bestChild f b hole hl]'(bestChild_lt f b hole hl), v) (by simp)
    rw [adjustDownC]
    simp only [hl, ↓reduceDIte, hb, hv, hf, ↓reduceIte]
  | case2 b hole hh hl hf p ih =>
    have hb : bestChild g b hole hl = bestChild f b hole hl := bestChild_agree (fun q hq => h q (by simp [hq]))
    have hv := h (b[bestChild f b hole hl]'(bestChild_lt f b hole hl), v) (by simp)
    have := ih (fun q hq => h q (by simp [p, hq]))
    rw [adjustDownC]
    simp only [hl, ↓reduceDIte, hb, hv, hf, this]
    simp [p]
  | case3 b hole hh hl => rw [adjustDownC]; simp [hl]

theorem up_agree (f g : α → α → Bool) (b : List α) (hole : Nat) (hh : hole < b.length) (v : α)
    (h : Agree f g (adjustUpC f b hole hh v).2) : adjustUpC g b hole hh v = adjustUpC f b hole hh v := by
  fun_induction adjustUpC f b hole hh v with
  | case1 b hole hh hp hf p ih =>
    have hv := h (v, b[parent hole]'(Nat.lt_trans (parent_lt hp) hh)) (by simp)
    have := ih (fun q hq => h q (by simp [p, hq]))
    rw [adjustUpC]
    simp only [hp, ↓reduceDIte, hv, hf, this]
    simp [p]
  | case2 b hole hh hp hf =>
    have hv := h (v, b[parent hole]'(Nat.lt_trans (parent_lt hp) hh)) (by simp)
    rw [adjustUpC]
    simp only [hp, ↓reduceDIte, hv, hf]
    rfl
  | case3 b hole hh hp => rw [adjustUpC]; simp [hp]

theorem pop_agree (f g : α → α → Bool) (b : List α) (h : Agree f g (popBufC f b).2) : popBufC g b = popBufC f b := by
  unfold popBufC at h ⊢
  split
  · rename_i hl
    rw [dif_pos hl] at h
    simp only [down_agree f g _ _ _ _ h]
  · rfl

theorem makeLoop_agree (f g : α → α → Bool) (b : List α) (i : Nat) (hi : i < b.length)
    (h : Agree f g (makeLoopC f b i hi).2) : makeLoopC g b i hi = makeLoopC f b i hi := by
  induction i generalizing b with
  | zero => exact down_agree f g _ _ _ _ h
  | succ i ih =>
    simp only [makeLoopC] at h ⊢
    have hd := down_agree f g b (i + 1) hi b[i + 1] (fun q hq => h q (by simp [hq]))
    simp only [hd]
    rw [ih _ _ (fun q hq => h q (by simp [hq]))]

theorem make_agree (f g : α → α → Bool) (b : List α) (h : Agree f g (makeHeapC f b).2) :
    makeHeapC g b = makeHeapC f b := by
  unfold makeHeapC at h ⊢
  split
  · rename_i hl
    rw [dif_pos hl] at h
    exact makeLoop_agree f g _ _ _ h
  · rfl

theorem sortLoop_agree (f g : α → α → Bool) (b : List α) (n : Nat)
    (h : Agree f g (sortLoopC f b n).2) : sortLoopC g b n = sortLoopC f b n := by
  induction n generalizing b with
  | zero => rfl
  | succ n ih =>
    simp only [sortLoopC] at h ⊢
    split
    · rename_i hn
      rw [if_pos hn] at h
      have hd := pop_agree f g (b.take (n + 1)) (fun q hq => h q (by simp [hq]))
      simp only [hd]
      rw [ih _ (fun q hq => h q (by simp [hq]))]
    · rfl

theorem sort_agree (f g : α → α → Bool) (b : List α) (h : Agree f g (sortHeapC f b).2) :
    sortHeapC g b = sortHeapC f b := by
  unfold sortHeapC at h ⊢
  have h1 := make_agree f g b (fun q hq => h q (by simp [hq]))
  simp only [h1]
  rw [sortLoop_agree f g _ _ (fun q hq => h q (by simp [hq]))]

/-- **C125** The work of the heap functions, with no reference to how they record it: there are few
questions whose answers determine the whole result.  `PushHeap` onto `n` elements needs `⌊log₂(n+1)⌋`
of them, `PopHeap` `2⌊log₂(n-1)⌋`, `MakeHeap` `2n` and `SortHeap` `2n + 2n⌊log₂(n-1)⌋`. -/
theorem C125_questions (f : α → α → Bool) (b : List α) (v : α) :
    (∃ qs : List (α × α), qs.length ≤ Nat.log 2 (b.length + 1) ∧
      ∀ g : α → α → Bool, (∀ q ∈ qs, g q.1 q.2 = f q.1 q.2) → pushHeap g b v = pushHeap f b v) ∧
    (∃ qs : List (α × α), qs.length ≤ 2 * Nat.log 2 (b.length - 1) ∧
      ∀ g : α → α → Bool, (∀ q ∈ qs, g q.1 q.2 = f q.1 q.2) → popBuf g b = popBuf f b) ∧
    (∃ qs : List (α × α), qs.length ≤ 2 * b.length ∧
      ∀ g : α → α → Bool, (∀ q ∈ qs, g q.1 q.2 = f q.1 q.2) → makeHeap g b = makeHeap f b) ∧
    (∃ qs : List (α × α), qs.length ≤ 2 * b.length + b.length * (2 * Nat.log 2 (b.length - 1)) ∧
      ∀ g : α → α → Bool, (∀ q ∈ qs, g q.1 q.2 = f q.1 q.2) → sortHeap g b = sortHeap f b) := by
  refine ⟨⟨_, C125_push f b v, fun g h => ?_⟩, ⟨_, C125_pop f b, fun g h => ?_⟩, ⟨_, C125_make f b, fun g h => ?_⟩,
    ⟨_, C125_sort f b, fun g h => ?_⟩⟩
  · rw [← (C125_same g b v).1, ← (C125_same f b v).1]; exact congrArg Prod.fst (up_agree f g _ _ _ _ h)
  · rw [← (C125_same g b v).2.1, ← (C125_same f b v).2.1, pop_agree f g _ h]
  · rw [← (C125_same g b v).2.2.1, ← (C125_same f b v).2.2.1, make_agree f g _ h]
  · rw [← (C125_same g b v).2.2.2, ← (C125_same f b v).2.2.2, sort_agree f g _ h]

/-- Seven elements in the worst order: 8 comparisons to make a heap, the limit being 14; the bound of `PushHeap` is attained. -/
example : (makeHeapC (fun a b : Nat => decide (b ≤ a)) [7, 6, 5, 4, 3, 2, 1]).2.length = 8 ∧
    (pushHeapC (fun a b : Nat => decide (b ≤ a)) [2, 3, 4, 5, 6, 7, 8] 1).2.length = 3 ∧ Nat.log 2 (7 + 1) = 3 := by
  decide +kernel

end Verif.Heap
