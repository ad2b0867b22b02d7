import Verif.Props.DurationFloat
import Mathlib.Data.Int.Interval
import Mathlib.Combinatorics.Pigeonhole

/-!
# Up to which size different durations have different numbers of units (C108)
-/

set_option linter.unusedSectionVars false

namespace Verif.DurationFloat

/-- The five methods with the nanoseconds of their unit and the number of units up to which durations are told apart: 97
days of seconds, 91 days of minutes, 85 days of hours, 64 days and 8 weeks. -/
def Spec.limits : List ((BitVec 64 → ℚ) × Int × Nat) :=
  [(seconds, 10 ^ 9, 23), (minutes, 60 * 10 ^ 9, 17), (hours, 3600 * 10 ^ 9, 11), (days, 86400 * 10 ^ 9, 6),
    (weeks, 604800 * 10 ^ 9, 3)]

theorem expo_err (q : ℚ) : |rnd q - q| ≤ 2 ^ expo q / 2 := by
  have P := two_zpow_pos (expo q)
  have h := rne_err (q / 2 ^ expo q)
  have e : rnd q - q = (rne (q / 2 ^ expo q) - q / 2 ^ expo q) * 2 ^ expo q := by
    rw [rnd, sub_mul, div_mul_cancel₀ _ P.ne']
  rw [e, abs_mul, abs_of_pos P]
  have := mul_le_mul_of_nonneg_right h P.le
  linarith

theorem rnd_pow (m : Nat) : rnd (2 ^ m) = 2 ^ m := by
  have := rnd_exact 1 m (by decide)
  simpa using this

/-- The error of rounding a number up to a power of two. -/
theorem rnd_err_pow (m : Nat) {q : ℚ} (h : |q| ≤ 2 ^ m) : |rnd q - q| ≤ 2 ^ m / 2 ^ 54 := by
  by_cases h0 : q = 0
  · subst h0; rw [rnd_zero, sub_zero, abs_zero]; positivity
  rcases eq_or_lt_of_le h with e | hl
  · have hz : rnd q - q = 0 := by
      rcases abs_choice q with c | c
      · rw [c] at e; rw [e, rnd_pow, sub_self]
      · rw [c] at e
        have : q = -2 ^ m := by linarith
        rw [this, rnd_neg, rnd_pow, sub_self]
    rw [hz, abs_zero]; positivity
  · have hb := (expo_bounds h0).1
    have hlt : (2 : ℚ) ^ (52 + expo q) < 2 ^ (m : ℤ) := by
      rw [zpow_add₀ (by norm_num), zpow_natCast]
      norm_num at hb ⊢
      linarith
    have hlt : 52 + expo q < m := (zpow_lt_zpow_iff_right₀ (by norm_num)).1 hlt
    have hle : (2 : ℚ) ^ expo q ≤ 2 ^ ((m : ℤ) - 53) := zpow_le_zpow_right₀ (by norm_num) (by omega)
    rw [zpow_sub₀ (by norm_num), zpow_natCast] at hle
    norm_num at hle ⊢
    have := expo_err q
    linarith

/-- Two roundings that are off by less than half the distance keep the order. -/
theorem keeps_order {U : Int} (hU : 0 < U) {a b : Int} (h : a < b) {x y c : ℚ} (hc : 2 * c * U < 1)
    (hx : |x - a / U| ≤ c) (hy : |y - b / U| ≤ c) : x < y := by
  have hU' : (0 : ℚ) < U := by exact_mod_cast hU
  have h' : (a : ℚ) + 1 ≤ b := by exact_mod_cast h
  rw [abs_le] at hx hy
  have : (a : ℚ) / U + 1 / U ≤ b / U := by
    rw [← add_div]; exact div_le_div_of_nonneg_right h' hU'.le
  have : 2 * c < 1 / U := by rw [lt_div_iff₀ hU']; exact hc
  linarith [hx.2, hy.1]

theorem direct_strict {U : Int} (m : Nat) (hU : 0 < U) (hU2 : U < 2 ^ (53 - m)) (hm : m ≤ 53) (hmU : 2 ^ m * U < 2 ^ 53) {d e : BitVec 64}
    (hd : |d.toInt| ≤ 2 ^ m * U) (he : |e.toInt| ≤ 2 ^ m * U) (h : d.toInt < e.toInt) : direct U d < direct U e := by
  have hU' : (0 : ℚ) < U := by exact_mod_cast hU
  have key : ∀ x : BitVec 64, |x.toInt| ≤ 2 ^ m * U → |direct U x - x.toInt / U| ≤ 2 ^ m / 2 ^ 54 := by
    intro x hx
    rw [direct, toF_exact (by omega)]
    refine rnd_err_pow m ?_
    rw [abs_div, abs_of_pos hU', div_le_iff₀ hU']
    exact_mod_cast hx
  refine keeps_order hU h ?_ (key d hd) (key e he)
  have h1 : (U : ℚ) < 2 ^ (53 - m) := by exact_mod_cast hU2
  have h2 : (2 : ℚ) ^ m * 2 ^ (53 - m) = 2 ^ 53 := by rw [← pow_add]; congr 1; omega
  have h3 : (2 : ℚ) ^ m * U < 2 ^ 53 := by
    rw [← h2]; exact mul_lt_mul_of_pos_left h1 (by positivity)
  have : 2 * (2 ^ m / 2 ^ 54) * (U : ℚ) = 2 ^ m * U / 2 ^ 53 := by ring
  rw [this, div_lt_one (by norm_num)]
  exact h3

theorem std_strict {U : Int} (m : Nat) (h1 : 10 ^ 9 ≤ U) (h2 : U < 2 ^ 53) (hU2 : (2 ^ m + 2) * U < 2 ^ 53) {d e : BitVec 64}
    (hd : |d.toInt| ≤ 2 ^ m * U) (he : |e.toInt| ≤ 2 ^ m * U) (h : d.toInt < e.toInt) : std U d < std U e := by
  have hU : 0 < U := by omega
  have hU' : (0 : ℚ) < U := by exact_mod_cast hU
  have key : ∀ x : BitVec 64, |x.toInt| ≤ 2 ^ m * U → |std U x - x.toInt / U| ≤ (2 ^ m + 2) / 2 ^ 54 := by
    intro x hx
    rw [std_eq U h1 h2]
    have e1 := sum_err hU x.toInt
    have hm : |(x.toInt.tmod U : ℚ) / U| ≤ 1 := by
      rw [abs_div, abs_of_pos hU', div_le_one hU']
      exact_mod_cast (abs_tmod_lt x.toInt hU).le
    have hs : |(x.toInt.tdiv U : ℚ) + rnd ((x.toInt.tmod U : ℚ) / U)| ≤ 2 ^ m := by
      rw [abs_le] at hx ⊢
      have a := sum_mono hU hx.2
      have b := sum_mono hU hx.1
      rw [Int.mul_tdiv_cancel _ hU.ne', Int.mul_tmod_left] at a
      rw [← Int.neg_mul, Int.mul_tdiv_cancel _ hU.ne', Int.mul_tmod_left] at b
      simp only [Int.cast_zero, zero_div, rnd_zero, add_zero] at a b
      push_cast at a b
      exact ⟨b, a⟩
    generalize (x.toInt.tdiv U : ℚ) + rnd ((x.toInt.tmod U : ℚ) / U) = s at *
    have e2 := rnd_err_pow m hs
    have e3 : |rnd s - x.toInt / U| ≤ |rnd s - s| + |s - x.toInt / U| := abs_sub_le _ _ _
    have e4 : |(x.toInt.tmod U : ℚ) / U| / 2 ^ 53 ≤ 1 / 2 ^ 53 := div_le_div_of_nonneg_right hm (by norm_num)
    have e5 : ((2 : ℚ) ^ m + 2) / 2 ^ 54 = 2 ^ m / 2 ^ 54 + 1 / 2 ^ 53 := by ring
    linarith
  refine keeps_order hU h ?_ (key d hd) (key e he)
  have h3 : ((2 : ℚ) ^ m + 2) * U < 2 ^ 53 := by exact_mod_cast hU2
  have : 2 * ((2 ^ m + 2) / 2 ^ 54) * (U : ℚ) = (2 ^ m + 2) * U / 2 ^ 53 := by ring
  rw [this, div_lt_one (by norm_num)]
  exact h3

/-- **C108** (distinct durations), as far as it holds: up to the limit of each unit a longer duration has a larger number
of units, so no two durations have the same. -/
theorem C108_strict_partial (f : BitVec 64 → ℚ) (U : Int) (m : Nat) (hf : (f, U, m) ∈ Spec.limits) (d e : BitVec 64)
    (hd : |d.toInt| ≤ 2 ^ m * U) (he : |e.toInt| ≤ 2 ^ m * U) (h : d.toInt < e.toInt) : f d < f e := by
  simp only [Spec.limits, List.mem_cons, Prod.mk.injEq, List.not_mem_nil, or_false] at hf
  rcases hf with ⟨rfl, rfl, rfl⟩ | ⟨rfl, rfl, rfl⟩ | ⟨rfl, rfl, rfl⟩ | ⟨rfl, rfl, rfl⟩ | ⟨rfl, rfl, rfl⟩
  · exact std_strict 23 (by decide) (by decide) (by decide) hd he h
  · exact std_strict 17 (by decide) (by decide) (by decide) hd he h
  · exact std_strict 11 (by decide) (by decide) (by decide) hd he h
  · rw [days_eq, days_eq]; exact direct_strict 6 (by decide) (by decide) (by decide) (by decide) hd he h
  · rw [weeks_eq, weeks_eq]; exact direct_strict 3 (by decide) (by decide) (by decide) (by decide) hd he h

/-- Numbers from `2^m` on are rounded to multiples of `2^(m-52)`. -/
theorem rnd_grid (m : Nat) (hm : m ≤ 52) {q : ℚ} (h : 2 ^ m ≤ q) : ∃ n : Int, rnd q * 2 ^ (52 - m) = n := by
  have hq : 0 < q := lt_of_lt_of_le (by positivity) h
  have hb := (expo_bounds hq.ne').2
  rw [abs_of_pos hq] at hb
  have hlt : (2 : ℚ) ^ (m : ℤ) < 2 ^ (53 + expo q) := by
    rw [zpow_add₀ (by norm_num), zpow_natCast]
    norm_num at hb ⊢
    linarith
  have hlt : (m : ℤ) < 53 + expo q := (zpow_lt_zpow_iff_right₀ (by norm_num)).1 hlt
  refine ⟨rne (q / 2 ^ expo q) * 2 ^ (expo q + (52 - m : Nat)).toNat, ?_⟩
  rw [rnd]
  push_cast
  rw [mul_assoc, ← zpow_natCast (2 : ℚ) (expo q + (52 - m : Nat)).toNat, Int.toNat_of_nonneg (by omega),
    zpow_add₀ (by norm_num), zpow_natCast]

theorem toInt_ofInt {x : Int} (h1 : -2 ^ 63 ≤ x) (h2 : x < 2 ^ 63) : (BitVec.ofInt 64 x).toInt = x := by
  rw [BitVec.toInt_ofInt]
  simp only [Int.bmod_def]
  omega

/-- On the numbers of a method beyond the limit: they are multiples of one power of two. -/
theorem grid (f : BitVec 64 → ℚ) (U : Int) (m : Nat) (hf : (f, U, m) ∈ Spec.limits) (d : BitVec 64)
    (hd : 2 ^ m * U ≤ d.toInt) : ∃ n : Int, f d * 2 ^ (52 - m) = n := by
  have hstd : ∀ (U : Int) (m : Nat), 10 ^ 9 ≤ U → U < 2 ^ 53 → m ≤ 52 → 2 ^ m * U ≤ d.toInt →
      ∃ n : Int, std U d * 2 ^ (52 - m) = n := by
    intro U m h1 h2 hm hd
    rw [std_eq U h1 h2]
    refine rnd_grid m hm ?_
    have b := sum_mono (show 0 < U by omega) hd
    rw [Int.mul_tdiv_cancel _ (by omega), Int.mul_tmod_left] at b
    simp only [Int.cast_zero, zero_div, rnd_zero, add_zero] at b
    push_cast at b
    exact b
  have hdir : ∀ (U : Int) (m : Nat), 0 < U → 2 ^ m * U < 2 ^ 53 → m ≤ 52 → 2 ^ m * U ≤ d.toInt →
      ∃ n : Int, direct U d * 2 ^ (52 - m) = n := by
    intro U m h1 h2 hm hd
    rw [direct]
    refine rnd_grid m hm ?_
    have hU' : (0 : ℚ) < U := by exact_mod_cast h1
    rw [le_div_iff₀ hU']
    have := toF_mono hd
    rw [toF_exact (by rw [abs_of_nonneg (by positivity)]; exact h2)] at this
    push_cast at this
    exact this
  simp only [Spec.limits, List.mem_cons, Prod.mk.injEq, List.not_mem_nil, or_false] at hf
  rcases hf with ⟨rfl, rfl, rfl⟩ | ⟨rfl, rfl, rfl⟩ | ⟨rfl, rfl, rfl⟩ | ⟨rfl, rfl, rfl⟩ | ⟨rfl, rfl, rfl⟩
  · exact hstd _ _ (by decide) (by decide) (by decide) hd
  · exact hstd _ _ (by decide) (by decide) (by decide) hd
  · exact hstd _ _ (by decide) (by decide) (by decide) hd
  · rw [days_eq]; exact hdir _ _ (by decide) (by decide) (by decide) hd
  · rw [weeks_eq]; exact hdir _ _ (by decide) (by decide) (by decide) hd

theorem limits_methods {f : BitVec 64 → ℚ} {U : Int} {m : Nat} (hf : (f, U, m) ∈ Spec.limits) :
    (f, U) ∈ Spec.methods ∧ 0 < U ∧ (2 : Int) ^ (52 - m) + 1 < U := by
  simp only [Spec.limits, List.mem_cons, Prod.mk.injEq, List.not_mem_nil, or_false] at hf
  rcases hf with ⟨rfl, rfl, rfl⟩ | ⟨rfl, rfl, rfl⟩ | ⟨rfl, rfl, rfl⟩ | ⟨rfl, rfl, rfl⟩ | ⟨rfl, rfl, rfl⟩ <;>
    refine ⟨by simp [Spec.methods], by decide, by decide⟩

/-- **C108** (distinct durations) is false beyond the limits, which are therefore the best possible: in every whole unit
from the limit on, between `k` and `k + 1` units, there are two durations with the same number of units. -/
theorem C108_collide_false (f : BitVec 64 → ℚ) (U : Int) (m : Nat) (hf : (f, U, m) ∈ Spec.limits) (k : Int)
    (hk : 2 ^ m ≤ k) (hmax : (k + 1) * U < 2 ^ 63) :
    ∃ d e : BitVec 64, k * U ≤ d.toInt ∧ d.toInt < e.toInt ∧ e.toInt < (k + 1) * U ∧ f d = f e := by
  obtain ⟨hme, hU, hcard⟩ := limits_methods hf
  have h2 : 0 < (2 : Int) ^ m := by positivity
  have hk0 : 0 ≤ k * U := by apply Int.mul_nonneg <;> omega
  have hk1 : k * U < (k + 1) * U := by apply mul_lt_mul_of_pos_right <;> omega
  have hkU : 2 ^ m * U ≤ k * U := by apply mul_le_mul_of_nonneg_right <;> omega
  have hin : ∀ x, k * U ≤ x → x ≤ (k + 1) * U → (BitVec.ofInt 64 x).toInt = x := fun x a b => toInt_ofInt (by omega) (by omega)
  have hg : ∀ x, ∃ n : Int, k * U ≤ x → x < (k + 1) * U → f (BitVec.ofInt 64 x) * 2 ^ (52 - m) = n := by
    intro x
    by_cases hx : k * U ≤ x ∧ x < (k + 1) * U
    · obtain ⟨n, hn⟩ := grid f U m hf (BitVec.ofInt 64 x) (by rw [hin x hx.1 (by omega)]; omega)
      exact ⟨n, fun _ _ => hn⟩
    · exact ⟨0, fun a b => absurd ⟨a, b⟩ hx⟩
  obtain ⟨g, hg⟩ := Classical.axiomOfChoice hg
  have lo : f (BitVec.ofInt 64 (k * U)) = k := C108_whole f U hme _ k (hin _ (le_refl _) (by omega))
  have hi : f (BitVec.ofInt 64 ((k + 1) * U)) = ((k + 1 : Int) : ℚ) :=
    C108_whole f U hme _ (k + 1) (hin _ (by omega) (le_refl _))
  have P : (0 : ℚ) < 2 ^ (52 - m) := by positivity
  have maps : ∀ x ∈ Finset.Ico (k * U) ((k + 1) * U), g x ∈ Finset.Icc (k * 2 ^ (52 - m)) ((k + 1) * 2 ^ (52 - m)) := by
    intro x hx
    rw [Finset.mem_Ico] at hx
    rw [Finset.mem_Icc]
    have e := hg x hx.1 hx.2
    have a := C108_monotone f U hme (BitVec.ofInt 64 (k * U)) (BitVec.ofInt 64 x)
      (by rw [hin _ (le_refl _) (by omega), hin x hx.1 (by omega)]; exact hx.1)
    have b := C108_monotone f U hme (BitVec.ofInt 64 x) (BitVec.ofInt 64 ((k + 1) * U))
      (by rw [hin _ (by omega) (le_refl _), hin x hx.1 (by omega)]; omega)
    rw [lo] at a
    rw [hi] at b
    have a' := mul_le_mul_of_nonneg_right a P.le
    have b' := mul_le_mul_of_nonneg_right b P.le
    rw [e] at a' b'
    exact ⟨by exact_mod_cast a', by exact_mod_cast b'⟩
  have hlt : (Finset.Icc (k * 2 ^ (52 - m)) ((k + 1) * 2 ^ (52 - m))).card < (Finset.Ico (k * U) ((k + 1) * U)).card := by
    rw [Int.card_Icc, Int.card_Ico]
    have e1 : (k + 1) * 2 ^ (52 - m) + 1 - k * 2 ^ (52 - m) = (2 : Int) ^ (52 - m) + 1 := by ring
    have e2 : (k + 1) * U - k * U = U := by ring
    rw [e1, e2]
    omega
  obtain ⟨x, hx, y, hy, hne, he⟩ := Finset.exists_ne_map_eq_of_card_lt_of_maps_to hlt maps
  have fin : ∀ x y, x ∈ Finset.Ico (k * U) ((k + 1) * U) → y ∈ Finset.Ico (k * U) ((k + 1) * U) → x < y → g x = g y →
      ∃ d e : BitVec 64, k * U ≤ d.toInt ∧ d.toInt < e.toInt ∧ e.toInt < (k + 1) * U ∧ f d = f e := by
    intro x y hx hy hl he
    rw [Finset.mem_Ico] at hx hy
    refine ⟨BitVec.ofInt 64 x, BitVec.ofInt 64 y, ?_⟩
    rw [hin x hx.1 (by omega), hin y hy.1 (by omega)]
    refine ⟨hx.1, hl, hy.2, ?_⟩
    have a := hg x hx.1 hx.2
    have b := hg y hy.1 hy.2
    rw [he, ← b] at a
    exact mul_right_cancel₀ P.ne' a
  rcases lt_or_gt_of_ne hne with h | h
  · exact fin x y hx hy h he
  · exact fin y x hy hx h he.symm

/-- The hypotheses: two durations within 64 days, and the days from the 64th on. -/
example : (days, 86400 * 10 ^ 9, 6) ∈ Spec.limits ∧ |(5529599999999999#64).toInt| ≤ 2 ^ 6 * (86400 * 10 ^ 9) ∧
    (2 : Int) ^ 6 ≤ 64 ∧ ((64 : Int) + 1) * (86400 * 10 ^ 9) < 2 ^ 63 := by
  refine ⟨by simp [Spec.limits], by decide, by decide, by decide⟩

/-- One nanosecond less than 64 days is told apart from 64 days. -/
example : days 5529599999999999#64 < days 5529600000000000#64 :=
  C108_strict_partial days (86400 * 10 ^ 9) 6 (by simp [Spec.limits]) _ _ (by decide) (by decide) (by decide)

end Verif.DurationFloat
