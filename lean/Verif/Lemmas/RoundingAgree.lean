import Verif.Lemmas.Rounding
import Verif.Props.FileSize
/-!
# The two models of rounding agree

`FileSize.toFloat` rounds natural numbers by shifting, `DurationFloat.rnd` rounds rationals.
-/

set_option linter.unusedSectionVars false

namespace Verif.DurationFloat

theorem rne_shift (n k : Nat) : rne ((n : ℚ) / 2 ^ k) = FileSize.roundShift n k := by
  have hp : (0 : ℚ) < 2 ^ k := by positivity
  have h1 := Nat.div_add_mod n (2 ^ k)
  have h2 := Nat.mod_lt n (show 0 < 2 ^ k from Nat.pos_of_ne_zero (by simp))
  have e : (n : ℚ) / 2 ^ k = (n / 2 ^ k : Nat) + ((n % 2 ^ k : Nat) : ℚ) / 2 ^ k := by
    have : ((2 ^ k * (n / 2 ^ k) + n % 2 ^ k : Nat) : ℚ) = n := by rw [h1]
    rw [← this, Nat.cast_add, Nat.cast_mul, Nat.cast_pow, Nat.cast_ofNat, add_div, mul_div_cancel_left₀ _ hp.ne']
  have hr0 : (0 : ℚ) ≤ ((n % 2 ^ k : Nat) : ℚ) / 2 ^ k := by positivity
  have hr1 : ((n % 2 ^ k : Nat) : ℚ) / 2 ^ k < 1 := by
    rw [div_lt_one hp]; exact_mod_cast h2
  have hf : ⌊(n : ℚ) / 2 ^ k⌋ = ((n / 2 ^ k : Nat) : Int) := by
    rw [Int.floor_eq_iff, e, Int.cast_natCast]
    constructor <;> linarith
  have hd : (n : ℚ) / 2 ^ k - ⌊(n : ℚ) / 2 ^ k⌋ = ((n % 2 ^ k : Nat) : ℚ) / 2 ^ k := by
    rw [hf, e, Int.cast_natCast]; ring
  have c1 : ((n % 2 ^ k : Nat) : ℚ) / 2 ^ k < 1 / 2 ↔ 2 * (n % 2 ^ k) < 2 ^ k := by
    rw [div_lt_div_iff₀ hp (by norm_num)]
    constructor <;> intro h
    · have : ((n % 2 ^ k * 2 : Nat) : ℚ) < ((1 * 2 ^ k : Nat) : ℚ) := by push_cast; exact h
      have := Nat.cast_lt.1 this
      omega
    · have : ((n % 2 ^ k * 2 : Nat) : ℚ) < ((1 * 2 ^ k : Nat) : ℚ) := Nat.cast_lt.2 (by omega)
      push_cast at this; exact this
  have c2 : 1 / 2 < ((n % 2 ^ k : Nat) : ℚ) / 2 ^ k ↔ 2 ^ k < 2 * (n % 2 ^ k) := by
    rw [div_lt_div_iff₀ (by norm_num) hp]
    constructor <;> intro h
    · have : ((1 * 2 ^ k : Nat) : ℚ) < ((n % 2 ^ k * 2 : Nat) : ℚ) := by push_cast; exact h
      have := Nat.cast_lt.1 this
      omega
    · have : ((1 * 2 ^ k : Nat) : ℚ) < ((n % 2 ^ k * 2 : Nat) : ℚ) := Nat.cast_lt.2 (by omega)
      push_cast at this; exact this
  unfold rne FileSize.roundShift
  rw [hd]
  simp only [c1, c2, hf]
  split_ifs <;> first | rfl | (push_cast; omega)

/-- `float64(n)` is the same number in both models. -/
theorem toFloat_agrees (n : Nat) : toF n = FileSize.toFloat n := by
  by_cases h : n < 2 ^ 53
  · rw [FileSize.toFloat_exact h, toF_exact]
    · simp
    · rw [abs_of_nonneg (by omega)]; exact_mod_cast h
  · have hn : n ≠ 0 := by rintro rfl; exact h (by norm_num)
    have hl : 53 ≤ n.log2 := (Nat.le_log2 hn).2 (by omega)
    have he : expo (((n : Nat) : Int) : ℚ) = ((n.log2 - 52 : Nat) : Int) := by
      rw [expo, abs_of_nonneg (by positivity), Int.cast_natCast, Int.log_natCast, Nat.log2_eq_log_two] at *
      omega
    rw [toF, rnd, he, zpow_natCast, Int.cast_natCast, rne_shift, FileSize.toFloat]
    push_cast
    rfl

end Verif.DurationFloat
