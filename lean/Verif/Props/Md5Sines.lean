import Verif.Model.Digests
import Mathlib.Analysis.Complex.Exponential
import Mathlib.Analysis.Complex.Trigonometric
import Mathlib.Analysis.SpecialFunctions.Trigonometric.Basic
/-!
# C150: the constants of MD5 are sines
-/

namespace Verif.Hash.Md5Sines

open Complex

/-- The powers of the imaginary unit. -/
def unitPow : Nat → Int × Int
  | 0 => (1, 0)
  | n + 1 => (-(unitPow n).2, (unitPow n).1)

theorem unitPow_eq (n : Nat) : I ^ n = ((unitPow n).1 : ℂ) + ((unitPow n).2 : ℂ) * I := by
  induction n with
  | zero => simp [unitPow]
  | succ n ih =>
    rw [pow_succ, ih, unitPow]
    push_cast
    linear_combination ((unitPow n).2 : ℂ) * I_mul_I

/-- The beginning of the exponential series of the imaginary unit. -/
def series : Nat → Rat × Rat
  | 0 => (0, 0)
  | n + 1 => ((series n).1 + (unitPow n).1 / n.factorial, (series n).2 + (unitPow n).2 / n.factorial)

theorem series_eq (n : Nat) : ∑ m ∈ Finset.range n, I ^ m / (m.factorial : ℂ) = (((series n).1 : ℚ) : ℂ) + (((series n).2 : ℚ) : ℂ) * I := by
  induction n with
  | zero => simp [series]
  | succ n ih =>
    rw [Finset.sum_range_succ, ih, unitPow_eq, series]
    push_cast
    ring

/-- The cosine and the sine of 1, times 2^96. -/
def cos1 : Int := 42807158896152731596418870679
@[inherit_doc cos1] def sin1 : Int := 66668199935398081914718513417

theorem near : |(series 28).1 - cos1 / 2 ^ 96| ≤ 1 / 2 ^ 92 ∧ |(series 28).2 - sin1 / 2 ^ 96| ≤ 1 / 2 ^ 92 := by decide +kernel

/-- The number that is close to the exponential of the imaginary unit. -/
noncomputable def w : ℂ := ((cos1 : ℂ) + (sin1 : ℂ) * I) / 2 ^ 96

theorem norm_ratCast' (q : ℚ) : ‖(q : ℂ)‖ = ‖(q : ℝ)‖ := by
  rw [← ofReal_ratCast, norm_real]

theorem cast_near {q : ℚ} (h : |q| ≤ 1 / 2 ^ 92) : ‖(q : ℝ)‖ ≤ 1 / 2 ^ 92 := by
  rw [Real.norm_eq_abs, ← Rat.cast_abs]
  have : ((|q| : ℚ) : ℝ) ≤ ((1 / 2 ^ 92 : ℚ) : ℝ) := Rat.cast_le.2 h
  refine this.trans (le_of_eq ?_)
  norm_num

theorem exp_near : ‖exp I - w‖ ≤ 1 / 2 ^ 90 := by
  have h1 := exp_bound (x := I) (by simp) (n := 28) (by decide)
  rw [series_eq, norm_I, one_pow, one_mul] at h1
  have e : exp I - w = (exp I - ((((series 28).1 : ℚ) : ℂ) + (((series 28).2 : ℚ) : ℂ) * I)) +
      ((((series 28).1 - cos1 / 2 ^ 96 : ℚ) : ℂ) + (((series 28).2 - sin1 / 2 ^ 96 : ℚ) : ℂ) * I) := by
    rw [w]
    push_cast
    ring
  have h2 : ‖(((series 28).1 - cos1 / 2 ^ 96 : ℚ) : ℂ)‖ ≤ 1 / 2 ^ 92 := by
    rw [norm_ratCast']
    exact cast_near near.1
  have h3 : ‖(((series 28).2 - sin1 / 2 ^ 96 : ℚ) : ℂ) * I‖ ≤ 1 / 2 ^ 92 := by
    rw [norm_mul, norm_I, mul_one, norm_ratCast']
    exact cast_near near.2
  have h4 : ((Nat.succ 28 : ℕ) : ℝ) * (((28 : ℕ).factorial : ℝ) * ((28 : ℕ) : ℝ))⁻¹ ≤ 1 / 2 ^ 92 := by
    norm_num [Nat.factorial]
  rw [e]
  refine (norm_add_le _ _).trans ?_
  have h5 := norm_add_le ((((series 28).1 - cos1 / 2 ^ 96 : ℚ) : ℂ)) ((((series 28).2 - sin1 / 2 ^ 96 : ℚ) : ℂ) * I)
  have h6 : (1 : ℝ) / 2 ^ 92 + (1 / 2 ^ 92 + 1 / 2 ^ 92) ≤ 1 / 2 ^ 90 := by norm_num
  linarith

theorem w_norm : ‖w‖ ≤ 1 := by
  have h : cos1 * cos1 + sin1 * sin1 ≤ 2 ^ 192 := by decide +kernel
  have e : w = ((cos1 / 2 ^ 96 : ℝ) : ℂ) + ((sin1 / 2 ^ 96 : ℝ) : ℂ) * I := by
    rw [w]
    push_cast
    ring
  have h' : (cos1 : ℝ) * cos1 + sin1 * sin1 ≤ 2 ^ 192 := by exact_mod_cast h
  rw [e, norm_add_mul_I]
  apply Real.sqrt_le_one.2
  have e2 : ((cos1 : ℝ) / 2 ^ 96) ^ 2 + ((sin1 : ℝ) / 2 ^ 96) ^ 2 = ((cos1 : ℝ) * cos1 + sin1 * sin1) / 2 ^ 192 := by ring
  rw [e2]
  exact div_le_one_of_le₀ h' (by positivity)

theorem pow_near (k : Nat) : ‖exp I ^ k - w ^ k‖ ≤ k / 2 ^ 90 := by
  have hz : ‖exp I‖ = 1 := by
    have := norm_exp_ofReal_mul_I 1
    simpa using this
  induction k with
  | zero => simp
  | succ k ih =>
    have e : exp I ^ (k + 1) - w ^ (k + 1) = (exp I ^ k - w ^ k) * exp I + w ^ k * (exp I - w) := by ring
    rw [e]
    refine (norm_add_le _ _).trans ?_
    rw [norm_mul, norm_mul, hz, mul_one, norm_pow]
    have h1 : ‖w‖ ^ k ≤ 1 := pow_le_one₀ (norm_nonneg _) w_norm
    have h2 : ‖w‖ ^ k * ‖exp I - w‖ ≤ 1 * (1 / 2 ^ 90) := mul_le_mul h1 exp_near (norm_nonneg _) zero_le_one
    push_cast
    have h3 : ((k : ℝ) + 1) / 2 ^ 90 = k / 2 ^ 90 + 1 * (1 / 2 ^ 90) := by ring
    rw [h3]
    exact add_le_add ih h2

/-- The powers of it, times powers of 2^96. -/
def powers : Nat → Int × Int
  | 0 => (1, 0)
  | k + 1 => ((powers k).1 * cos1 - (powers k).2 * sin1, (powers k).1 * sin1 + (powers k).2 * cos1)

theorem powers_eq (k : Nat) : w ^ k = (((powers k).1 : ℂ) + ((powers k).2 : ℂ) * I) / 2 ^ (96 * k) := by
  induction k with
  | zero => simp [powers]
  | succ k ih =>
    rw [pow_succ, ih, w, powers, Nat.mul_succ, pow_add]
    push_cast
    rw [div_mul_div_comm]
    congr 1
    linear_combination ((powers k).2 : ℂ) * (sin1 : ℂ) * I_mul_I

theorem sin_near (k : Nat) : |Real.sin k - (powers k).2 / 2 ^ (96 * k)| ≤ k / 2 ^ 90 := by
  have h1 : (exp I ^ k).im = Real.sin k := by
    rw [← exp_nat_mul]
    have := exp_ofReal_mul_I_im k
    rwa [show ((k : ℝ) : ℂ) = (k : ℂ) by simp] at this
  have h2 : (w ^ k).im = (powers k).2 / 2 ^ (96 * k) := by
    rw [powers_eq]
    have e : (((powers k).1 : ℂ) + ((powers k).2 : ℂ) * I) / 2 ^ (96 * k) =
        (((powers k).1 / 2 ^ (96 * k) : ℝ) : ℂ) + (((powers k).2 / 2 ^ (96 * k) : ℝ) : ℂ) * I := by
      push_cast
      ring
    rw [e]
    generalize ((powers k).1 / 2 ^ (96 * k) : ℝ) = u
    generalize ((powers k).2 / 2 ^ (96 * k) : ℝ) = v
    simp
  have h3 := (abs_im_le_norm (exp I ^ k - w ^ k)).trans (pow_near k)
  rwa [sub_im, h1, h2] at h3

theorem check : ∀ i < 64,
    (md5K.getD i 0).toNat * 2 ^ 90 * 2 ^ (96 * (i + 1)) + 2 ^ 32 * ((i + 1) * 2 ^ (96 * (i + 1))) ≤ 2 ^ 32 * (2 ^ 90 * (powers (i + 1)).2.natAbs) ∧
    2 ^ 32 * (2 ^ 90 * (powers (i + 1)).2.natAbs) + 2 ^ 32 * ((i + 1) * 2 ^ (96 * (i + 1))) < ((md5K.getD i 0).toNat + 1) * 2 ^ 90 * 2 ^ (96 * (i + 1)) := by
  decide +kernel

end Verif.Hash.Md5Sines

namespace Verif.Hash

open Md5Sines in
/-- C150: the constants of MD5 are the integer parts of 2^32 times the absolute values of the sines of 1 to 64 (RFC 1321, section 3.4). -/
theorem C150_md5_constants : ∀ i < 64, (md5K.getD i 0).toNat = ⌊2 ^ 32 * |Real.sin ((i + 1 : Nat) : ℝ)|⌋₊ := by
  intro i hi
  obtain ⟨h1, h2⟩ := check i hi
  have h3 := sin_near (i + 1)
  generalize hs : Real.sin ((i + 1 : Nat) : ℝ) = s at h3 ⊢
  generalize (powers (i + 1)).2 = B at h1 h2 h3
  generalize hx : (md5K.getD i 0).toNat = x at h1 h2 ⊢
  have hD : (0 : ℝ) < 2 ^ (96 * (i + 1)) := by positivity
  have hE : (0 : ℝ) < 2 ^ 90 := by positivity
  have h1' : (x : ℝ) * 2 ^ 90 * 2 ^ (96 * (i + 1)) + 2 ^ 32 * (((i + 1 : Nat) : ℝ) * 2 ^ (96 * (i + 1))) ≤ 2 ^ 32 * (2 ^ 90 * |(B : ℝ)|) := by
    have : (B.natAbs : ℝ) = |(B : ℝ)| := by rw [Nat.cast_natAbs]; push_cast; rfl
    rw [← this]
    exact_mod_cast h1
  have h2' : 2 ^ 32 * (2 ^ 90 * |(B : ℝ)|) + 2 ^ 32 * (((i + 1 : Nat) : ℝ) * 2 ^ (96 * (i + 1))) < ((x : ℝ) + 1) * 2 ^ 90 * 2 ^ (96 * (i + 1)) := by
    have : (B.natAbs : ℝ) = |(B : ℝ)| := by rw [Nat.cast_natAbs]; push_cast; rfl
    rw [← this]
    exact_mod_cast h2
  have h4 : |(|s| - |(B : ℝ) / 2 ^ (96 * (i + 1))|)| ≤ ((i + 1 : Nat) : ℝ) / 2 ^ 90 := (abs_abs_sub_abs_le s _).trans h3
  rw [abs_div, abs_of_pos hD] at h4
  have h5 := abs_le.1 h4
  generalize hd : (2 : ℝ) ^ (96 * (i + 1)) = D at *
  generalize ((i + 1 : Nat) : ℝ) = k at *
  symm
  rw [Nat.floor_eq_iff (by positivity)]
  have e1 : 2 ^ 32 * (|(B : ℝ)| / D - k / 2 ^ 90) = (2 ^ 32 * (2 ^ 90 * |(B : ℝ)|) - 2 ^ 32 * (k * D)) / (2 ^ 90 * D) := by
    field_simp
  have e2 : 2 ^ 32 * (|(B : ℝ)| / D + k / 2 ^ 90) = (2 ^ 32 * (2 ^ 90 * |(B : ℝ)|) + 2 ^ 32 * (k * D)) / (2 ^ 90 * D) := by
    field_simp
  have hDE : (0 : ℝ) < 2 ^ 90 * D := by positivity
  constructor
  · have : (x : ℝ) ≤ 2 ^ 32 * (|(B : ℝ)| / D - k / 2 ^ 90) := by
      rw [e1, le_div_iff₀ hDE]
      linarith
    have : 2 ^ 32 * (|(B : ℝ)| / D - k / 2 ^ 90) ≤ 2 ^ 32 * |s| := by
      apply mul_le_mul_of_nonneg_left _ (by positivity)
      linarith
    linarith
  · have : 2 ^ 32 * (|(B : ℝ)| / D + k / 2 ^ 90) < (x : ℝ) + 1 := by
      rw [e2, div_lt_iff₀ hDE]
      linarith
    have : 2 ^ 32 * |s| ≤ 2 ^ 32 * (|(B : ℝ)| / D + k / 2 ^ 90) := by
      apply mul_le_mul_of_nonneg_left _ (by positivity)
      linarith
    linarith

/-- the first constant. -/
example : (md5K.getD 0 0).toNat = 3614090360 := rfl

end Verif.Hash
