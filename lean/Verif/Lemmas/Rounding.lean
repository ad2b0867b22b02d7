import Verif.Model.DurationFloat
import Mathlib.Tactic.Linarith
import Mathlib.Tactic.NormNum
import Mathlib.Tactic.Ring
import Mathlib.Tactic.FieldSimp
import Mathlib.Tactic.Positivity
/-!
# Rounding to 53 significant bits
-/

set_option linter.unusedSectionVars false

namespace Verif.DurationFloat

theorem rne_err (x : ℚ) : |(rne x : ℚ) - x| ≤ 1 / 2 := by
  have h1 := Int.floor_le x
  have h2 := Int.lt_floor_add_one x
  unfold rne
  split_ifs <;> rw [abs_le] <;> push_cast <;> constructor <;> linarith

theorem rne_int (n : ℤ) : rne (n : ℚ) = n := by
  unfold rne
  rw [Int.floor_intCast, sub_self, if_pos (by norm_num)]

theorem rne_mono {x y : ℚ} (h : x ≤ y) : rne x ≤ rne y := by
  have hf : ⌊x⌋ ≤ ⌊y⌋ := Int.floor_le_floor h
  rcases eq_or_lt_of_le hf with he | hl
  · unfold rne
    rw [← he]
    split_ifs <;> first | omega | (exfalso; linarith)
  · have a : rne x ≤ ⌊x⌋ + 1 := by unfold rne; split_ifs <;> omega
    have b : ⌊y⌋ ≤ rne y := by unfold rne; split_ifs <;> omega
    omega

/-- A number less than one half away from a whole number is rounded to it. -/
theorem rne_near {x : ℚ} {n : ℤ} (h : |x - n| < 1 / 2) : rne x = n := by
  have := rne_err x
  rw [abs_lt] at h
  rw [abs_le] at this
  have h1 : ((rne x : ℤ) : ℚ) - n < 1 := by linarith
  have h2 : (-1 : ℚ) < (rne x : ℚ) - n := by linarith
  have h1' : rne x - n < 1 := by exact_mod_cast h1
  have h2' : -1 < rne x - n := by exact_mod_cast h2
  omega

theorem rne_neg (x : ℚ) : rne (-x) = -rne x := by
  by_cases hi : (⌊x⌋ : ℚ) = x
  · rw [← hi, ← Int.cast_neg, rne_int, rne_int]
  · have h1 := Int.floor_le x
    have h2 := Int.lt_floor_add_one x
    have hlt : (⌊x⌋ : ℚ) < x := lt_of_le_of_ne h1 hi
    have hf : ⌊-x⌋ = -⌊x⌋ - 1 := by
      rw [Int.floor_eq_iff]; push_cast; constructor <;> linarith
    unfold rne
    rw [hf]
    push_cast
    split_ifs <;> first | omega | (exfalso; linarith)

theorem rnd_zero : rnd 0 = 0 := by
  have : rne 0 = 0 := by have := rne_int 0; simpa using this
  simp [rnd, this]

theorem expo_neg (q : ℚ) : expo (-q) = expo q := by rw [expo, expo, abs_neg]

theorem rnd_neg (q : ℚ) : rnd (-q) = -rnd q := by
  rw [rnd, rnd, expo_neg, neg_div, rne_neg]
  push_cast
  ring

theorem expo_bounds {q : ℚ} (h : q ≠ 0) : 2 ^ 52 * (2 : ℚ) ^ expo q ≤ |q| ∧ |q| < 2 ^ 53 * (2 : ℚ) ^ expo q := by
  have hp : 0 < |q| := abs_pos.2 h
  have h1 := Int.zpow_log_le_self (b := 2) (r := |q|) (by norm_num) hp
  have h2 := Int.lt_zpow_succ_log_self (b := 2) (by norm_num) |q|
  have e1 : ((2 : ℕ) : ℚ) ^ Int.log 2 |q| = 2 ^ 52 * (2 : ℚ) ^ expo q := by
    rw [expo, show ((2 : ℕ) : ℚ) = 2 by norm_num, zpow_sub₀ (by norm_num)]
    norm_num
    ring
  have e2 : ((2 : ℕ) : ℚ) ^ (Int.log 2 |q| + 1) = 2 ^ 53 * (2 : ℚ) ^ expo q := by
    rw [zpow_add₀ (by norm_num), e1]; norm_num; ring
  rw [e1] at h1
  rw [e2] at h2
  exact ⟨h1, h2⟩

theorem two_zpow_pos (e : ℤ) : (0 : ℚ) < 2 ^ e := zpow_pos (by norm_num) e

/-- The error is at most one unit in the 53rd place below the number. -/
theorem rnd_err (q : ℚ) : |rnd q - q| ≤ |q| / 2 ^ 53 := by
  by_cases h : q = 0
  · subst h; simp [rnd_zero]
  · have hb := (expo_bounds h).1
    have hp := two_zpow_pos (expo q)
    have he := rne_err (q / 2 ^ expo q)
    have : rnd q - q = (rne (q / 2 ^ expo q) - q / 2 ^ expo q) * 2 ^ expo q := by
      rw [rnd]; field_simp
    rw [this, abs_mul, abs_of_pos hp]
    have : |(rne (q / 2 ^ expo q) : ℚ) - q / 2 ^ expo q| * 2 ^ expo q ≤ 1 / 2 * 2 ^ expo q :=
      mul_le_mul_of_nonneg_right he hp.le
    refine this.trans ?_
    rw [le_div_iff₀ (by norm_num)]
    linarith

/-- Numbers of at most 53 significant bits are not changed. -/
theorem rnd_exact (m k : ℤ) (hm : |m| < 2 ^ 53) : rnd (m * 2 ^ k) = m * 2 ^ k := by
  by_cases h0 : m = 0
  · subst h0; simp [rnd_zero]
  · have hk := two_zpow_pos k
    have hq : (m : ℚ) * 2 ^ k ≠ 0 := mul_ne_zero (by exact_mod_cast h0) hk.ne'
    generalize hQ : (m : ℚ) * 2 ^ k = q at *
    have hb := (expo_bounds hq).1
    have hle : expo q ≤ k := by
      by_contra hc
      have h1 : (2 : ℚ) ^ (k + 1) ≤ 2 ^ expo q := zpow_le_zpow_right₀ (by norm_num) (by omega)
      rw [zpow_add₀ (by norm_num)] at h1
      have h2 : |q| < 2 ^ 53 * 2 ^ k := by
        rw [← hQ, abs_mul, abs_of_pos hk]
        exact mul_lt_mul_of_pos_right (by exact_mod_cast hm) hk
      norm_num at h1
      linarith
    have : q / 2 ^ expo q = ((m * 2 ^ (k - expo q).toNat : ℤ) : ℚ) := by
      push_cast
      rw [← hQ, mul_div_assoc, hQ, ← zpow_sub₀ (by norm_num), ← zpow_natCast, Int.toNat_of_nonneg (by omega)]
    rw [rnd, this, rne_int, ← this]
    have := (two_zpow_pos (expo q)).ne'
    field_simp

theorem rnd_nonneg {q : ℚ} (h : 0 ≤ q) : 0 ≤ rnd q := by
  have h1 : rne 0 = 0 := by have := rne_int 0; simpa using this
  have h2 : 0 ≤ rne (q / 2 ^ expo q) := by
    rw [← h1]; exact rne_mono (div_nonneg h (two_zpow_pos _).le)
  exact mul_nonneg (by exact_mod_cast h2) (two_zpow_pos _).le

theorem rnd_mono_pos {p q : ℚ} (hp : 0 < p) (h : p ≤ q) : rnd p ≤ rnd q := by
  have hq : 0 < q := hp.trans_le h
  have hlog : expo p ≤ expo q := by
    rw [expo, expo, abs_of_pos hp, abs_of_pos hq]
    have := Int.log_mono_right (b := 2) hp h
    omega
  rcases eq_or_lt_of_le hlog with he | hl
  · rw [rnd, rnd, ← he]
    refine mul_le_mul_of_nonneg_right ?_ (two_zpow_pos _).le
    exact_mod_cast rne_mono (div_le_div_of_nonneg_right h (two_zpow_pos _).le)
  · have bp := (expo_bounds hp.ne').2
    have bq := (expo_bounds hq.ne').1
    rw [abs_of_pos hp] at bp
    rw [abs_of_pos hq] at bq
    have P := two_zpow_pos (expo p)
    have Q := two_zpow_pos (expo q)
    have hPQ : (2 : ℚ) ^ expo p * 2 ≤ 2 ^ expo q := by
      have : (2 : ℚ) ^ (expo p + 1) ≤ 2 ^ expo q := zpow_le_zpow_right₀ (by norm_num) (by omega)
      rwa [zpow_add₀ (by norm_num), zpow_one] at this
    have a : rne (p / 2 ^ expo p) ≤ 2 ^ 53 := by
      have : p / 2 ^ expo p ≤ ((2 ^ 53 : ℤ) : ℚ) := by
        rw [div_le_iff₀ P]; push_cast; exact bp.le
      have := rne_mono this
      rwa [rne_int] at this
    have b : 2 ^ 52 ≤ rne (q / 2 ^ expo q) := by
      have : ((2 ^ 52 : ℤ) : ℚ) ≤ q / 2 ^ expo q := by
        rw [le_div_iff₀ Q]; push_cast; exact bq
      have := rne_mono this
      rwa [rne_int] at this
    have a' : (rne (p / 2 ^ expo p) : ℚ) ≤ 2 ^ 53 := by exact_mod_cast a
    have b' : (2 : ℚ) ^ 52 ≤ rne (q / 2 ^ expo q) := by exact_mod_cast b
    calc rnd p ≤ 2 ^ 53 * 2 ^ expo p := mul_le_mul_of_nonneg_right a' P.le
      _ ≤ 2 ^ 52 * 2 ^ expo q := by linarith
      _ ≤ rnd q := mul_le_mul_of_nonneg_right b' Q.le

theorem rnd_mono {p q : ℚ} (h : p ≤ q) : rnd p ≤ rnd q := by
  rcases lt_trichotomy 0 p with hp | hp | hp
  · exact rnd_mono_pos hp h
  · subst hp; rw [rnd_zero]; exact rnd_nonneg h
  · rcases lt_or_ge q 0 with hq | hq
    · have := rnd_mono_pos (p := -q) (q := -p) (by linarith) (by linarith)
      rw [rnd_neg, rnd_neg] at this
      linarith
    · have h1 : 0 ≤ rnd (-p) := rnd_nonneg (by linarith)
      rw [rnd_neg] at h1
      have := rnd_nonneg hq
      linarith

theorem toF_exact {n : ℤ} (h : |n| < 2 ^ 53) : toF n = n := by
  have := rnd_exact n 0 h
  simpa [toF] using this

theorem toF_mono {a b : ℤ} (h : a ≤ b) : toF a ≤ toF b := rnd_mono (by exact_mod_cast h)

end Verif.DurationFloat
