import Verif.Lemmas.Rounding
/-!
# Durations as numbers of days, weeks, hours, minutes and seconds (C108)
-/

set_option linter.unusedSectionVars false

namespace Verif.DurationFloat

/-- The five methods, each with the nanoseconds of its unit. -/
def Spec.methods : List ((BitVec 64 → ℚ) × Int) :=
  [(seconds, 10 ^ 9), (minutes, 60 * 10 ^ 9), (hours, 3600 * 10 ^ 9), (days, 86400 * 10 ^ 9), (weeks, 604800 * 10 ^ 9)]

theorem toF_day : toF day = 86400 * 10 ^ 9 := by rw [toF_exact (by decide)]; norm_num [day]

theorem toF_week : toF week = 604800 * 10 ^ 9 := by rw [toF_exact (by decide)]; norm_num [week, day]

/-- The two shapes of the methods. -/
def direct (U : Int) (d : BitVec 64) : ℚ := rnd (toF d.toInt / U)

theorem days_eq (d : BitVec 64) : days d = direct (86400 * 10 ^ 9) d := by
  rw [days, toF_day, direct]; norm_num

theorem weeks_eq (d : BitVec 64) : weeks d = direct (604800 * 10 ^ 9) d := by
  rw [weeks, toF_week, direct]; norm_num

theorem bounds (d : BitVec 64) : -2 ^ 63 ≤ d.toInt ∧ d.toInt < 2 ^ 63 := by
  have h1 := BitVec.le_toInt d
  have h2 := BitVec.toInt_lt (x := d)
  norm_num at h1 h2 ⊢
  exact ⟨h1, h2⟩

theorem abs_tmod_lt (a : Int) {U : Int} (hU : 0 < U) : |a.tmod U| < U := by
  rw [Int.abs_eq_natAbs, Int.natAbs_tmod]
  have := Nat.mod_lt a.natAbs (show 0 < U.natAbs by omega)
  omega

theorem tmod_nonpos (U : Int) {a : Int} (h : a ≤ 0) : a.tmod U ≤ 0 := by
  have := Int.tmod_nonneg U (show 0 ≤ -a by omega)
  rw [Int.neg_tmod] at this
  omega

theorem abs_tdiv_le (d : BitVec 64) {U : Int} (hU : 10 ^ 9 ≤ U) : |d.toInt.tdiv U| < 2 ^ 53 := by
  have hb := bounds d
  have h1 := Int.tmod_add_mul_tdiv d.toInt U
  have h2 := abs_tmod_lt d.toInt (U := U) (by omega)
  rw [abs_lt] at h2 ⊢
  generalize d.toInt.tdiv U = q at *
  generalize d.toInt.tmod U = r at *
  constructor
  · by_contra hc
    have : U * q ≤ U * (-2 ^ 53) := by apply mul_le_mul_of_nonneg_left <;> omega
    omega
  · by_contra hc
    have : U * 2 ^ 53 ≤ U * q := by apply mul_le_mul_of_nonneg_left <;> omega
    omega

theorem std_eq (U : Int) (h1 : 10 ^ 9 ≤ U) (h2 : U < 2 ^ 53) (d : BitVec 64) :
    std U d = rnd ((d.toInt.tdiv U : ℚ) + rnd ((d.toInt.tmod U : ℚ) / U)) := by
  have ht := abs_tmod_lt d.toInt (U := U) (by omega)
  rw [std, toF_exact (abs_tdiv_le d h1), toF_exact (ht.trans h2), toF_exact (n := U) (by rw [abs_of_pos (by omega)]; exact h2)]

/-! ## Order -/

theorem direct_mono {U : Int} (hU : 0 < U) {d e : BitVec 64} (h : d.toInt ≤ e.toInt) : direct U d ≤ direct U e := by
  have : (0 : ℚ) < U := by exact_mod_cast hU
  exact rnd_mono (div_le_div_of_nonneg_right (toF_mono h) this.le)

theorem rnd_one : rnd 1 = 1 := by
  have := rnd_exact 1 0 (by decide)
  simpa using this

theorem rnd_frac_le {r U : Int} (hU : 0 < U) (h : |r| < U) : |rnd ((r : ℚ) / U)| ≤ 1 := by
  have hU' : (0 : ℚ) < U := by exact_mod_cast hU
  rw [abs_lt] at h
  rw [abs_le]
  have a : rnd ((r : ℚ) / U) ≤ rnd 1 := rnd_mono (by rw [div_le_one hU']; exact_mod_cast h.2.le)
  have b : rnd (-1) ≤ rnd ((r : ℚ) / U) := rnd_mono (by
    rw [le_div_iff₀ hU']
    have : -U ≤ r := by omega
    have : ((-U : Int) : ℚ) ≤ r := by exact_mod_cast this
    push_cast at this
    linarith)
  rw [rnd_neg, rnd_one] at b
  rw [rnd_one] at a
  exact ⟨b, a⟩

/-- The sum that `std` rounds grows with the duration. -/
theorem sum_mono {U : Int} (hU : 0 < U) {a b : Int} (h : a ≤ b) :
    (a.tdiv U : ℚ) + rnd ((a.tmod U : ℚ) / U) ≤ (b.tdiv U : ℚ) + rnd ((b.tmod U : ℚ) / U) := by
  have hU' : (0 : ℚ) < U := by exact_mod_cast hU
  have ha := Int.tmod_add_mul_tdiv a U
  have hb := Int.tmod_add_mul_tdiv b U
  have ra := abs_tmod_lt a hU
  have rb := abs_tmod_lt b hU
  have sa : 0 ≤ a → 0 ≤ a.tmod U := fun h => Int.tmod_nonneg U h
  have sb : b ≤ 0 → b.tmod U ≤ 0 := fun h => tmod_nonpos U h
  have sa' : a ≤ 0 → a.tmod U ≤ 0 := fun h => tmod_nonpos U h
  have sb' : 0 ≤ b → 0 ≤ b.tmod U := fun h => Int.tmod_nonneg U h
  have hq : a.tdiv U ≤ b.tdiv U := Int.tdiv_le_tdiv hU h
  have fa := rnd_frac_le hU ra
  have fb := rnd_frac_le hU rb
  rcases eq_or_lt_of_le hq with he | hl
  · rw [he] at ha ⊢
    have : a.tmod U ≤ b.tmod U := by omega
    have := rnd_mono (div_le_div_of_nonneg_right (show (a.tmod U : ℚ) ≤ b.tmod U by exact_mod_cast this) hU'.le)
    linarith
  · have hl' : (a.tdiv U : ℚ) + 1 ≤ b.tdiv U := by exact_mod_cast hl
    rw [abs_le] at fa fb
    rcases le_total 0 a with h0 | h0
    · have : 0 ≤ rnd ((b.tmod U : ℚ) / U) :=
        rnd_nonneg (div_nonneg (by exact_mod_cast sb' (h0.trans h)) hU'.le)
      linarith [fa.2]
    · have na : rnd ((a.tmod U : ℚ) / U) ≤ 0 := by
        have : 0 ≤ rnd (-((a.tmod U : ℚ) / U)) := rnd_nonneg (by
          rw [neg_nonneg]
          exact div_nonpos_of_nonpos_of_nonneg (by exact_mod_cast sa' h0) hU'.le)
        rw [rnd_neg] at this
        linarith
      linarith [fb.1]

theorem std_mono {U : Int} (h1 : 10 ^ 9 ≤ U) (h2 : U < 2 ^ 53) {d e : BitVec 64} (h : d.toInt ≤ e.toInt) :
    std U d ≤ std U e := by
  rw [std_eq U h1 h2, std_eq U h1 h2]
  exact rnd_mono (sum_mono (by omega) h)

/-- **C108** (order).  A longer duration never has fewer days, weeks, hours, minutes or seconds. -/
theorem C108_monotone (f : BitVec 64 → ℚ) (U : Int) (hf : (f, U) ∈ Spec.methods) (d e : BitVec 64)
    (h : d.toInt ≤ e.toInt) : f d ≤ f e := by
  simp only [Spec.methods, List.mem_cons, Prod.mk.injEq, List.not_mem_nil, or_false] at hf
  rcases hf with ⟨rfl, -⟩ | ⟨rfl, -⟩ | ⟨rfl, -⟩ | ⟨rfl, -⟩ | ⟨rfl, -⟩
  · exact std_mono (by decide) (by decide) h
  · exact std_mono (by decide) (by decide) h
  · exact std_mono (by decide) (by decide) h
  · rw [days_eq, days_eq]; exact direct_mono (by decide) h
  · rw [weeks_eq, weeks_eq]; exact direct_mono (by decide) h

/-! ## Accuracy -/

theorem direct_err {U : Int} (hU : 0 < U) (d : BitVec 64) :
    |direct U d - d.toInt / U| ≤ |(d.toInt : ℚ) / U| * (1 / 2 ^ 52 + 1 / 2 ^ 106) := by
  have hU' : (0 : ℚ) < U := by exact_mod_cast hU
  have h1 : |toF d.toInt - d.toInt| ≤ |(d.toInt : ℚ)| / 2 ^ 53 := rnd_err _
  have h2 : |direct U d - toF d.toInt / U| ≤ |toF d.toInt / U| / 2 ^ 53 := rnd_err _
  have h3 : |toF d.toInt / U - d.toInt / U| ≤ |(d.toInt : ℚ) / U| / 2 ^ 53 := by
    rw [← sub_div, abs_div, abs_div, abs_of_pos hU', div_div, mul_comm, ← div_div]
    exact div_le_div_of_nonneg_right h1 hU'.le
  have h4 : |toF d.toInt / U| ≤ |(d.toInt : ℚ) / U| + |(d.toInt : ℚ) / U| / 2 ^ 53 := by
    have := abs_sub_abs_le_abs_sub (toF d.toInt / U) ((d.toInt : ℚ) / U)
    linarith
  have h5 : |direct U d - d.toInt / U| ≤ |direct U d - toF d.toInt / U| + |toF d.toInt / U - d.toInt / U| :=
    abs_sub_le _ _ _
  generalize |(d.toInt : ℚ) / U| = x at *
  have e : x * (1 / 2 ^ 52 + 1 / 2 ^ 106) = (x + x / 2 ^ 53) / 2 ^ 53 + x / 2 ^ 53 := by ring
  rw [e]
  have : |toF d.toInt / U| / 2 ^ 53 ≤ (x + x / 2 ^ 53) / 2 ^ 53 := div_le_div_of_nonneg_right h4 (by norm_num)
  linarith

/-- Error of the sum before its rounding. -/
theorem sum_err {U : Int} (hU : 0 < U) (a : Int) :
    |(a.tdiv U : ℚ) + rnd ((a.tmod U : ℚ) / U) - a / U| ≤ |(a.tmod U : ℚ) / U| / 2 ^ 53 := by
  have hU' : (U : ℚ) ≠ 0 := by exact_mod_cast hU.ne'
  have ha : (a : ℚ) = a.tmod U + U * a.tdiv U := by exact_mod_cast (Int.tmod_add_mul_tdiv a U).symm
  have : (a.tdiv U : ℚ) + rnd ((a.tmod U : ℚ) / U) - a / U = rnd ((a.tmod U : ℚ) / U) - (a.tmod U : ℚ) / U := by
    have : (a : ℚ) / U = a.tmod U / U + a.tdiv U := by
      conv => lhs; rw [ha]
      field_simp
    rw [this]; ring
  rw [this]
  exact rnd_err _

theorem abs_tmod_le (a U : Int) : |a.tmod U| ≤ |a| := by
  rw [Int.abs_eq_natAbs, Int.abs_eq_natAbs, Int.natAbs_tmod]
  exact_mod_cast Nat.mod_le _ _

theorem std_err {U : Int} (h1 : 10 ^ 9 ≤ U) (h2 : U < 2 ^ 53) (d : BitVec 64) :
    |std U d - d.toInt / U| ≤ |(d.toInt : ℚ) / U| * (1 / 2 ^ 52 + 1 / 2 ^ 106) := by
  have hU : 0 < U := by omega
  have hU' : (0 : ℚ) < U := by exact_mod_cast hU
  rw [std_eq U h1 h2]
  have e1 := sum_err hU d.toInt
  generalize hs : (d.toInt.tdiv U : ℚ) + rnd ((d.toInt.tmod U : ℚ) / U) = s at *
  have e2 := rnd_err s
  have hm : |(d.toInt.tmod U : ℚ) / U| ≤ |(d.toInt : ℚ) / U| := by
    rw [abs_div, abs_div]
    refine div_le_div_of_nonneg_right ?_ (abs_nonneg _)
    exact_mod_cast abs_tmod_le d.toInt U
  have e3 : |s| ≤ |(d.toInt : ℚ) / U| + |s - d.toInt / U| := by
    have := abs_sub_abs_le_abs_sub s ((d.toInt : ℚ) / U)
    linarith
  have e4 : |rnd s - d.toInt / U| ≤ |rnd s - s| + |s - d.toInt / U| := abs_sub_le _ _ _
  generalize |(d.toInt : ℚ) / U| = x at *
  have e : x * (1 / 2 ^ 52 + 1 / 2 ^ 106) = (x + x / 2 ^ 53) / 2 ^ 53 + x / 2 ^ 53 := by ring
  rw [e]
  have e5 : |(d.toInt.tmod U : ℚ) / U| / 2 ^ 53 ≤ x / 2 ^ 53 := div_le_div_of_nonneg_right hm (by norm_num)
  have : |s| / 2 ^ 53 ≤ (x + x / 2 ^ 53) / 2 ^ 53 := div_le_div_of_nonneg_right (by linarith) (by norm_num)
  linarith

/-- **C108** (accuracy).  The number returned differs from the exact quotient by a little more than 2^-52 of it at most. -/
theorem C108_accuracy (f : BitVec 64 → ℚ) (U : Int) (hf : (f, U) ∈ Spec.methods) (d : BitVec 64) :
    |f d - d.toInt / U| ≤ |(d.toInt : ℚ) / U| * (1 / 2 ^ 52 + 1 / 2 ^ 106) := by
  simp only [Spec.methods, List.mem_cons, Prod.mk.injEq, List.not_mem_nil, or_false] at hf
  rcases hf with ⟨rfl, rfl⟩ | ⟨rfl, rfl⟩ | ⟨rfl, rfl⟩ | ⟨rfl, rfl⟩ | ⟨rfl, rfl⟩
  · exact std_err (by decide) (by decide) d
  · exact std_err (by decide) (by decide) d
  · exact std_err (by decide) (by decide) d
  · rw [days_eq]; exact direct_err (by decide) d
  · rw [weeks_eq]; exact direct_err (by decide) d

/-! ## Whole units -/

theorem abs_lt_of_mul {k : Int} {U n : Int} (d : BitVec 64) (hU : 0 < U) (h : d.toInt = k * U) (hn : 2 ^ 63 < n * U) : |k| < n := by
  have hb := bounds d
  rw [h] at hb
  rw [abs_lt]
  constructor
  · by_contra hc
    have : k * U ≤ (-n) * U := by apply mul_le_mul_of_nonneg_right <;> omega
    rw [Int.neg_mul] at this
    omega
  · by_contra hc
    have : n * U ≤ k * U := by apply mul_le_mul_of_nonneg_right <;> omega
    omega

theorem rnd_int {n : Int} (h : |n| < 2 ^ 53) : rnd n = n := toF_exact h

/-- Whole days and weeks end with so many zero bits that the conversion is exact. -/
theorem direct_whole {U V : Int} (hU : U = V * 2 ^ 16) (hV : 0 < V) (n : Int) (hn : n * V ≤ 2 ^ 53) (hn' : 2 ^ 63 < n * U)
    (d : BitVec 64) (k : Int) (h : d.toInt = k * U) : direct U d = k := by
  have hk := abs_lt_of_mul d (by omega) h hn'
  have hU' : (U : ℚ) ≠ 0 := by
    have : U ≠ 0 := by omega
    exact_mod_cast this
  have hkV : |k * V| < 2 ^ 53 := by
    rw [abs_mul, abs_of_pos hV]
    exact (mul_lt_mul_of_pos_right hk hV).trans_le hn
  have hk53 : |k| < 2 ^ 53 := by
    have : n * 1 ≤ n * V := by
      apply mul_le_mul_of_nonneg_left _ (by have := abs_nonneg k; omega); omega
    omega
  have e : toF d.toInt = d.toInt := by
    have := rnd_exact (k * V) 16 hkV
    rw [toF, h, hU]
    push_cast at this ⊢
    rw [← mul_assoc]
    exact this
  rw [direct, e, h, Int.cast_mul, mul_div_assoc, div_self hU', mul_one, rnd_int hk53]

theorem std_whole {U : Int} (h1 : 10 ^ 9 ≤ U) (h2 : U < 2 ^ 53) (d : BitVec 64) (k : Int) (h : d.toInt = k * U) :
    std U d = k := by
  have hk := abs_lt_of_mul (n := 2 ^ 53) d (by omega) h (by omega)
  rw [std_eq U h1 h2, h, Int.mul_tdiv_cancel k (by omega), Int.mul_tmod_left]
  simp [rnd_zero, rnd_int hk]

/-- **C108** (whole units).  The duration of `k` whole units has exactly `k` of them. -/
theorem C108_whole (f : BitVec 64 → ℚ) (U : Int) (hf : (f, U) ∈ Spec.methods) (d : BitVec 64) (k : Int)
    (h : d.toInt = k * U) : f d = k := by
  simp only [Spec.methods, List.mem_cons, Prod.mk.injEq, List.not_mem_nil, or_false] at hf
  rcases hf with ⟨rfl, rfl⟩ | ⟨rfl, rfl⟩ | ⟨rfl, rfl⟩ | ⟨rfl, rfl⟩ | ⟨rfl, rfl⟩
  · exact std_whole (by decide) (by decide) d k h
  · exact std_whole (by decide) (by decide) d k h
  · exact std_whole (by decide) (by decide) d k h
  · rw [days_eq]; exact direct_whole (V := 1318359375) (by decide) (by decide) 106752 (by decide) (by decide) d k h
  · rw [weeks_eq]; exact direct_whole (V := 9228515625) (by decide) (by decide) 15251 (by decide) (by decide) d k h

/-! ## Distinct durations -/

/-- The last nanosecond before a whole number of units is lost. -/
theorem toF_early {n : Int} (h1 : 2 ^ 54 < n) (h2 : n < 2 ^ 63) (h3 : 2 ^ 16 ∣ n) : toF (n - 1) = n := by
  have hpos : (0 : ℚ) < ((n - 1 : Int) : ℚ) := by exact_mod_cast (by omega : 0 < n - 1)
  have hb := expo_bounds hpos.ne'
  rw [toF]
  generalize hq : ((n - 1 : Int) : ℚ) = q at *
  rw [abs_of_pos hpos] at hb
  have l1 : 2 ≤ expo q := by
    by_contra hc
    have : (2 : ℚ) ^ expo q ≤ 2 ^ (1 : ℤ) := zpow_le_zpow_right₀ (by norm_num) (by omega)
    have : q < 2 ^ 54 := by norm_num at this hb ⊢; linarith [hb.2]
    rw [← hq] at this
    have : n - 1 < 2 ^ 54 := by exact_mod_cast this
    omega
  have l2 : expo q ≤ 16 := by
    by_contra hc
    have : (2 : ℚ) ^ (17 : ℤ) ≤ 2 ^ expo q := zpow_le_zpow_right₀ (by norm_num) (by omega)
    have : (2 : ℚ) ^ 63 ≤ q := by norm_num at this hb ⊢; linarith [hb.1]
    rw [← hq] at this
    have : 2 ^ 63 ≤ n - 1 := by exact_mod_cast this
    omega
  obtain ⟨m, rfl⟩ := h3
  have P := two_zpow_pos (expo q)
  have e1 : ((2 ^ 16 * m : Int) : ℚ) / 2 ^ expo q = ((m * 2 ^ (16 - expo q).toNat : Int) : ℚ) := by
    push_cast
    rw [← zpow_natCast (2 : ℚ) (16 - expo q).toNat, Int.toNat_of_nonneg (by omega), zpow_sub₀ (by norm_num)]
    norm_num
    ring
  have e2 : rne (q / 2 ^ expo q) = m * 2 ^ (16 - expo q).toNat := by
    refine rne_near ?_
    have hd : q - ((2 ^ 16 * m : Int) : ℚ) = -1 := by rw [← hq]; push_cast; ring
    rw [← e1, ← sub_div, hd, abs_div, abs_neg, abs_one, abs_of_pos P, div_lt_iff₀ P]
    have : (2 : ℚ) ^ (2 : ℤ) ≤ 2 ^ expo q := zpow_le_zpow_right₀ (by norm_num) l1
    norm_num at this
    linarith
  rw [rnd, e2, ← e1]
  field_simp

/-- **C108** (distinct durations) is false beyond: from 209 days on, the duration one nanosecond short of `k` days has
`k` days, and likewise for weeks. -/
theorem C108_distinct_false (d : BitVec 64) (k : Int) (h0 : 2 ^ 54 < d.toInt) :
    (d.toInt + 1 = k * (86400 * 10 ^ 9) → d.toInt + 1 < 2 ^ 63 → days d = k) ∧
    (d.toInt + 1 = k * (604800 * 10 ^ 9) → d.toInt + 1 < 2 ^ 63 → weeks d = k) := by
  have key : ∀ U : Int, 0 < U → 2 ^ 16 ∣ U → 2 ^ 44 < U → d.toInt + 1 = k * U → d.toInt + 1 < 2 ^ 63 → direct U d = k := by
    intro U hU hdvd hbig h hlt
    have hU' : (U : ℚ) ≠ 0 := by exact_mod_cast hU.ne'
    have e : toF d.toInt = ((d.toInt + 1 : Int) : ℚ) := by
      have := toF_early (n := d.toInt + 1) (by omega) hlt (by rw [h]; exact dvd_mul_of_dvd_right hdvd k)
      rwa [show d.toInt + 1 - 1 = d.toInt by omega] at this
    have hk : |k| < 2 ^ 53 := by
      rw [abs_lt]
      constructor
      · by_contra hc
        have : k * U ≤ (-2 ^ 53) * U := by apply mul_le_mul_of_nonneg_right <;> omega
        omega
      · by_contra hc
        have : 2 ^ 53 * U ≤ k * U := by apply mul_le_mul_of_nonneg_right <;> omega
        omega
    rw [direct, e, h, Int.cast_mul, mul_div_assoc, div_self hU', mul_one, rnd_int hk]
  rw [days_eq, weeks_eq]
  exact ⟨key _ (by decide) (by decide) (by decide), key _ (by decide) (by decide) (by decide)⟩

/-- A day and a half. -/
example : (days, 86400 * 10 ^ 9) ∈ Spec.methods ∧ days 129600000000000#64 = 3 / 2 ∧ hours 129600000000000#64 = 36 := by
  refine ⟨by simp [Spec.methods], by decide +kernel, by decide +kernel⟩

/-- One nanosecond short of 1000 days, and of two hours. -/
example : days 86399999999999999#64 = 1000 ∧ hours 7199999999999#64 < 2 := by
  refine ⟨?_, by decide +kernel⟩
  exact ((C108_distinct_false 86399999999999999#64 1000 (by decide)).1 (by decide) (by decide))

example : hours 7199999999999#64 ≤ hours 7200000000000#64 := C108_monotone hours (3600 * 10 ^ 9) (by simp [Spec.methods]) _ _ (by decide)
example := C108_accuracy weeks (604800 * 10 ^ 9) (by simp [Spec.methods]) 7199999999999#64
example : hours 7200000000000#64 = (2 : Int) := C108_whole hours (3600 * 10 ^ 9) (by simp [Spec.methods]) _ 2 (by decide)

end Verif.DurationFloat
