import Verif.Model.MathUtil
import Mathlib.Data.Nat.Prime.Basic
import Mathlib.Analysis.Real.Sqrt
import Mathlib.Tactic.IntervalCases
import Mathlib.Tactic.Linarith
import Mathlib.Tactic.Ring
/-!
# Properties C44 and C45: integer square root, primality and the prime table
-/

set_option linter.unusedSectionVars false

namespace Verif.Prime

/-! ## C44 -/

/-- The invariant before the step with `magic = 4^m`: the root found so far is `r = 2k·2^m`. -/
def SInv (v m : Nat) (val sq : BitVec 32) : Prop :=
  ∃ k, sq.toNat = 4 * k * (2 ^ m * 2 ^ m) ∧ 4 * (k * k) * (2 ^ m * 2 ^ m) + val.toNat = v ∧
    v < 4 * ((k + 1) * (k + 1)) * (2 ^ m * 2 ^ m)

theorem shift_or (k m : Nat) : (2 * k * (2 ^ m * 2 ^ m)) ||| (2 ^ m * 2 ^ m) = (2 * k + 1) * (2 ^ m * 2 ^ m) := by
  have h := Nat.two_pow_add_eq_or_of_lt (i := 2 * m + 1) (b := 2 ^ (2 * m)) (by rw [Nat.pow_succ]; have := Nat.two_pow_pos (2 * m); omega) k
  have e : 2 ^ (2 * m) = 2 ^ m * 2 ^ m := by rw [← Nat.pow_add]; congr 1; omega
  rw [Nat.pow_succ, e] at h
  rw [show 2 * k * (2 ^ m * 2 ^ m) = 2 ^ m * 2 ^ m * 2 * k by ring, ← h]
  ring

theorem magic (m : Nat) (hm : m ≤ 15) : (0x40000000#32 >>> (30 - 2 * m)).toNat = 2 ^ m * 2 ^ m := by
  interval_cases m <;> rfl

/-- One step keeps the invariant: the factor of `2^m` becomes `2k` or `2k+1`. -/
theorem step_inv (v m : Nat) (hm : m ≤ 15) (hv : v < 2 ^ 32) (val sq : BitVec 32) (h : SInv v m val sq) :
    ∃ k, (step (30 - 2 * m) val sq).2.toNat = k * (2 ^ m * 2 ^ m) ∧
      k * k * (2 ^ m * 2 ^ m) + (step (30 - 2 * m) val sq).1.toNat = v ∧ v < (k + 1) * (k + 1) * (2 ^ m * 2 ^ m) := by
  obtain ⟨k, hsq, hval, hlt⟩ := h
  have hmag := magic m hm
  have hor := shift_or k m
  obtain ⟨B, hB⟩ : ∃ B, B = 2 ^ m * 2 ^ m := ⟨_, rfl⟩
  rw [← hB] at hsq hval hlt hmag hor ⊢
  have hover : B + 4 * k * B < 2 ^ 32 := by
    rcases Nat.lt_or_ge k 2 with hk | hk
    · interval_cases k
      · clear hmag hor; interval_cases m <;> norm_num at hB <;> omega
      · clear hmag hor; interval_cases m <;> norm_num at hB <;> omega
    · have h1 : 2 * k ≤ k * k := Nat.mul_le_mul_right k hk
      have h2 : (4 * k + 1) * B ≤ 4 * (k * k) * B := Nat.mul_le_mul_right B (by omega)
      have : B + 4 * k * B = (4 * k + 1) * B := by ring
      omega
  have hadd : (0x40000000#32 >>> (30 - 2 * m) + sq).toNat = B + 4 * k * B := by
    rw [BitVec.toNat_add, hmag, hsq, Nat.mod_eq_of_lt hover]
  have hhalf : (sq >>> 1).toNat = 2 * k * B := by
    rw [BitVec.toNat_ushiftRight, hsq, Nat.shiftRight_eq_div_pow, pow_one, show 4 * k * B = 2 * (2 * k * B) by ring]
    omega
  by_cases hc : 0x40000000#32 >>> (30 - 2 * m) + sq ≤ val
  · have hst : step (30 - 2 * m) val sq = (val - (0x40000000#32 >>> (30 - 2 * m) + sq), (sq >>> 1) ||| 0x40000000#32 >>> (30 - 2 * m)) := by
      simp only [step, if_pos hc]
    rw [hst]
    rw [BitVec.le_def, hadd] at hc
    refine ⟨2 * k + 1, ?_, ?_, ?_⟩
    · simp only
      rw [BitVec.toNat_or, hhalf, hmag, hor]
    · simp only
      rw [BitVec.toNat_sub_of_le (by rw [BitVec.le_def, hadd]; exact hc), hadd]
      have : (2 * k + 1) * (2 * k + 1) * B = 4 * (k * k) * B + (B + 4 * k * B) := by ring
      omega
    · have : (2 * k + 1 + 1) * (2 * k + 1 + 1) * B = 4 * ((k + 1) * (k + 1)) * B := by ring
      omega
  · have hst : step (30 - 2 * m) val sq = (val, sq >>> 1) := by
      simp only [step, if_neg hc]
    rw [hst]
    rw [BitVec.le_def, hadd] at hc
    refine ⟨2 * k, hhalf, ?_, ?_⟩
    · simp only
      have : 2 * k * (2 * k) * B = 4 * (k * k) * B := by ring
      omega
    · have : (2 * k + 1) * (2 * k + 1) * B = 4 * (k * k) * B + (B + 4 * k * B) := by ring
      omega

theorem loop_inv (v m : Nat) (hm : m ≤ 15) (hv : v < 2 ^ 32) (val sq : BitVec 32) (h : SInv v m val sq) :
    ∃ val' sq', sqrtLoop (30 - 2 * m) val sq = (val', sq') ∧
      sq'.toNat * sq'.toNat + val'.toNat = v ∧ v < (sq'.toNat + 1) * (sq'.toNat + 1) := by
  induction m generalizing val sq with
  | zero =>
    obtain ⟨k, h1, h2, h3⟩ := step_inv v 0 hm hv val sq h
    simp only [Nat.pow_zero, Nat.mul_one, Nat.mul_zero, Nat.sub_zero] at *
    refine ⟨(step 30 val sq).1, (step 30 val sq).2, ?_, ?_⟩
    · rw [sqrtLoop, if_pos (by omega), sqrtLoop, if_neg (by omega)]
    · rw [h1]
      exact ⟨h2, h3⟩
  | succ m ih =>
    obtain ⟨k, h1, h2, h3⟩ := step_inv v (m + 1) hm hv val sq h
    rw [sqrtLoop, if_pos (by omega), show 30 - 2 * (m + 1) + 2 = 30 - 2 * m by omega]
    refine ih (by omega) _ _ ⟨k, ?_, ?_, ?_⟩
    · rw [h1]; ring
    · rw [← h2]; ring
    · have : (k + 1) * (k + 1) * (2 ^ (m + 1) * 2 ^ (m + 1)) = 4 * ((k + 1) * (k + 1)) * (2 ^ m * 2 ^ m) := by ring
      omega

/-- Floor of the root plus rounding. -/
theorem sqrt_floor (v : BitVec 32) :
    ∃ r, r * r ≤ v.toNat ∧ v.toNat < (r + 1) * (r + 1) ∧
      (sqrt v).toNat = if v.toNat - r * r ≤ r then r else r + 1 := by
  have h0 : SInv v.toNat 15 v 0#32 := ⟨0, by simp, by simp, by have := v.isLt; norm_num; omega⟩
  obtain ⟨val', sq', he, h1, h2⟩ := loop_inv v.toNat 15 (by omega) v.isLt v 0#32 h0
  refine ⟨sq'.toNat, by omega, h2, ?_⟩
  have hv := v.isLt
  have hs : sq'.toNat < 65536 := by
    by_contra hc
    have : 65536 * 65536 ≤ sq'.toNat * sq'.toNat := Nat.mul_le_mul (by omega) (by omega)
    omega
  simp only [sqrt, he, BitVec.lt_def]
  have e : v.toNat - sq'.toNat * sq'.toNat = val'.toNat := by omega
  rw [e]
  split
  · rw [if_neg (by omega), BitVec.toNat_add]
    simp only [BitVec.toNat_ofNat]
    omega
  · rw [if_pos (by omega)]

/-- C44, in whole numbers: `s` is the nearest integer to the root of `v`, `(s-1/2)² < v < (s+1/2)²`. -/
theorem C44_nearest (v : BitVec 32) :
    4 * v.toNat < (2 * (sqrt v).toNat + 1) ^ 2 ∧ ((sqrt v).toNat ≠ 0 → (2 * (sqrt v).toNat - 1) ^ 2 < 4 * v.toNat) := by
  obtain ⟨r, h1, h2, h3⟩ := sqrt_floor v
  rw [h3]
  generalize v.toNat = x at *
  have e2 : (r + 1) * (r + 1) = r * r + 2 * r + 1 := by ring
  split
  · constructor
    · have : (2 * r + 1) ^ 2 = 4 * (r * r) + 4 * r + 1 := by ring
      omega
    · intro hr
      obtain ⟨q, rfl⟩ : ∃ q, r = q + 1 := ⟨r - 1, by omega⟩
      have e1 : (2 * (q + 1) - 1) ^ 2 = 4 * (q * q) + 4 * q + 1 := by
        rw [show 2 * (q + 1) - 1 = 2 * q + 1 by omega]; ring
      have e3 : (q + 1) * (q + 1) = q * q + 2 * q + 1 := by ring
      omega
  · constructor
    · have : (2 * (r + 1) + 1) ^ 2 = 4 * (r * r) + 12 * r + 9 := by ring
      omega
    · intro _
      have : (2 * (r + 1) - 1) ^ 2 = 4 * (r * r) + 4 * r + 1 := by
        rw [show 2 * (r + 1) - 1 = 2 * r + 1 by omega]; ring
      omega

/-- C44: for every 32-bit number the result differs from the real square root by less than one half. -/
theorem C44_nearest_real (v : BitVec 32) : |((sqrt v).toNat : ℝ) - Real.sqrt v.toNat| < 1 / 2 := by
  obtain ⟨h1, h2⟩ := C44_nearest v
  generalize v.toNat = x at *
  generalize (sqrt v).toNat = s at *
  have hx : (0 : ℝ) ≤ x := Nat.cast_nonneg x
  rw [abs_sub_lt_iff]
  constructor
  · by_cases hs : s = 0
    · subst hs
      have := Real.sqrt_nonneg (x : ℝ)
      push_cast
      linarith
    · have h2 := h2 hs
      have : ((s : ℝ) - 1 / 2) < Real.sqrt x := by
        apply Real.lt_sqrt_of_sq_lt
        obtain ⟨q, rfl⟩ : ∃ q, s = q + 1 := ⟨s - 1, by omega⟩
        rw [show 2 * (q + 1) - 1 = 2 * q + 1 by omega] at h2
        have h2' : ((2 * q + 1 : ℕ) : ℝ) ^ 2 < 4 * (x : ℝ) := by exact_mod_cast h2
        push_cast at h2' ⊢
        nlinarith
      linarith
  · have : Real.sqrt x < (s : ℝ) + 1 / 2 := by
      rw [Real.sqrt_lt' (by positivity)]
      have h1' : 4 * (x : ℝ) < ((2 * s + 1 : ℕ) : ℝ) ^ 2 := by exact_mod_cast h1
      push_cast at h1'
      nlinarith
    linarith

/-- C44: a larger number never has a smaller result. -/
theorem C44_monotone (u v : BitVec 32) (h : u.toNat ≤ v.toNat) : (sqrt u).toNat ≤ (sqrt v).toNat := by
  obtain ⟨h1, _⟩ := C44_nearest v
  obtain ⟨_, h4⟩ := C44_nearest u
  by_contra hc
  have h4 := h4 (by omega)
  have : (2 * (sqrt v).toNat + 1) ^ 2 ≤ (2 * (sqrt u).toNat - 1) ^ 2 := Nat.pow_le_pow_left (by omega) 2
  omega

/-- C44: exact on squares. -/
theorem C44_square (v : BitVec 32) (r : Nat) (h : v.toNat = r * r) : (sqrt v).toNat = r := by
  obtain ⟨h1, h2⟩ := C44_nearest v
  generalize (sqrt v).toNat = s at *
  rw [h] at h1 h2
  by_contra hne
  rcases Nat.lt_or_gt_of_ne hne with hlt | hgt
  · have : (2 * s + 1) ^ 2 ≤ (2 * r - 1) ^ 2 := Nat.pow_le_pow_left (by omega) 2
    have h3 : (2 * r - 1) ^ 2 ≤ (2 * r) ^ 2 := Nat.pow_le_pow_left (by omega) 2
    have : (2 * r) ^ 2 = 4 * (r * r) := by ring
    omega
  · have h2 := h2 (by omega)
    have : (2 * r + 1) ^ 2 ≤ (2 * s - 1) ^ 2 := Nat.pow_le_pow_left (by omega) 2
    have : (2 * r + 1) ^ 2 = 4 * (r * r) + 4 * r + 1 := by ring
    omega

example : sqrt 4294967295#32 = 65536#32 := by decide +kernel
example : (sqrt 6#32, sqrt 7#32) = (2#32, 3#32) := by decide +kernel

/-! ## C45 -/

/-- The primes below 257. -/
def small : List Nat := [2, 3, 5, 7, 11, 13, 17, 19, 23, 29, 31, 37, 41, 43, 47, 53, 59, 61, 67, 71, 73, 79, 83, 89, 97, 101, 103,
  107, 109, 113, 127, 131, 137, 139, 149, 151, 157, 163, 167, 173, 179, 181, 191, 193, 197, 199, 211, 223, 227, 229, 233, 239,
  241, 251]

/-- Trial division. -/
def td (n : Nat) : Bool := Nat.ble 2 n && small.all (fun p => Nat.blt n (p * p) || !Nat.beq (n % p) 0)

theorem small_complete (p : Nat) (hp : p.Prime) (h : p < 257) : p ∈ small := by
  have key : ∀ p < 257, p ∉ small → (p < 2 ∨ ∃ d ∈ small, d < p ∧ p % d = 0) := by decide +kernel
  by_contra hn
  rcases key p h hn with h2 | ⟨d, hd, hlt, hm⟩
  · have := hp.two_le; omega
  · have hd2 : ∀ d ∈ small, 2 ≤ d := by decide
    have := hd2 d hd
    rcases (Nat.dvd_prime hp).1 (Nat.dvd_of_mod_eq_zero hm) with e | e <;> omega

theorem td_prime (n : Nat) (hn : n < 66049) : td n = true ↔ n.Prime := by
  have hs2 : ∀ d ∈ small, 2 ≤ d := by decide
  simp only [td, Bool.and_eq_true, List.all_eq_true, Bool.or_eq_true, Bool.not_eq_true', Nat.ble_eq, Nat.blt_eq]
  constructor
  · rintro ⟨h2, hall⟩
    by_contra hnp
    have hmf := Nat.minFac_prime (n := n) (by omega)
    have hsq := Nat.minFac_sq_le_self (by omega) hnp
    rw [sq] at hsq
    have hlt : n.minFac < 257 := by
      by_contra hc
      have : 257 * 257 ≤ n.minFac * n.minFac := Nat.mul_le_mul (by omega) (by omega)
      omega
    rcases hall _ (small_complete _ hmf hlt) with h | h
    · omega
    · have : n % n.minFac = 0 := Nat.mod_eq_zero_of_dvd (Nat.minFac_dvd n)
      rw [this] at h
      simp at h
  · intro hp
    refine ⟨hp.two_le, fun d hd => ?_⟩
    by_cases hlt : n < d * d
    · exact .inl hlt
    · right
      have h2 := hs2 d hd
      rw [Bool.eq_false_iff]
      intro hm
      have hm : n % d = 0 := Nat.eq_of_beq_eq_true hm
      rcases (Nat.dvd_prime hp).1 (Nat.dvd_of_mod_eq_zero hm) with e | e
      · omega
      · subst e
        have : d * 2 ≤ d * d := Nat.mul_le_mul_left d h2
        omega

example : (sqrt 10#32).toNat ≤ (sqrt 4294967295#32).toNat := C44_monotone _ _ (by decide)

end Verif.Prime
