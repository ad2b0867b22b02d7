import Verif.Model.FloatEq
import Verif.Props.FileSize
import Mathlib.Tactic.Ring
import Mathlib.Tactic.LinearCombination
import Mathlib.Tactic.ByContra

/-!
# C97: equality of floats up to a tolerance

All numbers are in units of 2^-1074, so 1e-6 is 2^1074 / 10^6.
-/

set_option linter.unusedSectionVars false

namespace Verif.FloatEq
open FileSize

/-! ## Rounding against a bound -/

theorem roundShift_lt (n k m : Nat) (hm : m % 2 = 1) (hk : 0 < k) : roundShift n k < m ↔ 2 * n ≤ (2 * m - 1) * 2 ^ k := by
  obtain ⟨k, rfl⟩ : ∃ j, k = j + 1 := ⟨k - 1, by omega⟩
  have hP : 2 ^ (k + 1) = 2 * 2 ^ k := by rw [Nat.pow_succ, Nat.mul_comm]
  have hpos : 0 < 2 ^ k := Nat.two_pow_pos k
  unfold roundShift
  rw [hP]
  generalize 2 ^ k = P at *
  have hd := Nat.div_add_mod n (2 * P)
  have hr := Nat.mod_lt n (show 0 < 2 * P by omega)
  generalize n / (2 * P) = q at *
  generalize n % (2 * P) = r at *
  obtain ⟨j, rfl⟩ : ∃ j, m = 2 * j + 1 := ⟨m / 2, by omega⟩
  have hq : ∀ a b : Nat, a ≤ b → P * a ≤ P * b := fun a b h => Nat.mul_le_mul_left P h
  have e1 : (2 * (2 * j + 1) - 1) * (2 * P) = 8 * (P * j) + 2 * P := by
    rw [show 2 * (2 * j + 1) - 1 = 4 * j + 1 by omega]; ring
  have e2 : 2 * n = 4 * (P * q) + 2 * r := by rw [← hd]; ring
  rw [e1, e2]
  have h1 : q ≤ 2 * j → P * q ≤ 2 * (P * j) := fun h => by have := hq _ _ h; rw [Nat.mul_left_comm] at this; omega
  have h2 : 2 * j + 1 ≤ q → 2 * (P * j) + P ≤ P * q := fun h => by
    have := hq _ _ h
    rw [Nat.mul_add, Nat.mul_left_comm, Nat.mul_one] at this; omega
  have h3 : q + 1 ≤ 2 * j → P * q + P ≤ 2 * (P * j) := fun h => by
    have := hq _ _ h
    rw [Nat.mul_add, Nat.mul_left_comm P 2, Nat.mul_one] at this; omega
  have h4 : q = 2 * j → P * q = 2 * (P * j) := fun h => by rw [h]; ring
  dsimp only
  by_cases c : q ≤ 2 * j
  · by_cases c2 : q = 2 * j
    · have := h4 c2
      split
      · omega
      · split
        · omega
        · rw [if_pos (by omega)]; omega
    · have := h3 (by omega)
      split
      · omega
      · split
        · omega
        · split <;> omega
  · have := h2 (by omega)
    split
    · omega
    · split
      · omega
      · split <;> omega

theorem toFloat_le_pow (n : Nat) : toFloat n ≤ 2 ^ (n.log2 + 1) := by
  have h1 : n < 2 ^ (n.log2 + 1) := Nat.lt_log2_self
  unfold toFloat
  dsimp only
  by_cases h : n.log2 < 52
  · rw [show n.log2 - 52 = 0 by omega, roundShift_zero, Nat.pow_zero, Nat.mul_one]
    omega
  · obtain ⟨k, hk⟩ : ∃ k, n.log2 = k + 52 := ⟨n.log2 - 52, by omega⟩
    rw [hk] at h1 ⊢
    rw [show k + 52 - 52 = k by omega]
    have hm := roundShift_mono k (show n ≤ 2 ^ 53 * 2 ^ k by
      rw [← Nat.pow_add, show 53 + k = k + 52 + 1 by omega]; omega)
    have he : roundShift (2 ^ 53 * 2 ^ k) k = 2 ^ 53 := by
      unfold roundShift
      rw [Nat.mul_div_cancel _ (Nat.two_pow_pos k), Nat.mul_mod_left]
      simp
    rw [he] at hm
    calc roundShift n k * 2 ^ k ≤ 2 ^ 53 * 2 ^ k := Nat.mul_le_mul_right _ hm
      _ = 2 ^ (k + 52 + 1) := by rw [← Nat.pow_add]; congr 1; omega

theorem pow_le_toFloat (n : Nat) (hn : n ≠ 0) : 2 ^ n.log2 ≤ toFloat n := by
  have h1 : 2 ^ n.log2 ≤ n := Nat.log2_self_le hn
  unfold toFloat
  dsimp only
  by_cases h : n.log2 < 52
  · rw [show n.log2 - 52 = 0 by omega, roundShift_zero, Nat.pow_zero, Nat.mul_one]
    exact h1
  · obtain ⟨k, hk⟩ : ∃ k, n.log2 = k + 52 := ⟨n.log2 - 52, by omega⟩
    rw [hk] at h1 ⊢
    rw [show k + 52 - 52 = k by omega]
    have hm := roundShift_mono k (show 2 ^ 52 * 2 ^ k ≤ n by rw [← Nat.pow_add, Nat.add_comm]; exact h1)
    have he : roundShift (2 ^ 52 * 2 ^ k) k = 2 ^ 52 := by
      unfold roundShift
      rw [Nat.mul_div_cancel _ (Nat.two_pow_pos k), Nat.mul_mod_left]
      simp
    rw [he] at hm
    calc 2 ^ (k + 52) = 2 ^ 52 * 2 ^ k := by rw [← Nat.pow_add]; congr 1; omega
      _ ≤ roundShift n k * 2 ^ k := Nat.mul_le_mul_right _ hm

/-- A rounded number is below an odd 53-bit multiple of `2^K` exactly when the number itself is at least half a unit
below it. -/
theorem toFloat_lt (n m K : Nat) (hK : 0 < K) (hm : m % 2 = 1) (h1 : 2 ^ 52 < m) (h2 : m < 2 ^ 53) :
    toFloat n < m * 2 ^ K ↔ 2 * n ≤ (2 * m - 1) * 2 ^ K := by
  by_cases hn : n = 0
  · subst hn
    have : toFloat 0 = 0 := by decide
    rw [this]
    simp only [Nat.mul_zero, Nat.zero_le, iff_true]
    exact Nat.mul_pos (by omega) (Nat.two_pow_pos K)
  have hlo : 2 ^ n.log2 ≤ n := Nat.log2_self_le hn
  have hhi : n < 2 ^ (n.log2 + 1) := Nat.lt_log2_self
  have hb1 : (2 ^ 52 + 1) * 2 ^ K ≤ m * 2 ^ K := Nat.mul_le_mul_right _ (by omega)
  have hb2 : (m + 1) * 2 ^ K ≤ 2 ^ 53 * 2 ^ K := Nat.mul_le_mul_right _ (by omega)
  have hP := Nat.two_pow_pos K
  have e53 : 2 ^ 53 * 2 ^ K = 2 ^ (K + 53) := by rw [← Nat.pow_add, Nat.add_comm]
  have e52 : 2 ^ 52 * 2 ^ K = 2 ^ (K + 52) := by rw [← Nat.pow_add, Nat.add_comm]
  have e0 : (2 * m - 1) * 2 ^ K = 2 * (m * 2 ^ K) - 2 ^ K := by
    rw [Nat.sub_mul, Nat.one_mul, Nat.mul_assoc]
  rw [Nat.add_mul, Nat.one_mul] at hb1 hb2
  rcases Nat.lt_trichotomy n.log2 (K + 52) with h | h | h
  · have a := toFloat_le_pow n
    have b : 2 ^ (n.log2 + 1) ≤ 2 ^ (K + 52) := Nat.pow_le_pow_right (by omega) h
    constructor
    · intro; omega
    · intro; omega
  · have : toFloat n = roundShift n K * 2 ^ K := by unfold toFloat; rw [h, show K + 52 - 52 = K by omega]
    rw [this, Nat.mul_lt_mul_right hP, roundShift_lt n K m hm hK]
  · have a := pow_le_toFloat n hn
    have b : 2 ^ (K + 53) ≤ 2 ^ n.log2 := Nat.pow_le_pow_right (by omega) h
    constructor
    · intro; omega
    · intro; omega

/-! ## C97 -/

theorem sub_fin (a b : Int) : sub (.fin a) (.fin b) = round (a - b) := rfl

theorem lt_abs_fin (x : Int) (C : Nat) : lt (abs (.fin x)) (.fin (C : Int)) = true ↔ x.natAbs < C := by
  show decide (((x.natAbs : Nat) : Int) < (C : Int)) = true ↔ _
  rw [decide_eq_true_iff]
  exact Int.ofNat_lt

theorem epslon_eq : epslon = .fin ((0x10C6F7A0B5ED8D * 2 ^ 1002 : Nat) : Int) := by
  unfold epslon
  rw [Int.natCast_mul, Int.natCast_pow]
  rfl

theorem equal_fin (a b : Int) :
    equal (.fin a) (.fin b) = true ↔ toFloat (a - b).natAbs < 0x10C6F7A0B5ED8D * 2 ^ 1002 := by
  have hbig : 0x10C6F7A0B5ED8D * 2 ^ 1002 ≤ 2 ^ 2098 := by decide +kernel
  unfold equal
  rw [sub_fin, epslon_eq]
  unfold round
  generalize toFloat (a - b).natAbs = r
  generalize 0x10C6F7A0B5ED8D * 2 ^ 1002 = C at *
  generalize 2 ^ 2098 = B at *
  dsimp only
  by_cases h : B ≤ r
  · rw [if_pos h]
    constructor
    · intro e; cases e
    · intro e; omega
  · rw [if_neg h, lt_abs_fin]
    split <;> simp

/-- **C97** For finite numbers: equal means exactly that the distance is at most the constant (the float nearest to 1e-6)
less half a unit of its last place. -/
theorem C97_exact (a b : Int) :
    equal (.fin a) (.fin b) = true ↔ 2 * (a - b).natAbs ≤ (2 * 0x10C6F7A0B5ED8D - 1) * 2 ^ 1002 := by
  rw [equal_fin]
  exact toFloat_lt _ _ 1002 (by decide) (by decide) (by decide) (by decide)

/-- **C97** In terms of 1e-6: numbers said to be equal are less than 1e-6 apart; numbers that are at most
1e-6 (1 - 2^-52) apart are said to be equal. -/
theorem C97_tolerance (a b : Int) :
    (equal (.fin a) (.fin b) = true → 10 ^ 6 * (a - b).natAbs < 2 ^ 1074) ∧
    (10 ^ 6 * (a - b).natAbs ≤ 2 ^ 1074 - 2 ^ 1022 → equal (.fin a) (.fin b) = true) := by
  rw [C97_exact]
  generalize (a - b).natAbs = d
  have h1 : 10 ^ 6 * ((2 * 0x10C6F7A0B5ED8D - 1) * 2 ^ 1002) < 2 * 2 ^ 1074 := by decide +kernel
  have h2 : 2 * (2 ^ 1074 - 2 ^ 1022) ≤ 10 ^ 6 * ((2 * 0x10C6F7A0B5ED8D - 1) * 2 ^ 1002) := by decide +kernel
  generalize (2 * 0x10C6F7A0B5ED8D - 1) * 2 ^ 1002 = c at *
  generalize 2 ^ 1074 - 2 ^ 1022 = x at *
  generalize 2 ^ 1074 = y at *
  constructor <;> intro h <;> omega

/-- **C97** Equality up to the tolerance is symmetric, for all floats. -/
theorem C97_symm (a b : F64) : equal a b = equal b a := by
  have key : ∀ x y : Int, equal (.fin x) (.fin y) = true → equal (.fin y) (.fin x) = true := by
    intro x y h
    rw [C97_exact] at *
    rwa [show (y - x).natAbs = (x - y).natAbs by omega]
  cases a with
  | fin x =>
    cases b with
    | fin y => exact Bool.eq_iff_iff.2 ⟨key x y, key y x⟩
    | inf t => cases t <;> rfl
    | nan => rfl
  | inf s =>
    cases b with
    | fin y => cases s <;> rfl
    | inf t => cases s <;> cases t <;> rfl
    | nan => rfl
  | nan => cases b <;> rfl

/-- **C97** (partial: finite numbers only) A number equals itself; that an infinity equals itself is false of the code, as
is every comparison with an infinity or with something that is not a number. -/
theorem C97_refl_partial (a b : F64) :
    (equal a a = true ↔ ∃ k, a = .fin k) ∧ (equal a b = true → ∃ x y, a = .fin x ∧ b = .fin y) := by
  constructor
  · cases a with
    | fin k =>
      refine ⟨fun _ => ⟨k, rfl⟩, fun _ => ?_⟩
      rw [C97_exact, Int.sub_self, Int.natAbs_zero]
      exact Nat.zero_le _
    | inf s => cases s <;> exact ⟨fun h => (by cases h), fun ⟨_, h⟩ => (by cases h)⟩
    | nan => exact ⟨fun h => (by cases h), fun ⟨_, h⟩ => (by cases h)⟩
  · intro h
    cases a with
    | fin x =>
      cases b with
      | fin y => exact ⟨x, y, rfl, rfl⟩
      | inf t => cases t <;> cases h
      | nan => cases h
    | inf s =>
      cases b with
      | fin y => cases s <;> cases h
      | inf t => cases s <;> cases t <;> cases h
      | nan => cases s <;> cases h
    | nan => cases b <;> cases h

/-- **C97** Equality of infinities is false of the code. -/
theorem C97_inf_false (s : Bool) : equal (.inf s) (.inf s) = false := by cases s <;> rfl

theorem rep_multiple (K : Nat) {k : Int} (h : Rep k) (hb : 2 ^ (K + 52) ≤ k.natAbs) : ∃ j : Int, k = j * 2 ^ K := by
  obtain ⟨m, e, rfl, hm, -⟩ := h
  have hp := Nat.two_pow_pos e
  rw [Int.natAbs_mul, Int.natAbs_pow] at hb
  have he : K ≤ e := by
    by_contra hlt
    have h1 : m.natAbs * 2 ^ e < 2 ^ 53 * 2 ^ e := (Nat.mul_lt_mul_right hp).2 hm
    have h2 : 2 ^ 53 * 2 ^ e = 2 ^ (e + 53) := by rw [← Nat.pow_add, Nat.add_comm]
    have h3 : 2 ^ (e + 53) ≤ 2 ^ (K + 52) := Nat.pow_le_pow_right (by omega) (by omega)
    have h4 : (2 : Int).natAbs = 2 := rfl
    rw [h4] at hb
    omega
  refine ⟨m * 2 ^ (e - K), ?_⟩
  rw [Int.mul_assoc, ← Int.pow_add, show e - K + K = e by omega]

/-- **C97** Large numbers, from 2^33 on, are equal only if they are the same: neighbouring floats are further apart than
the tolerance. -/
theorem C97_large (a b : Int) (ha : Rep a) (hb : Rep b) (h1 : 2 ^ (1055 + 52) ≤ a.natAbs) (h2 : 2 ^ (1055 + 52) ≤ b.natAbs) :
    equal (.fin a) (.fin b) = true ↔ a = b := by
  constructor
  · intro h
    rw [C97_exact] at h
    obtain ⟨i, hi⟩ := rep_multiple 1055 ha h1
    obtain ⟨j, hj⟩ := rep_multiple 1055 hb h2
    have e : (a - b).natAbs = (i - j).natAbs * 2 ^ 1055 := by
      rw [hi, hj, ← Int.sub_mul, Int.natAbs_mul, Int.natAbs_pow]; rfl
    have hc : (2 * 0x10C6F7A0B5ED8D - 1) * 2 ^ 1002 < 2 * 2 ^ 1055 := by decide +kernel
    rw [e] at h
    by_contra hne
    have hij : i ≠ j := fun c => hne (by rw [hi, hj, c])
    have : 1 ≤ (i - j).natAbs := by omega
    have h3 := Nat.mul_le_mul_right (2 ^ 1055) this
    rw [Nat.one_mul] at h3
    generalize (2 * 0x10C6F7A0B5ED8D - 1) * 2 ^ 1002 = c at *
    generalize (i - j).natAbs * 2 ^ 1055 = d at *
    generalize 2 ^ 1055 = y at *
    omega
  · rintro rfl
    exact (C97_refl_partial (.fin a) (.fin a)).1.2 ⟨a, rfl⟩

/-- **C97** Small numbers, below 4e-7 in size, are all equal to each other, also when one is many times the other. -/
theorem C97_small (a b : Int) (ha : 10 ^ 7 * a.natAbs ≤ 4 * 2 ^ 1074) (hb : 10 ^ 7 * b.natAbs ≤ 4 * 2 ^ 1074) :
    equal (.fin a) (.fin b) = true := by
  apply (C97_tolerance a b).2
  have h : (a - b).natAbs ≤ a.natAbs + b.natAbs := by omega
  have hc : 8 * 2 ^ 1074 ≤ 10 * (2 ^ 1074 - 2 ^ 1022) := by decide +kernel
  generalize 2 ^ 1074 - 2 ^ 1022 = x at *
  generalize 2 ^ 1074 = y at *
  generalize (a - b).natAbs = d at *
  generalize a.natAbs = p at *
  generalize b.natAbs = q at *
  omega

/-- **C97** The bound of `C97_large` is exact: the float before 2^33 is equal to it. -/
theorem C97_large_exact : Rep (2 ^ 1107 - 2 ^ 1054) ∧ equal (.fin (2 ^ 1107)) (.fin (2 ^ 1107 - 2 ^ 1054)) = true := by
  refine ⟨⟨2 ^ 53 - 1, 1054, by decide +kernel, by decide +kernel, by decide +kernel⟩, by decide +kernel⟩

/-- **C97** Numbers between two equal numbers are equal. -/
theorem C97_between (a b c d : Int) (h1 : a ≤ b) (h2 : b ≤ c) (h3 : c ≤ d) (h : equal (.fin a) (.fin d) = true) :
    equal (.fin b) (.fin c) = true := by
  rw [C97_exact] at *
  have : (b - c).natAbs ≤ (a - d).natAbs := by omega
  exact Nat.le_trans (Nat.mul_le_mul_left 2 this) h

example : ∃ a b c d : Int, a < b ∧ b < c ∧ c < d ∧ equal (.fin a) (.fin d) = true :=
  ⟨2 ^ 1074, 2 ^ 1074 + 2 ^ 1022, 2 ^ 1074 + 2 ^ 1023, 2 ^ 1074 + 2 ^ 1024, by decide +kernel, by decide +kernel, by decide +kernel,
    by decide +kernel⟩

/-- **C97** Equality up to the tolerance is not transitive: from every multiple of 2^-20 below 2^32 two steps of 2^-20,
each between equal numbers, lead to a number that is not equal to it. -/
theorem C97_transitive_false (j : Int) (hj : j.natAbs < 2 ^ 52) :
    ∃ a b c, a = j * 2 ^ 1054 ∧ Rep a ∧ Rep b ∧ Rep c ∧ equal (.fin a) (.fin b) = true ∧
      equal (.fin b) (.fin c) = true ∧ equal (.fin a) (.fin c) = false := by
  have hd : ∃ d : Nat, d = 2 ^ 1054 ∧ 2 * d ≤ (2 * 0x10C6F7A0B5ED8D - 1) * 2 ^ 1002 ∧
      (2 * 0x10C6F7A0B5ED8D - 1) * 2 ^ 1002 < 2 * (d + d) ∧ 2 ^ 53 * d ≤ 2 ^ 2098 :=
    ⟨2 ^ 1054, rfl, by decide +kernel, by decide +kernel, by decide +kernel⟩
  obtain ⟨d, e, h1, h2, h3⟩ := hd
  have e' : (2 : Int) ^ 1054 = (d : Int) := by rw [e, Int.natCast_pow]; rfl
  have hp : 0 < d := by rw [e]; exact Nat.two_pow_pos _
  have hr : ∀ i : Int, i.natAbs < 2 ^ 53 → Rep (i * d) := by
    intro i hi
    refine ⟨i, 1054, by rw [e'], hi, ?_⟩
    rw [Int.natAbs_mul, Int.natAbs_natCast]
    exact Nat.lt_of_lt_of_le ((Nat.mul_lt_mul_right hp).2 hi) h3
  have e1 : (j + 1) * (d : Int) = j * d + d := by ring
  have e2 : (j + 2) * (d : Int) = j * d + d + d := by ring
  refine ⟨j * d, (j + 1) * d, (j + 2) * d, by rw [e'], hr _ (by omega), hr _ (by omega), hr _ (by omega), ?_, ?_, ?_⟩
  · rw [C97_exact, e1]
    generalize j * (d : Int) = a
    rw [show (a - (a + d)).natAbs = d by omega]; exact h1
  · rw [C97_exact, e1, e2]
    generalize j * (d : Int) = a
    rw [show (a + d - (a + d + d)).natAbs = d by omega]; exact h1
  · rw [Bool.eq_false_iff, Ne, C97_exact, e2]
    generalize j * (d : Int) = a
    rw [show (a - (a + d + d)).natAbs = d + d by omega]
    exact Nat.not_le.2 h2

/-- The constant is the float nearest to 1e-6: half a unit of its last place is more than its error. -/
example : 2 * (2 ^ 72 - 0x10C6F7A0B5ED8D * 10 ^ 6) < 10 ^ 6 := by decide

/-- 1 and 1 + 2^-20 are equal, 1 and 1 + 2^-19 are not. -/
example : equal (.fin (2 ^ 1074)) (.fin (2 ^ 1074 + 2 ^ 1054)) = true ∧
    equal (.fin (2 ^ 1074)) (.fin (2 ^ 1074 + 2 ^ 1055)) = false := by decide +kernel

/-- The two neighbours 2^33 and 2^33 + 2^-19 meet the hypotheses of `C97_large`. -/
example : Rep (2 ^ 1107) ∧ Rep (2 ^ 1107 + 2 ^ 1055) :=
  ⟨⟨1, 1107, by decide +kernel, by decide +kernel, by decide +kernel⟩,
    ⟨2 ^ 52 + 1, 1055, by decide +kernel, by decide +kernel, by decide +kernel⟩⟩

example : equal (.fin (2 ^ 1052)) (.fin (-2 ^ 1052)) = true := C97_small _ _ (by decide +kernel) (by decide +kernel)

end Verif.FloatEq
