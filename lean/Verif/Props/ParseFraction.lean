import Verif.Model.ParseFraction
import Verif.Lemmas.Rounding
import Verif.Props.ParseTerms
import Mathlib.Data.Nat.Log
/-!
# Fractions of any length (C109)
-/

set_option linter.unusedSectionVars false

namespace Verif.Duration

open DurationFloat
open Spec (Term)

/-! ## Floating point -/

theorem rnd_le {q : ℚ} (h : 0 ≤ q) : rnd q ≤ q * (1 + 1 / 2 ^ 53) := by
  have := rnd_err q
  rw [abs_of_nonneg h, abs_le] at this
  linarith [this.2]

theorem le_rnd {q : ℚ} (h : 0 ≤ q) : q * (1 - 1 / 2 ^ 53) ≤ rnd q := by
  have := rnd_err q
  rw [abs_of_nonneg h, abs_le] at this
  linarith [this.1]

theorem rnd_nat {n : Nat} (h : n < 2 ^ 53) : rnd (n : ℚ) = n := by
  have := toF_exact (n := (n : Int)) (by rw [abs_of_nonneg (by omega)]; omega)
  simpa [toF] using this

theorem toF_nat {n : Nat} (h : n < 2 ^ 53) : toF (n : Int) = n := by
  have := rnd_nat h
  simpa [toF] using this

theorem scale64_exact : ∀ k, 10 ^ k < 2 ^ 53 → scale64 k = ((10 ^ k : Nat) : ℚ)
  | 0, _ => by simp [scale64]
  | k + 1, h => by
    have h1 : 10 ^ k < 2 ^ 53 := lt_of_le_of_lt (Nat.pow_le_pow_right (by decide) (Nat.le_succ k)) h
    rw [scale64, scale64_exact k h1, ← rnd_nat h]
    congr 1
    push_cast
    ring

theorem product64_exact (f q k : Nat) (h1 : 10 ^ k < 2 ^ 53) (h2 : q * 10 ^ k < 2 ^ 53) (h3 : f * q < 2 ^ 53) :
    product64 f (q * 10 ^ k) k = ((f * q : Nat) : ℚ) := by
  have hp : (0 : ℚ) < ((10 ^ k : Nat) : ℚ) := by exact_mod_cast Nat.pow_pos (by decide)
  have hq : q < 2 ^ 53 := lt_of_le_of_lt (Nat.le_mul_of_pos_right _ (Nat.pow_pos (by decide))) h2
  have hd : rnd (toF ((q * 10 ^ k : Nat) : Int) / scale64 k) = q := by
    rw [toF_nat h2, scale64_exact k h1, Nat.cast_mul, mul_div_cancel_right₀ _ hp.ne', rnd_nat hq]
  rw [product64, hd]
  rcases Nat.eq_zero_or_pos q with z | z
  · subst z; simp [rnd_zero]
  · have hf : f < 2 ^ 53 := lt_of_le_of_lt (Nat.le_mul_of_pos_right _ z) h3
    rw [toF_nat hf, ← rnd_nat h3]
    congr 1
    push_cast
    rfl

/-- The computation of the library satisfies the law of the parameter of the model. -/
def FracMul.float64 : FracMul where
  mul := mul64
  exact f q k h1 h2 h3 := by
    rw [mul64, Nat.log_pow (by decide), product64_exact f q k h1 h2 h3, Int.floor_natCast]
    rfl

theorem scale64_bounds : ∀ k, ((10 : ℚ) ^ k) * (1 - 1 / 2 ^ 53) ^ k ≤ scale64 k ∧ scale64 k ≤ 10 ^ k * (1 + 1 / 2 ^ 53) ^ k
  | 0 => by simp [scale64]
  | k + 1 => by
    obtain ⟨h1, h2⟩ := scale64_bounds k
    have e1 : (0 : ℚ) < 1 - 1 / 2 ^ 53 := by norm_num
    have e2 : (0 : ℚ) < 1 + 1 / 2 ^ 53 := by norm_num
    have h0 : 0 ≤ scale64 k := le_trans (by positivity) h1
    have a := rnd_le (q := scale64 k * 10) (by positivity)
    have b := le_rnd (q := scale64 k * 10) (by positivity)
    rw [scale64]
    constructor
    · refine le_trans ?_ b
      calc (10 : ℚ) ^ (k + 1) * (1 - 1 / 2 ^ 53) ^ (k + 1) = (10 ^ k * (1 - 1 / 2 ^ 53) ^ k) * 10 * (1 - 1 / 2 ^ 53) := by ring
        _ ≤ _ := by gcongr
    · refine le_trans a ?_
      calc scale64 k * 10 * (1 + 1 / 2 ^ 53) ≤ (10 ^ k * (1 + 1 / 2 ^ 53) ^ k) * 10 * (1 + 1 / 2 ^ 53) := by gcongr
        _ = _ := by ring

/-- Error of the product of a fraction `f / 10 ^ k` and a unit. -/
theorem product64_bounds (f u k : Nat) (hu : u < 2 ^ 53) :
    (f : ℚ) * u / 10 ^ k * ((1 - 1 / 2 ^ 53) ^ 3 / (1 + 1 / 2 ^ 53) ^ k) ≤ product64 f u k ∧
    product64 f u k ≤ (f : ℚ) * u / 10 ^ k * ((1 + 1 / 2 ^ 53) ^ 3 / (1 - 1 / 2 ^ 53) ^ k) := by
  have e1 : (0 : ℚ) < 1 - 1 / 2 ^ 53 := by norm_num
  have e2 : (0 : ℚ) < 1 + 1 / 2 ^ 53 := by norm_num
  generalize hlo : (1 - 1 / 2 ^ 53 : ℚ) = lo at *
  generalize hhi : (1 + 1 / 2 ^ 53 : ℚ) = hi at *
  have le : ∀ {q : ℚ}, 0 ≤ q → rnd q ≤ q * hi := fun h => by rw [← hhi]; exact rnd_le h
  have ge : ∀ {q : ℚ}, 0 ≤ q → q * lo ≤ rnd q := fun h => by rw [← hlo]; exact le_rnd h
  have hs : (10 : ℚ) ^ k * lo ^ k ≤ scale64 k ∧ scale64 k ≤ 10 ^ k * hi ^ k := by
    rw [← hlo, ← hhi]; exact scale64_bounds k
  have hs0 : 0 < scale64 k := lt_of_lt_of_le (by positivity) hs.1
  have hu1 : toF (u : Int) = u := toF_nat hu
  have hf1 : toF (f : Int) = rnd (f : ℚ) := by simp [toF]
  have hf0 : (0 : ℚ) ≤ f := Nat.cast_nonneg f
  have hu0 : (0 : ℚ) ≤ u := Nat.cast_nonneg u
  have hq0 : 0 ≤ (u : ℚ) / scale64 k := by positivity
  have hr0 : 0 ≤ rnd (f : ℚ) := rnd_nonneg hf0
  have hr1 : 0 ≤ rnd ((u : ℚ) / scale64 k) := rnd_nonneg hq0
  rw [product64, hu1, hf1]
  constructor
  · calc (f : ℚ) * u / 10 ^ k * (lo ^ 3 / hi ^ k) = (f * lo) * (u / (10 ^ k * hi ^ k) * lo) * lo := by
          field_simp
      _ ≤ (f * lo) * (u / scale64 k * lo) * lo := by
          gcongr
          exact hs.2
      _ ≤ rnd f * rnd (u / scale64 k) * lo := by
          gcongr
          · exact ge hf0
          · exact ge hq0
      _ ≤ _ := ge (mul_nonneg hr0 hr1)
  · calc rnd (rnd f * rnd (u / scale64 k)) ≤ rnd f * rnd (u / scale64 k) * hi := le (mul_nonneg hr0 hr1)
      _ ≤ (f * hi) * (u / scale64 k * hi) * hi := by
          gcongr
          · exact le hf0
          · exact le hq0
      _ ≤ (f * hi) * (u / (10 ^ k * lo ^ k) * hi) * hi := by
          gcongr
          exact hs.1
      _ = _ := by field_simp

theorem product64_nonneg (f u k : Nat) (hu : u < 2 ^ 53) : 0 ≤ product64 f u k := by
  have e1 : (0 : ℚ) < 1 - 1 / 2 ^ 53 := by norm_num
  exact le_trans (by positivity) (product64_bounds f u k hu).1

/-- Up to 44 digits the error is below a thirtieth of a nanosecond. -/
theorem product64_short (f u k : Nat) (hu : u ≤ 3600000000000) (hk : k ≤ 44) (hf : f < 10 ^ k) :
    |product64 f u k - (f : ℚ) * u / 10 ^ k| ≤ 1 / 32 := by
  obtain ⟨h1, h2⟩ := product64_bounds f u k (by omega)
  have hx0 : 0 ≤ (f : ℚ) * u / 10 ^ k := by positivity
  have hx : (f : ℚ) * u / 10 ^ k ≤ 3600000000000 := by
    rw [div_le_iff₀ (by positivity)]
    have hf' : (f : ℚ) ≤ 10 ^ k := by exact_mod_cast hf.le
    have hu' : (u : ℚ) ≤ 3600000000000 := by exact_mod_cast hu
    calc (f : ℚ) * u ≤ 10 ^ k * 3600000000000 := by gcongr
      _ = _ := by ring
  have e1 : (0 : ℚ) < 1 - 1 / 2 ^ 53 := by norm_num
  have lo : 1 - 1 / 2 ^ 47 ≤ (1 - 1 / 2 ^ 53 : ℚ) ^ 3 / (1 + 1 / 2 ^ 53) ^ k := by
    rw [le_div_iff₀ (by positivity)]
    calc (1 - 1 / 2 ^ 47 : ℚ) * (1 + 1 / 2 ^ 53) ^ k ≤ (1 - 1 / 2 ^ 47 : ℚ) * (1 + 1 / 2 ^ 53) ^ 44 := by
          have : (1 + 1 / 2 ^ 53 : ℚ) ^ k ≤ (1 + 1 / 2 ^ 53) ^ 44 := pow_le_pow_right₀ (by norm_num) hk
          have h0 : (0 : ℚ) ≤ 1 - 1 / 2 ^ 47 := by norm_num
          exact mul_le_mul_of_nonneg_left this h0
      _ ≤ _ := by norm_num
  have hi : (1 + 1 / 2 ^ 53 : ℚ) ^ 3 / (1 - 1 / 2 ^ 53) ^ k ≤ 1 + 1 / 2 ^ 47 := by
    rw [div_le_iff₀ (by positivity)]
    calc (1 + 1 / 2 ^ 53 : ℚ) ^ 3 ≤ (1 + 1 / 2 ^ 47) * (1 - 1 / 2 ^ 53) ^ 44 := by norm_num
      _ ≤ _ := by
          have : (1 - 1 / 2 ^ 53 : ℚ) ^ 44 ≤ (1 - 1 / 2 ^ 53) ^ k := pow_le_pow_of_le_one e1.le (by norm_num) hk
          have h0 : (0 : ℚ) ≤ 1 + 1 / 2 ^ 47 := by norm_num
          exact mul_le_mul_of_nonneg_left this h0
  have h1' := le_trans (mul_le_mul_of_nonneg_left lo hx0) h1
  have h2' := le_trans h2 (mul_le_mul_of_nonneg_left hi hx0)
  generalize (f : ℚ) * u / 10 ^ k = x at *
  have hd : x * (1 / 2 ^ 47) ≤ 1 / 32 := by
    calc x * (1 / 2 ^ 47) ≤ 3600000000000 * (1 / 2 ^ 47) := by gcongr
      _ ≤ _ := by norm_num
  rw [abs_le]
  constructor <;> linarith

/-- Beyond, the product is below one, as it should be. -/
theorem product64_long (f u k : Nat) (hu : u ≤ 3600000000000) (hk : 44 < k) (hf : f ≤ 2 ^ 63) :
    product64 f u k < 1 ∧ (f : ℚ) * u / 10 ^ k ≤ 1 / 32 := by
  obtain ⟨-, h2⟩ := product64_bounds f u k (by omega)
  have hfu : (f : ℚ) * u ≤ 2 ^ 63 * 3600000000000 := by
    have hf' : (f : ℚ) ≤ 2 ^ 63 := by exact_mod_cast hf
    have hu' : (u : ℚ) ≤ 3600000000000 := by exact_mod_cast hu
    gcongr
  have h9 : (9 : ℚ) ^ 45 ≤ 9 ^ k := pow_le_pow_right₀ (by norm_num) hk
  have h10 : (10 : ℚ) ^ 45 ≤ 10 ^ k := pow_le_pow_right₀ (by norm_num) hk
  constructor
  · refine lt_of_le_of_lt h2 ?_
    have e : (f : ℚ) * u / 10 ^ k * ((1 + 1 / 2 ^ 53) ^ 3 / (1 - 1 / 2 ^ 53) ^ k) =
        (f * u) * (1 + 1 / 2 ^ 53) ^ 3 / (10 * (1 - 1 / 2 ^ 53)) ^ k := by
      rw [mul_pow, div_mul_div_comm]
    rw [e]
    have h : (9 : ℚ) ^ k ≤ (10 * (1 - 1 / 2 ^ 53)) ^ k := pow_le_pow_left₀ (by norm_num) (by norm_num) k
    have hpos : (0 : ℚ) < (10 * (1 - 1 / 2 ^ 53)) ^ k := lt_of_lt_of_le (by positivity) h
    rw [div_lt_one hpos]
    refine lt_of_lt_of_le ?_ (h9.trans h)
    calc (f : ℚ) * u * (1 + 1 / 2 ^ 53) ^ 3 ≤ 2 ^ 63 * 3600000000000 * (1 + 1 / 2 ^ 53) ^ 3 := by gcongr
      _ < _ := by norm_num
  · rw [div_le_iff₀ (by positivity)]
    refine le_trans hfu ?_
    calc (2 : ℚ) ^ 63 * 3600000000000 ≤ 1 / 32 * 10 ^ 45 := by norm_num
      _ ≤ _ := by gcongr

/-- The nanoseconds of a fraction. -/
theorem mul64_near (f u k : Nat) (hu : u ≤ 3600000000000) (hf : f < 10 ^ k) (hf63 : f ≤ 2 ^ 63) :
    (mul64 f u (10 ^ k) : ℚ) ≤ (f : ℚ) * u / 10 ^ k + 1 / 32 ∧ (f : ℚ) * u / 10 ^ k < mul64 f u (10 ^ k) + 1 + 1 / 32 := by
  have h0 := product64_nonneg f u k (by omega)
  have hx0 : 0 ≤ (f : ℚ) * u / 10 ^ k := by positivity
  have hm : ((mul64 f u (10 ^ k) : Nat) : ℚ) = (⌊product64 f u k⌋ : ℚ) := by
    rw [mul64, Nat.log_pow (by decide)]
    have : ((⌊product64 f u k⌋.toNat : Nat) : Int) = ⌊product64 f u k⌋ := Int.toNat_of_nonneg (Int.floor_nonneg.2 h0)
    exact_mod_cast congrArg (Int.cast : Int → ℚ) this
  rw [hm]
  have a := Int.floor_le (product64 f u k)
  have b := Int.lt_floor_add_one (product64 f u k)
  by_cases hk : k ≤ 44
  · have := product64_short f u k hu hk hf
    rw [abs_le] at this
    constructor <;> linarith [this.1, this.2]
  · obtain ⟨h1, h2⟩ := product64_long f u k hu (by omega) hf63
    have hz : ⌊product64 f u k⌋ = 0 := Int.floor_eq_zero_iff.2 ⟨h0, h1⟩
    rw [hz]
    constructor
    · simp; linarith
    · simp; linarith

/-! ## Digits -/

theorem dec_append (a : List Char) : ∀ b : List Char, Spec.dec (a ++ b) = Spec.dec a * 10 ^ b.length + Spec.dec b := by
  intro b
  induction b using List.reverseRecOn with
  | nil => simp [Spec.dec]
  | append_singleton l c ih =>
    rw [← List.append_assoc, dec_snoc, dec_snoc, ih, List.length_append, List.length_singleton, Nat.pow_succ]
    ring

/-- The digits that are left out make the fraction smaller, by less than one in the last digit kept. -/
theorem dec_take (ds : List Char) (hd : ∀ c ∈ ds, digit c = true) (k : Nat) (hk : k ≤ ds.length) :
    (Spec.dec (ds.take k) : ℚ) / 10 ^ k ≤ Spec.dec ds / 10 ^ ds.length ∧
    (Spec.dec ds : ℚ) / 10 ^ ds.length < Spec.dec (ds.take k) / 10 ^ k + 1 / 10 ^ k := by
  have e := dec_append (ds.take k) (ds.drop k)
  rw [List.take_append_drop, List.length_drop] at e
  have hlt := dec_lt (ds.drop k) fun c hc => hd c (List.mem_of_mem_drop hc)
  rw [List.length_drop] at hlt
  have hp : (10 : ℚ) ^ ds.length = 10 ^ k * 10 ^ (ds.length - k) := by rw [← pow_add]; congr 1; omega
  have hlt' : (Spec.dec (ds.drop k) : ℚ) < 10 ^ (ds.length - k) := by exact_mod_cast hlt
  have e' : (Spec.dec ds : ℚ) = Spec.dec (ds.take k) * 10 ^ (ds.length - k) + Spec.dec (ds.drop k) := by exact_mod_cast e
  rw [hp, e']
  have h1 : (0 : ℚ) < 10 ^ k := by positivity
  have h2 : (0 : ℚ) < 10 ^ (ds.length - k) := by positivity
  have h3 : (0 : ℚ) ≤ Spec.dec (ds.drop k) := Nat.cast_nonneg _
  generalize (10 : ℚ) ^ (ds.length - k) = w at *
  generalize (10 : ℚ) ^ k = z at *
  have ez : ∀ a : ℚ, a / z = a * w / (z * w) := fun a => by field_simp
  constructor
  · rw [ez]
    gcongr
    linarith
  · rw [← add_div, ez]
    gcongr
    linarith

/-! ## The property -/

/-- The value of a term in nanoseconds, when its unit has `u`. -/
def Spec.Term.value (t : Term) (u : Nat) : ℚ := (Spec.dec t.int + Spec.dec t.fracDigits / 10 ^ t.fracDigits.length) * u

/-- `n` nanoseconds are at most a thirtieth of a nanosecond above the value of the term and at most 1 1/30 below it. -/
def Spec.Term.Near (t : Term) (n : Nat) : Prop :=
  ∃ u, (t.unit, u) ∈ Term.units ∧ (n : ℚ) ≤ t.value u + 1 / 30 ∧ t.value u < n + 1 + 1 / 30

theorem read_fraction (t : Term) (h : t.IsNumber) (u : Nat) (hu : (t.unit, u) ∈ Term.units) :
    ∃ n, Reads FracMul.float64 t n ∧ t.Near n := by
  have hd : ∀ c ∈ t.fracDigits, digit c = true := fun c hc => digit_mem (h.frac c hc)
  obtain ⟨k, hk, hread, h63, hnext⟩ := C105_long_fraction t.fracDigits h.frac
  obtain ⟨-, -, hu0, hu1⟩ := unit_table hu
  refine ⟨_, chunk_unit FracMul.float64 t h u hu _ _ hread, u, hu, ?_⟩
  have hlt := dec_lt (t.fracDigits.take k) fun c hc => hd c (List.mem_of_mem_take hc)
  rw [List.length_take_of_le hk] at hlt
  obtain ⟨d1, d2⟩ := dec_take t.fracDigits hd k hk
  have hn := mul64_near (Spec.dec (t.fracDigits.take k)) u k hu1 hlt h63
  have hu0' : (0 : ℚ) < u := by exact_mod_cast hu0
  have hu1' : (u : ℚ) ≤ 3600000000000 := by exact_mod_cast hu1
  -- the digits that are left out
  have hcut : (Spec.dec t.fracDigits : ℚ) / 10 ^ t.fracDigits.length * u ≤
      Spec.dec (t.fracDigits.take k) / 10 ^ k * u + 1 / 1000 := by
    rcases Nat.lt_or_ge k t.fracDigits.length with hlk | hge
    · have hk18 : 18 ≤ k := by
        by_contra hc
        have h1 := hnext hlk
        have h2 := dec_lt (t.fracDigits.take (k + 1)) fun c hc => hd c (List.mem_of_mem_take hc)
        rw [List.length_take_of_le hlk] at h2
        have h3 : 10 ^ (k + 1) ≤ 10 ^ 18 := Nat.pow_le_pow_right (by decide) (by omega)
        have h4 : (10 : Nat) ^ 18 ≤ 2 ^ 63 := by decide
        omega
      have hp : (10 : ℚ) ^ 18 ≤ 10 ^ k := pow_le_pow_right₀ (by norm_num) hk18
      have h5 : (1 : ℚ) / 10 ^ k * u ≤ 1 / 1000 := by
        calc (1 : ℚ) / 10 ^ k * u ≤ 1 / 10 ^ 18 * 3600000000000 := by gcongr
          _ ≤ _ := by norm_num
      have h6 := mul_le_mul_of_nonneg_right d2.le hu0'.le
      rw [add_mul] at h6
      linarith
    · have : k = t.fracDigits.length := by omega
      subst this
      rw [List.take_length]
      linarith
  have hcut2 := mul_le_mul_of_nonneg_right d1 hu0'.le
  have hm : ((if Spec.dec (t.fracDigits.take k) > 0 then FracMul.float64.mul (Spec.dec (t.fracDigits.take k)) u (10 ^ k) else 0 : Nat) : ℚ)
      ≤ Spec.dec (t.fracDigits.take k) / 10 ^ k * u + 1 / 32 ∧ Spec.dec (t.fracDigits.take k) / 10 ^ k * u <
      ((if Spec.dec (t.fracDigits.take k) > 0 then FracMul.float64.mul (Spec.dec (t.fracDigits.take k)) u (10 ^ k) else 0 : Nat) : ℚ) + 1 + 1 / 32 := by
    rw [div_mul_eq_mul_div]
    by_cases hz : Spec.dec (t.fracDigits.take k) > 0
    · rw [if_pos hz]; exact hn
    · have hz : Spec.dec (t.fracDigits.take k) = 0 := by omega
      rw [hz]
      norm_num
  rw [Nat.cast_add, Nat.cast_mul]
  generalize ((if Spec.dec (t.fracDigits.take k) > 0 then FracMul.float64.mul (Spec.dec (t.fracDigits.take k)) u (10 ^ k) else 0 : Nat) : ℚ) = m at *
  unfold Spec.Term.value
  rw [add_mul]
  constructor
  · linarith
  · linarith

/-- Exactly one number of nanoseconds is read. -/
theorem Reads.unique {F : FracMul} {t : Term} {n m : Nat} (h1 : Reads F t n) (h2 : Reads F t m) (hm : m ≤ 2 ^ 63) : n = m := by
  have a := h1.chunk [] (by simp)
  have b := h2.chunk [] (by simp)
  rw [b, if_pos hm] at a
  split_ifs at a
  have := Except.ok.inj a
  exact (Prod.mk.inj this).1.symm

/-- **C109** (part: the value is met up to 1 1/30 nanoseconds, not always rounded down; see `C109_rounding_false`.)
`ParseDuration` of terms with any number of digits before and behind the point: the signed sum of numbers of nanoseconds
that are next to the values of the terms, and exactly them for terms of whole nanoseconds written without superfluous
digits; an error when the sum does not fit into 64 bits. -/
theorem C109_fractions_partial (sg : Spec.Sign) (ts : List Term) (hne : ts ≠ [])
    (h : ∀ t ∈ ts, t.IsNumber ∧ ∃ u, (t.unit, u) ∈ Term.units) :
    ∃ ns : List Nat, List.Forall₂ (fun t n => t.Near n ∧ ∀ m ≤ 2 ^ 63, t.Means m → n = m) ts ns ∧
      let v : Int := match sg with | .minus => -(ns.sum : Int) | _ => ns.sum
      parseDuration FracMul.float64 (sg.text ++ ts.flatMap Term.text) =
        if -2 ^ 63 ≤ v ∧ v < 2 ^ 63 then .ok (BitVec.ofInt 64 v) else .error .invalid := by
  have key : ∃ ns : List Nat, List.Forall₂ (fun t n => t.Near n ∧ ∀ m ≤ 2 ^ 63, t.Means m → n = m) ts ns ∧
      List.Forall₂ (fun t n => Reads FracMul.float64 t n) ts ns := by
    clear hne
    induction ts with
    | nil => exact ⟨[], .nil, .nil⟩
    | cons t ts ih =>
      obtain ⟨ns, a, b⟩ := ih fun x hx => h x (List.mem_cons_of_mem _ hx)
      obtain ⟨hn, u, hu⟩ := h t List.mem_cons_self
      obtain ⟨n, hr, hnear⟩ := read_fraction t hn u hu
      exact ⟨n :: ns, .cons ⟨hnear, fun m hm hmeans => hr.unique (chunk_term _ t m hmeans) hm⟩ a, .cons hr b⟩
  obtain ⟨ns, a, b⟩ := key
  refine ⟨ns, a, ?_⟩
  have hz : ∀ {ts : List Term} {ns : List Nat}, List.Forall₂ (fun t n => Reads FracMul.float64 t n) ts ns →
      (∀ p ∈ ts.zip ns, Reads FracMul.float64 p.1 p.2) ∧ Spec.texts (ts.zip ns) = ts.flatMap Term.text ∧
      Spec.total (ts.zip ns) = ns.sum := by
    intro ts ns hb
    induction hb with
    | nil => exact ⟨by simp, rfl, rfl⟩
    | cons hr _ ih =>
      obtain ⟨i1, i2, i3⟩ := ih
      refine ⟨?_, ?_, ?_⟩
      · intro p hp
        rw [List.zip_cons_cons, List.mem_cons] at hp
        rcases hp with rfl | hp
        · exact hr
        · exact i1 p hp
      · rw [List.zip_cons_cons, Spec.texts, List.flatMap_cons, List.flatMap_cons, ← i2]; rfl
      · rw [List.zip_cons_cons, Spec.total, List.map_cons, List.sum_cons, List.sum_cons, ← i3]; rfl
  obtain ⟨z1, z2, z3⟩ := hz b
  have hne' : ts.zip ns ≠ [] := by
    cases b with
    | nil => exact absurd rfl hne
    | cons _ _ => simp
  have := parse_terms FracMul.float64 sg (ts.zip ns) hne' z1
  rw [z2, z3] at this
  exact this

/-- **C109** The value is not always rounded down, and zeros at the end of a fraction change the result: half a microsecond
written with fourteen digits is 499 nanoseconds, and a nanosecond written so is none. -/
theorem C109_rounding_false :
    parseDuration FracMul.float64 "0.5us".toList = .ok 500#64 ∧
    parseDuration FracMul.float64 "0.50000000000000us".toList = .ok 499#64 ∧
    parseDuration FracMul.float64 "0.001us".toList = .ok 1#64 ∧
    parseDuration FracMul.float64 "0.00100000000000us".toList = .ok 0#64 ∧
    parseDuration FracMul.float64 "0.12000000000000us".toList = .ok 119#64 := by
  decide +kernel

/-- The hypotheses are met by `1.3333333333333333333333333h.5s`. -/
example : ∃ ns : List Nat, ns.length = 2 ∧
    parseDuration FracMul.float64 "1.3333333333333333333333333h.5s".toList = .ok (BitVec.ofInt 64 ns.sum) := by
  obtain ⟨ns, a, b⟩ := C109_fractions_partial .none
    [⟨['1'], some "3333333333333333333333333".toList, "h"⟩, ⟨[], some ['5'], "s"⟩] (by decide) (by
      intro t ht
      simp only [List.mem_cons, List.not_mem_nil, or_false] at ht
      rcases ht with rfl | rfl
      · exact ⟨⟨by decide, by decide, by decide⟩, 3600000000000, by decide⟩
      · exact ⟨⟨by decide, by decide, by decide⟩, 1000000000, by decide⟩)
  refine ⟨ns, a.length_eq.symm, ?_⟩
  cases a with
  | cons h1 a =>
    cases a with
    | cons h2 a =>
      cases a
      rename_i n m
      obtain ⟨⟨u, hu, h3, -⟩, -⟩ := h1
      have : m = 500000000 := h2.2 500000000 (by decide)
        ⟨⟨by decide, by decide, by decide⟩, 1000000000, 100000000, by decide, by decide, by decide⟩
      subst this
      have hu : u = 3600000000000 := by
        have := (unit_table hu).1
        have h2 : unitMap "h".toList = some 3600000000000 := by decide
        rw [h2] at this
        exact (Option.some.inj this).symm
      subst hu
      have e : Spec.dec "3333333333333333333333333".toList = 3333333333333333333333333 := by decide +kernel
      have e1 : Spec.dec ['1'] = 1 := by decide
      have hl : "3333333333333333333333333".toList.length = 25 := by decide
      simp only [Spec.Term.value, Term.fracDigits, Option.getD_some, e, e1, hl] at h3
      have h4 : (n : ℚ) < 7200000000000 := lt_of_le_of_lt h3 (by norm_num)
      have h4 : n < 7200000000000 := by exact_mod_cast h4
      have hs : [n, 500000000].sum = n + 500000000 := by simp
      simp only [hs] at b ⊢
      rw [if_pos (by push_cast; omega)] at b
      exact b

end Verif.Duration
