import Verif.Props.RandMore
import Mathlib.Algebra.Ring.Periodic
import Mathlib.Data.Int.GCD
import Mathlib.Data.Int.CardIntervalMod

/-!
# Property C99: numbers below a bound that is no power of two, and how often each number occurs
-/

set_option linter.unusedSectionVars false

namespace Verif.Rand

variable {w : Nat}

/-- A sequence with period `2^K` and another period that is no multiple of it has period `2^(K-1)`. -/
theorem half_period {β : Type} {g : Nat → β} {K n : Nat} (hT : Function.Periodic g (2 ^ K)) (hn : Function.Periodic g n)
    (hd : ¬ 2 ^ K ∣ n) : 0 < K ∧ Function.Periodic g (2 ^ (K - 1)) := by
  obtain ⟨j, hj, e⟩ := (Nat.dvd_prime_pow Nat.prime_two).1 (Nat.gcd_dvd_right n (2 ^ K))
  have hjK : j < K := by
    rcases Nat.lt_or_ge j K with c | c
    · exact c
    · have : j = K := by omega
      subst this
      exact absurd (e ▸ Nat.gcd_dvd_left n (2 ^ j)) hd
  have hlt : Nat.gcd n (2 ^ K) < 2 ^ K := by rw [e]; exact Nat.pow_lt_pow_right (by omega) hjK
  obtain ⟨m, -, hm⟩ := Nat.exists_mul_mod_eq_gcd hlt
  have hg : Function.Periodic g (2 ^ j) := by
    intro i
    have h1 : i + n * m = i + 2 ^ j + n * m / 2 ^ K * 2 ^ K := by
      have := Nat.div_add_mod (n * m) (2 ^ K)
      rw [hm, e] at this
      rw [Nat.mul_comm (n * m / 2 ^ K)]
      omega
    have h2 := hn.nat_mul m i
    have h3 := hT.nat_mul (n * m / 2 ^ K) (i + 2 ^ j)
    simp only [Nat.cast_id] at h2 h3
    rw [← h3, ← h1, Nat.mul_comm n m, h2]
  refine ⟨by omega, ?_⟩
  have h := hg.nat_mul (2 ^ (K - 1 - j))
  simpa only [Nat.cast_id, ← Nat.pow_add, show K - 1 - j + j = K - 1 by omega] using h

/-- Two numbers that differ in the top bit only, with the same remainder: the divisor divides the top bit. -/
theorem top_bit {k m : Nat} (x y : BitVec (k + 1)) (h : x.toNat % 2 ^ k = y.toNat % 2 ^ k) (hne : x ≠ y)
    (hm : x.toNat % m = y.toNat % m) : m ∣ 2 ^ k := by
  have key : ∀ {x y : BitVec (k + 1)}, x.toNat < y.toNat → x.toNat % 2 ^ k = y.toNat % 2 ^ k → x.toNat % m = y.toNat % m →
      m ∣ 2 ^ k := by
    intro x y hl h hm
    have hd := (Nat.modEq_iff_dvd' (Nat.le_of_lt hl)).1 h
    have hd' := (Nat.modEq_iff_dvd' (Nat.le_of_lt hl)).1 hm
    have hy := y.isLt
    rw [Nat.pow_succ] at hy
    obtain ⟨q, hq⟩ := hd
    have : q = 1 := by
      have hq2 : 2 ^ k * q < 2 ^ k * 2 := by omega
      have := Nat.lt_of_mul_lt_mul_left hq2
      rcases q with _ | _ | q
      · omega
      · rfl
      · omega
    subst this
    rw [hq, Nat.mul_one] at hd'
    exact hd'
  rcases Nat.lt_trichotomy x.toNat y.toNat with c | c | c
  · exact key c h hm
  · exact absurd (BitVec.eq_of_toNat_eq c) hne
  · exact key c h.symm hm.symm

/-- `RandMax` is the remainder by its argument. -/
theorem below_mod (m : BitVec w) (hm : m ≠ 0#w) (r : BitVec w) :
    ∃ v, below m r = .ok v ∧ v.toNat = r.toNat % m.toNat := by
  have hp : 0 < m.toNat := by
    rcases Nat.eq_zero_or_pos m.toNat with h | h
    · exact absurd (BitVec.eq_of_toNat_eq (by simpa using h)) hm
    · exact h
  have hlt := m.isLt
  have h1 : (m - 1#w).toNat = m.toNat - 1 := by
    have h1 : (1#w).toNat = 1 := by rw [BitVec.toNat_ofNat, Nat.mod_eq_of_lt (by omega)]
    rw [BitVec.toNat_sub_of_le, h1]
    rw [BitVec.le_def, h1]; omega
  obtain ⟨v, e, hv⟩ := inRange_sorted (lo := 0#w) (hi := m - 1#w) (r := r) (by simp) (by rw [h1]; simp; omega)
  refine ⟨v, e, ?_⟩
  rw [hv, h1]
  simp only [BitVec.toNat_ofNat, Nat.zero_mod, Nat.add_zero, Nat.sub_zero, Nat.sub_add_cancel hp]

theorem below_eq_mod (m : BitVec w) (hm : m ≠ 0#w) (r r' : BitVec w) :
    below m r = below m r' ↔ r.toNat % m.toNat = r'.toNat % m.toNat := by
  obtain ⟨v, h1, h2⟩ := below_mod m hm r
  obtain ⟨v', h1', h2'⟩ := below_mod m hm r'
  rw [h1, h1', ← h2, ← h2', BitVec.toNat_inj]
  exact ⟨fun h => by injection h, fun h => by rw [h]⟩

/-- **C99** (partial: for bounds that are no power of two) The numbers of `RandMax(m)` repeat exactly when the 64-bit
generator itself does: after the multiples of 2^64 calls. -/
theorem C99_other64_partial (m : BitVec 64) (hm : m ≠ 0#64) (h2 : ∀ k, m.toNat ≠ 2 ^ k) (s : BitVec 64) (n : Nat) :
    (∀ i, below m (next64^[i + n] s) = below m (next64^[i] s)) ↔ 2 ^ 64 ∣ n := by
  constructor
  · intro h
    by_contra hd
    have hT : Function.Periodic (fun i => below m (next64^[i] s)) (2 ^ 64) := by
      intro i
      have := (C41_period64 (next64^[i] s) (2 ^ 64)).2 ⟨1, by omega⟩
      show below m (next64^[i + 2 ^ 64] s) = _
      rw [Nat.add_comm, Function.iterate_add_apply, this]
    obtain ⟨-, hp⟩ := half_period hT h hd
    have h0 : below m (next64^[0 + 2 ^ 63] s) = below m (next64^[0] s) := hp 0
    have hne : next64^[2 ^ 63] s ≠ s := fun e => absurd ((C41_period64 s _).1 e) (by norm_num)
    have hlow := (C99_pow64_false 63 (by omega) (by omega) s 0 (2 ^ 63)).2 ⟨1, by omega⟩
    rw [below_eq_iff 63 (by omega), Nat.zero_add] at hlow
    rw [below_eq_mod m hm, Nat.zero_add] at h0
    obtain ⟨k, -, e⟩ := (Nat.dvd_prime_pow Nat.prime_two).1 (top_bit (k := 63) _ _ hlow hne h0)
    exact h2 k e
  · intro h i
    rw [Nat.add_comm, Function.iterate_add_apply, (C41_period64 _ n).2 h]

/-- **C99** (partial: for bounds that are no power of two) The same of the 32-bit generator, whose own period is 2^31. -/
theorem C99_other32_partial (m : BitVec 32) (hm : m ≠ 0#32) (h2 : ∀ k, m.toNat ≠ 2 ^ k) (s : BitVec 32) (n : Nat) :
    (∀ i, below m (next32^[i + n] s) = below m (next32^[i] s)) ↔ 2 ^ 31 ∣ n := by
  constructor
  · intro h
    by_contra hd
    have hT : Function.Periodic (fun i => below m (next32^[i] s)) (2 ^ 31) := by
      intro i
      have := (C41_period32 (next32^[i] s) (2 ^ 31)).2 ⟨1, by omega⟩
      show below m (next32^[i + 2 ^ 31] s) = _
      rw [Nat.add_comm, Function.iterate_add_apply, this]
    obtain ⟨-, hp⟩ := half_period hT h hd
    have h0 : below m (next32^[0 + 2 ^ 30] s) = below m (next32^[0] s) := hp 0
    have hne : next32^[2 ^ 30] s ≠ s := fun e => absurd ((C41_period32 s _).1 e) (by norm_num)
    have hlow := (C99_pow32_false 31 (by omega) (by omega) s 0 (2 ^ 30)).2 ⟨1, by omega⟩
    rw [below_eq_iff 31 (by omega), Nat.zero_add] at hlow
    rw [below_eq_mod m hm, Nat.zero_add] at h0
    obtain ⟨k, -, e⟩ := (Nat.dvd_prime_pow Nat.prime_two).1 (top_bit (k := 31) _ _ hlow hne h0)
    exact h2 k e
  · intro h i
    rw [Nat.add_comm, Function.iterate_add_apply, (C41_period32 _ n).2 h]

/-- How many of the first `N` calls of `RandMax(m)` return `v`. -/
def Spec.occurrences (N : Nat) (m v s : BitVec 64) : Nat :=
  ((Finset.range N).filter fun n => below m (next64^[n] s) = .ok v).card

/-- **C99** From every seed, over one period of the 64-bit generator, `RandMax(m)` returns every number below `m` equally
often, up to one: `v` occurs ⌊2^64 / m⌋ times, and once more exactly if `v < 2^64 mod m`. -/
theorem C99_frequency (m v s : BitVec 64) (hv : v.toNat < m.toNat) :
    Spec.occurrences (2 ^ 64) m v s = 2 ^ 64 / m.toNat + if v.toNat < 2 ^ 64 % m.toNat then 1 else 0 := by
  have hm : m ≠ 0#64 := by rintro rfl; simp at hv
  have hmp : 0 < m.toNat := by omega
  have hv' := v.isLt
  have key : ∀ r, below m r = .ok v ↔ r.toNat % m.toNat = v.toNat := by
    intro r
    obtain ⟨x, h1, h2⟩ := below_mod m hm r
    rw [h1, ← h2, BitVec.toNat_inj]
    exact ⟨fun h => by injection h, fun h => by rw [h]⟩
  have hc := Nat.count_modEq_card (2 ^ 64) hmp v.toNat
  rw [Nat.mod_eq_of_lt hv] at hc
  rw [← hc, Nat.count_eq_card_filter_range, Spec.occurrences]
  generalize hT : 2 ^ 64 = T at *
  apply Finset.card_nbij (fun n => (next64^[n] s).toNat)
  · intro n hn
    simp only [Finset.coe_filter, Finset.mem_range, Set.mem_ofPred_eq] at hn ⊢
    refine ⟨?_, ?_⟩
    · have := (next64^[n] s).isLt; omega
    · rw [Nat.ModEq, (key _).1 hn.2, Nat.mod_eq_of_lt hv]
  · intro i hi j hj h
    simp only [Finset.coe_filter, Finset.mem_range, Set.mem_ofPred_eq] at hi hj
    exact iterate_inj64 s (by omega) (by omega) (BitVec.eq_of_toNat_eq h)
  · intro r hr
    simp only [Finset.coe_filter, Finset.mem_range, Set.mem_ofPred_eq] at hr
    obtain ⟨n, hn, e⟩ := C41_visits_all64 s (BitVec.ofNat 64 r)
    have hr' : (BitVec.ofNat 64 r).toNat = r := by rw [BitVec.toNat_ofNat, hT, Nat.mod_eq_of_lt hr.1]
    refine ⟨n, ?_, ?_⟩
    · simp only [Finset.coe_filter, Finset.mem_range, Set.mem_ofPred_eq]
      refine ⟨by omega, ?_⟩
      rw [e, key, hr']
      have := hr.2
      rw [Nat.ModEq, Nat.mod_eq_of_lt hv] at this
      exact this
    · show (next64^[n] s).toNat = r
      rw [e, hr']

/-- The hypotheses: a bound that is no power of two, as in a die with six faces. -/
example : 6#64 ≠ 0#64 ∧ (∀ k, (6#64).toNat ≠ 2 ^ k) ∧ (5#64).toNat < (6#64).toNat := by
  refine ⟨by decide, ?_, by decide⟩
  intro k h
  rcases k with _ | _ | _ | k
  · simp at h
  · simp at h
  · simp at h
  · rw [Nat.pow_add] at h
    have : (6#64).toNat = 6 := rfl
    omega

/-- Ten is not a power of two. -/
example : ∀ k, (10#64).toNat ≠ 2 ^ k := by
  intro k h
  have e : (10#64).toNat = 10 := rfl
  rcases k with _ | k
  · simp at h
  · rcases k with _ | k <;> rw [Nat.pow_succ] at h <;> [omega; (rw [Nat.pow_succ] at h; omega)]

example (h : ∀ k, (10#64).toNat ≠ 2 ^ k) := C99_other64_partial 10#64 (by decide) h 7#64 (2 ^ 64)

example (h : ∀ k, (10#32).toNat ≠ 2 ^ k) := C99_other32_partial 10#32 (by decide) h 7#32 (2 ^ 31)

end Verif.Rand
