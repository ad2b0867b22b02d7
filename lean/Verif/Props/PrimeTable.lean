import Verif.Lemmas.PrimeBlocks
import Mathlib.Tactic.NormNum.Prime
/-!
# Property C45: the table of primes and `IsPrime`
-/

namespace Verif.Prime

/-- C45, the table: it lists every prime up to its last entry 65537, exactly once, in ascending order, and nothing
else. -/
theorem C45_table : primes = (List.range 65538).filter (fun n => decide n.Prime) ∧ primes.Pairwise (· < ·) := by
  have h : primes = (List.range 65538).filter (fun n => decide n.Prime) := by
    rw [primes_eq]
    refine List.filter_congr (fun n hn => ?_)
    rw [Bool.eq_iff_iff, td_prime n (by rw [List.mem_range] at hn; omega)]
    simp
  refine ⟨h, ?_⟩
  rw [h]
  exact List.Pairwise.filter _ List.pairwise_lt_range

/-- The entries are exactly the primes up to 65537. -/
theorem C45_table_mem (n : Nat) : n ∈ primes ↔ n.Prime ∧ n ≤ 65537 := by
  rw [C45_table.1, List.mem_filter, List.mem_range]
  simp only [decide_eq_true_eq]
  constructor
  · rintro ⟨h1, h2⟩; exact ⟨h2, by omega⟩
  · rintro ⟨h1, h2⟩; exact ⟨by omega, h1⟩

/-- The loop of `IsPrime` stops at once. -/
theorem loop_true (n : Nat) : primeLoop n 0 (primes.drop 2) = true := by
  have hpos : ∀ p ∈ primes.drop 2, p > 0 := fun p hp => ((C45_table_mem p).1 (List.mem_of_mem_drop hp)).1.pos
  match h : primes.drop 2 with
  | [] => rfl
  | p :: r => rw [primeLoop, if_pos (hpos p (by rw [h]; simp))]

/-- The loop with any bound: no entry up to the bound divides the number. -/
theorem loop_iff (n max : Nat) (l : List Nat) (hl : l.Pairwise (· < ·)) :
    primeLoop n max l = true ↔ ∀ p ∈ l, p ≤ max → n % p ≠ 0 := by
  induction l with
  | nil => simp [primeLoop]
  | cons p r ih =>
    rw [List.pairwise_cons] at hl
    rw [primeLoop]
    by_cases h1 : p > max
    · rw [if_pos h1]
      refine ⟨fun _ q hq hm => ?_, fun _ => rfl⟩
      rcases List.mem_cons.1 hq with rfl | hq
      · omega
      · have := hl.1 q hq; omega
    · rw [if_neg h1]
      by_cases h2 : n % p = 0
      · rw [if_pos h2]
        refine ⟨fun h => absurd h (by simp), fun h => absurd h2 (h p (by simp) (by omega))⟩
      · rw [if_neg h2, ih hl.2]
        refine ⟨fun h q hq => ?_, fun h q hq => h q (by simp [hq])⟩
        rcases List.mem_cons.1 hq with rfl | hq
        · exact fun _ => h2
        · exact h q hq

/-- C45, the loop: run up to any bound from the square root of the number to the number itself, the loop of `IsPrime`
decides whether a 32-bit number divisible neither by 2 nor by 3 is prime.  Missing from C45: the code runs it up to the
bound 0, see `C45_isPrime_false`. -/
theorem C45_loop_partial (n max : Nat) (hn : n < 2 ^ 32) (h1 : 3 < n) (h2 : ¬ 2 ∣ n) (h3 : ¬ 3 ∣ n)
    (hm : n < (max + 1) * (max + 1)) (hm' : max < n) : primeLoop n max (primes.drop 2) = true ↔ n.Prime := by
  have hs : (primes.drop 2).Pairwise (· < ·) := C45_table.2.sublist (List.drop_sublist 2 _)
  rw [loop_iff n max _ hs]
  constructor
  · intro h
    by_contra hp
    have hne : n ≠ 1 := by omega
    have hpf := Nat.minFac_prime hne
    have hdvd := Nat.minFac_dvd n
    have hle : n.minFac * n.minFac ≤ n := by
      have := Nat.minFac_sq_le_self (by omega) hp
      rwa [sq] at this
    have hsmall : n.minFac ≤ 65535 := by
      by_contra hc
      have : 65536 * 65536 ≤ n.minFac * n.minFac := Nat.mul_le_mul (by omega) (by omega)
      omega
    have hmax : n.minFac ≤ max := by
      by_contra hc
      have : (max + 1) * (max + 1) ≤ n.minFac * n.minFac := Nat.mul_le_mul (by omega) (by omega)
      omega
    have hmem := (C45_table_mem n.minFac).2 ⟨hpf, by omega⟩
    have h23 : n.minFac ≠ 2 ∧ n.minFac ≠ 3 := ⟨fun e => h2 (e ▸ hdvd), fun e => h3 (e ▸ hdvd)⟩
    have h4 : primes.take 2 = [2, 3] := by decide +kernel
    rw [← List.take_append_drop 2 primes, List.mem_append, h4] at hmem
    rcases hmem with hmem | hmem
    · simp at hmem; omega
    · exact h _ hmem hmax (Nat.mod_eq_zero_of_dvd hdvd)
  · intro hp p hpm hple hmod
    have hpp := ((C45_table_mem p).1 (List.mem_of_mem_drop hpm)).1
    have := (Nat.prime_dvd_prime_iff_eq hpp hp).1 (Nat.dvd_of_mod_eq_zero hmod)
    omega

example : primeLoop 35 5 (primes.drop 2) = false ∧ primeLoop 37 6 (primes.drop 2) = true := by decide +kernel

/-- C45, exact behaviour for every input: `IsPrime` accepts 2, 3 and every larger number that is divisible neither by
2 nor by 3. -/
theorem C45_isPrime_exact (n : Nat) : isPrime n = true ↔ n = 2 ∨ n = 3 ∨ (1 < n ∧ ¬ 2 ∣ n ∧ ¬ 3 ∣ n) := by
  unfold isPrime
  rw [loop_true]
  split
  · simp; omega
  · split
    · simp; omega
    · simp only
      split
      · simp; omega
      · simp; omega

/-- C45, one direction: `IsPrime` never rejects a prime.  Missing from C45: that it rejects every composite number,
which is false, see `C45_isPrime_false`. -/
theorem C45_primes_accepted_partial (n : Nat) (h : n.Prime) : isPrime n = true := by
  rw [C45_isPrime_exact]
  by_cases h2 : 2 ∣ n
  · exact .inl (((Nat.prime_dvd_prime_iff_eq Nat.prime_two h).1 h2).symm)
  · by_cases h3 : 3 ∣ n
    · exact .inr (.inl (((Nat.prime_dvd_prime_iff_eq Nat.prime_three h).1 h3).symm))
    · exact .inr (.inr ⟨h.one_lt, h2, h3⟩)

/-- C45, small numbers: below 25 the answer is right. -/
theorem C45_isPrime_small_partial (n : Nat) (h : n < 25) : isPrime n = true ↔ n.Prime := by
  rw [C45_isPrime_exact]
  interval_cases n <;> norm_num

/-- C45 is false of the code: the product of any two primes above 3 is declared prime. -/
theorem C45_isPrime_false (p q : Nat) (hp : p.Prime) (hq : q.Prime) (hp3 : 3 < p) (hq3 : 3 < q) :
    isPrime (p * q) = true ∧ ¬ (p * q).Prime := by
  refine ⟨?_, Nat.not_prime_mul (by omega) (by omega)⟩
  rw [C45_isPrime_exact]
  refine .inr (.inr ⟨by nlinarith, ?_, ?_⟩)
  · rw [Nat.prime_two.dvd_mul]
    rintro (h | h)
    · have := (Nat.prime_dvd_prime_iff_eq Nat.prime_two hp).1 h; omega
    · have := (Nat.prime_dvd_prime_iff_eq Nat.prime_two hq).1 h; omega
  · rw [Nat.prime_three.dvd_mul]
    rintro (h | h)
    · have := (Nat.prime_dvd_prime_iff_eq Nat.prime_three hp).1 h; omega
    · have := (Nat.prime_dvd_prime_iff_eq Nat.prime_three hq).1 h; omega

example : isPrime 35 = true ∧ isPrime 33 = false ∧ isPrime 37 = true := by decide +kernel

example : isPrime 65537 = true := C45_primes_accepted_partial _ (by norm_num)
example : isPrime 23 = true ↔ Nat.Prime 23 := C45_isPrime_small_partial 23 (by decide)

end Verif.Prime
