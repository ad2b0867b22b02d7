import Verif.Lemmas.RsaGen
import Verif.Props.KeyFormats
import Mathlib.Analysis.Complex.ExponentialBounds
/-!
# C153: generated RSA keys
-/
set_option linter.unusedSectionVars false

namespace Verif.Rsa

open Verif.Hash (bigEndian ofBig)

/-! ## The keys -/

/-- What the test of primes is trusted for.  `ProbablyPrime(20)` accepts every prime; it accepts other numbers with a probability of less than
4^-20, which is taken as never. -/
structure Spec.TestsPrimes (test : Nat → Bool) : Prop where
  sound : ∀ n, test n = true → n.Prime
  complete : ∀ n, n.Prime → test n = true

/-- A prime of exactly `bits` bits, of which the highest two are set. -/
structure Spec.IsKeyPrime (bits p : Nat) : Prop where
  prime : p.Prime
  low : 3 * 2 ^ (bits - 2) ≤ p
  high : p < 2 ^ bits

/-- A key of exactly `bits` bits: two different primes of half the bits each, the public exponent 65537, and a private exponent that undoes it. -/
structure Spec.IsGenerated (bits : Nat) (k : PrivKey) : Prop where
  p : Spec.IsKeyPrime (bits / 2) k.p
  q : Spec.IsKeyPrime (bits - bits / 2) k.q
  ne : k.p ≠ k.q
  n : k.n = k.p * k.q
  bits : 2 ^ (bits - 1) ≤ k.n ∧ k.n < 2 ^ bits
  e : k.e = 65537
  d : 65537 * k.d % Nat.lcm (k.p - 1) (k.q - 1) = 1
  lt : k.d < (k.p - 1) * (k.q - 1)

theorem modInverse_spec (a t : Nat) (ht : 1 < t) (h : Nat.gcd a t = 1) : a * modInverse a t % t = 1 ∧ modInverse a t < t := by
  have hi : (modInverse a t : Int) = Nat.gcdA a t % t := by
    rw [modInverse, Int.toNat_of_nonneg (Int.emod_nonneg _ (by omega))]
  constructor
  · have h1 : (a : Int) * modInverse a t ≡ 1 [ZMOD t] := by
      rw [hi]
      have h1 : (a : Int) * (Nat.gcdA a t % (t : Int)) ≡ a * Nat.gcdA a t [ZMOD t] := (Int.mod_modEq _ _).mul_left _
      have h2 : (a : Int) * Nat.gcdA a t = 1 - t * Nat.gcdB a t := by
        have hg := Nat.gcd_eq_gcd_ab a t
        rw [h] at hg
        push_cast at hg
        omega
      refine h1.trans ?_
      rw [h2, Int.modEq_iff_dvd]
      exact ⟨Nat.gcdB a t, by omega⟩
    have h3 : a * modInverse a t ≡ 1 [MOD t] := by
      rw [← Int.natCast_modEq_iff]
      push_cast
      exact h1
    rw [h3, Nat.mod_eq_of_lt ht]
  · have := Int.emod_lt_of_pos (Nat.gcdA a t) (show (0 : Int) < t by omega)
    rw [← hi] at this
    omega

variable {test : Nat → Bool} {stream : Nat → UInt8}

theorem isKeyPrime_two {bits p : Nat} (hb : 3 ≤ bits) (h : Spec.IsKeyPrime bits p) : 6 ≤ p := by
  have : 2 ^ 1 ≤ 2 ^ (bits - 2) := Nat.pow_le_pow_right (by decide) (by omega)
  have := h.low
  omega

theorem lcm_one {p q x : Nat} (hp : 3 ≤ p) (hq : 3 ≤ q) (h : x % ((p - 1) * (q - 1)) = 1) :
    x % Nat.lcm (p - 1) (q - 1) = 1 := by
  have hd : Nat.lcm (p - 1) (q - 1) ∣ (p - 1) * (q - 1) := Nat.lcm_dvd_mul _ _
  have h1 : p - 1 ≤ Nat.lcm (p - 1) (q - 1) :=
    Nat.le_of_dvd (Nat.lcm_pos (by omega) (by omega)) (Nat.dvd_lcm_left _ _)
  rw [← Nat.mod_mod_of_dvd x hd, h, Nat.mod_eq_of_lt (by omega)]

theorem genLoop_generated (ht : Spec.TestsPrimes test) {bits : Nat} (hb : 12 ≤ bits) : ∀ {fuel pos : Nat} {k : PrivKey},
    genLoop test stream bits fuel pos = .done k → Spec.IsGenerated bits k
  | 0, _, _, h => by simp [genLoop] at h
  | fuel + 1, pos, k, h => by
    rw [genLoop] at h
    split at h
    · cases h
    · cases h
    · next p pos1 e1 =>
      split at h
      · cases h
      · cases h
      · next q pos2 e2 =>
        split at h
        · exact genLoop_generated ht hb h
        · next hne =>
          simp only at h
          split at h
          · exact genLoop_generated ht hb h
          · next hs =>
            split at h
            · next hg =>
              simp only [Run.done.injEq] at h
              subst h
              obtain ⟨a1, a2, a3, a4, a5⟩ := randPrime_done e1
              obtain ⟨b1, b2, b3, b4, b5⟩ := randPrime_done e2
              rw [a5] at b1 b3 b4 b5
              have P : Spec.IsKeyPrime (bits / 2) p := ⟨ht.sound _ a2, a3, a4⟩
              have Q : Spec.IsKeyPrime (bits - bits / 2) q := ⟨ht.sound _ b2, b3, b4⟩
              have p6 := isKeyPrime_two (by omega) P
              have q6 := isKeyPrime_two (by omega) Q
              have ht1 : 1 < (p - 1) * (q - 1) := by
                have := Nat.mul_le_mul (show 5 ≤ p - 1 by omega) (show 5 ≤ q - 1 by omega)
                omega
              obtain ⟨c1, c2⟩ := modInverse_spec 65537 _ ht1 hg
              have hsz : (p * q).size = bits := by simpa using hs
              refine ⟨P, Q, fun h => hne h.symm, rfl, ⟨?_, ?_⟩, rfl, lcm_one (show 3 ≤ p by omega) (show 3 ≤ q by omega) c1, c2⟩
              · exact Nat.lt_size.1 (show bits - 1 < (p * q).size by omega)
              · exact Nat.size_le.1 hsz.le
            · exact genLoop_generated ht hb h

theorem isGenerated_valid {bits : Nat} (hb : 12 ≤ bits) (hm : bits < 2 ^ 50) {k : PrivKey} (h : Spec.IsGenerated bits k) : k.Valid := by
  have p6 := isKeyPrime_two (by omega) h.p
  have q6 := isKeyPrime_two (by omega) h.q
  have hs : k.n.size ≤ bits := Nat.size_le.2 h.bits.2
  have hd : k.d ≤ k.n := by
    rw [h.n]
    exact Nat.le_trans h.lt.le (Nat.mul_le_mul (by omega) (by omega))
  refine ⟨h.p.prime, h.q.prime, by omega, by omega, h.ne, h.n, ?_, ?_, by rw [h.e]; decide, ?_⟩
  · rw [h.e, ← Nat.mod_mod_of_dvd _ (Nat.dvd_lcm_left (k.p - 1) (k.q - 1)), h.d, Nat.mod_eq_of_lt (by omega)]
  · rw [h.e, ← Nat.mod_mod_of_dvd _ (Nat.dvd_lcm_right (k.p - 1) (k.q - 1)), h.d, Nat.mod_eq_of_lt (by omega)]
  · have h1 : byteLen k.n < 2 ^ 48 := by
      rw [byteLen_size]
      omega
    exact ⟨h1, Nat.lt_of_le_of_lt (byteLen_mono hd) h1⟩

/-- C153: a key that was generated has exactly the number of bits that was asked for, out of two different primes of half the bits; its
exponents undo each other. -/
theorem C153_generated (ht : Spec.TestsPrimes test) (fuel : Nat) (bits : Int) (k : PrivKey)
    (h : generateKey test stream fuel bits = .done k) : 12 ≤ bits ∧ Spec.IsGenerated bits.toNat k := by
  unfold generateKey tooFew at h
  by_cases hb : bits < 12
  · rw [if_pos (by simpa using hb)] at h
    cases h
  · rw [if_neg (by simpa using hb)] at h
    exact ⟨by omega, genLoop_generated ht (by omega) h⟩

theorem genLoop_error {bits : Nat} (hb : 12 ≤ bits) : ∀ {fuel pos : Nat}, genLoop test stream bits fuel pos ≠ .error
  | 0, _ => by simp [genLoop]
  | fuel + 1, pos => by
    rw [genLoop]
    split
    · simp
    · next h => exact absurd h (randPrime_error (by omega))
    · next p pos1 e1 =>
      have hp := (randPrime_done e1).2.2.2.2
      split
      · simp
      · next h => exact absurd h (randPrime_error (by rw [hp]; omega))
      · split
        · exact genLoop_error hb
        · simp only
          split
          · exact genLoop_error hb
          · split
            · simp
            · exact genLoop_error hb

/-- C153: an error is returned exactly for fewer than 12 bits, whatever random bytes there are. -/
theorem C153_error (fuel : Nat) (bits : Int) : generateKey test stream fuel bits = .error ↔ bits < 12 := by
  unfold generateKey tooFew
  by_cases hb : bits < 12
  · simp [hb]
  · rw [if_neg (by simpa using hb)]
    simp only [hb, iff_false]
    exact genLoop_error (by omega)

/-- C153: 12 bits is what the estimate of the number of primes comes to. -/
theorem C153_few (bits : Nat) (h : bits < 64) :
    (2 : ℝ) ^ (bits / 2) / (Real.log (2 ^ (bits / 2)) - 1) / 4 / 2 ≤ 2 ↔ bits < 12 := by
  have l1 := Real.log_two_gt_d9
  have l2 := Real.log_two_lt_d9
  rw [Real.log_pow]
  have hk : bits < 12 ↔ bits / 2 < 6 := by omega
  have hk' : bits / 2 < 32 := by omega
  rw [hk]
  generalize bits / 2 = k at hk'
  rw [div_div, div_div]
  rcases Nat.lt_or_ge k 2 with h2 | h2
  · refine ⟨fun _ => by omega, fun _ => ?_⟩
    have : (2 : ℝ) ^ k / ((k * Real.log 2 - 1) * 4 * 2) ≤ 0 := by
      apply div_nonpos_of_nonneg_of_nonpos (by positivity)
      interval_cases k
      · norm_num
      · norm_num
        linarith
    rw [mul_assoc] at this
    linarith
  · have hpos : 0 < (k : ℝ) * Real.log 2 - 1 := by
      have : (2 : ℝ) ≤ k := by exact_mod_cast h2
      nlinarith
    rw [div_le_iff₀ (by positivity)]
    constructor
    · intro hle
      by_contra hc
      have hc : 6 ≤ k := by omega
      interval_cases k <;> norm_num at hle <;> linarith
    · intro hlt
      interval_cases k <;> norm_num <;> linarith

/-! ## The loops -/

theorem genLoop_more {bits : Nat} : ∀ {fuel pos : Nat} {k : PrivKey} (more : Nat),
    genLoop test stream bits fuel pos = .done k → genLoop test stream bits (fuel + more) pos = .done k
  | 0, _, _, _, h => by simp [genLoop] at h
  | fuel + 1, pos, k, more, h => by
    rw [Nat.succ_add, genLoop]
    rw [genLoop] at h
    cases e1 : randPrime test stream (bits / 2) (fuel + 1) pos with
    | going => rw [e1] at h; cases h
    | error => rw [e1] at h; cases h
    | done x =>
      obtain ⟨p, pos1⟩ := x
      rw [e1] at h
      have f1 := randPrime_more more e1
      rw [show fuel + 1 + more = fuel + more + 1 by omega] at f1
      rw [f1]
      simp only at h ⊢
      cases e2 : randPrime test stream (bits - p.size) (fuel + 1) pos1 with
      | going => rw [e2] at h; cases h
      | error => rw [e2] at h; cases h
      | done y =>
        obtain ⟨q, pos2⟩ := y
        rw [e2] at h
        have f2 := randPrime_more more e2
        rw [show fuel + 1 + more = fuel + more + 1 by omega] at f2
        rw [f2]
        simp only at h ⊢
        split
        · next c => rw [if_pos c] at h; exact genLoop_more more h
        · next c =>
          rw [if_neg c] at h
          split
          · next c => rw [if_pos c] at h; exact genLoop_more more h
          · next c =>
            rw [if_neg c] at h
            split
            · next c => rwa [if_pos c] at h
            · next c => rw [if_neg c] at h; exact genLoop_more more h

/-- C153: which key is generated depends on the random bytes only, not on how long one waits. -/
theorem C153_once (fuel fuel' : Nat) (bits : Int) (k k' : PrivKey) (h : generateKey test stream fuel bits = .done k)
    (h' : generateKey test stream fuel' bits = .done k') : k = k' := by
  unfold generateKey at h h'
  split at h
  · cases h
  · next hb =>
    rw [if_neg hb] at h'
    have a := genLoop_more fuel' h
    have b := genLoop_more fuel h'
    rw [Nat.add_comm, b] at a
    simpa using a.symm

/-- C153: a pair of different primes is rejected only if 65537 divides the product of the two numbers before them: the product of two such
primes always has the number of bits that was asked for. -/
theorem C153_rejected (fuel pos pos1 pos2 : Nat) (bits : Nat) (p q : Nat)
    (h1 : randPrime test stream (bits / 2) (fuel + 1) pos = .done (p, pos1))
    (h2 : randPrime test stream (bits - bits / 2) (fuel + 1) pos1 = .done (q, pos2)) :
    (p = q ∨ 65537 ∣ (p - 1) * (q - 1) → genLoop test stream bits (fuel + 1) pos = genLoop test stream bits fuel pos2) ∧
    (p ≠ q → ¬ 65537 ∣ (p - 1) * (q - 1) → ∃ k, genLoop test stream bits (fuel + 1) pos = .done k ∧ k.p = p ∧ k.q = q) := by
  obtain ⟨a1, a2, a3, a4, a5⟩ := randPrime_done h1
  obtain ⟨b1, b2, b3, b4, b5⟩ := randPrime_done h2
  have hs : (p * q).size = bits := by
    rw [size_mul a1 b1 a3 a4 b3 b4]
    omega
  have hp : Nat.Prime 65537 := by norm_num
  have hg : Nat.gcd 65537 ((p - 1) * (q - 1)) = 1 ↔ ¬ 65537 ∣ (p - 1) * (q - 1) := (Nat.Prime.coprime_iff_not_dvd hp)
  have e : genLoop test stream bits (fuel + 1) pos =
      if q = p then genLoop test stream bits fuel pos2
      else if (p * q).size ≠ bits then genLoop test stream bits fuel pos2
      else if Nat.gcd 65537 ((p - 1) * (q - 1)) = 1 then .done ⟨p * q, 65537, modInverse 65537 ((p - 1) * (q - 1)), p, q⟩
      else genLoop test stream bits fuel pos2 := by
    rw [genLoop, h1]
    simp only
    rw [a5, h2]
  rw [e]
  constructor
  · rintro (h | h)
    · rw [if_pos h.symm]
    · split
      · rfl
      · rw [if_neg (by simpa using hs), if_neg (by rw [hg]; exact not_not.2 h)]
  · intro hne hd
    rw [if_neg (fun h => hne h.symm), if_neg (by simpa using hs), if_pos (hg.2 hd)]
    exact ⟨_, rfl, rfl, rfl⟩

/-- C153: no prime is passed over: all numbers between the random one and the one that is tested are not prime. -/
theorem C153_sieve (bits : Nat) (hb : 2 ≤ bits) (l : Bytes) (hl : l.length = (bits + 7) / 8) :
    (∀ v, candidate bits l ≤ v → v < tested bits l → ¬ v.Prime) ∧ tested bits l % 2 = 1 ∧ tested bits l < candidate bits l + 2 ^ 20 := by
  obtain ⟨h1, h2, h3⟩ := candidate_range bits hb l hl
  refine ⟨?_, ?_, (tested_le bits l).2⟩
  · intro v hv1 hv2 hp
    simp only [tested] at hv2
    split at hv2
    · next d hd =>
      obtain ⟨i, -, rfl, -, hj⟩ := nextDelta_spec _ _ _ _ _ hd
      rcases hp.eq_two_or_odd with h | h
      · have : 0 < 2 ^ (bits - 2) := Nat.pow_pos (by decide)
        omega
      · have := hj ((v - candidate bits l) / 2) (by omega)
        rw [sieve_prime bits (candidate bits l) _ h1 (by
          rw [show candidate bits l + (0 + 2 * ((v - candidate bits l) / 2)) = v by omega]
          exact hp)] at this
        cases this
    · omega
  · simp only [tested]
    split
    · next d hd =>
      obtain ⟨i, -, rfl, -, -⟩ := nextDelta_spec _ _ _ _ _ hd
      omega
    · exact h3

/-! ## Which keys there are -/

theorem readFull_eq (l : Bytes) (stream : Nat → UInt8) (pos : Nat) (h : ∀ i (h : i < l.length), stream (pos + i) = l[i]) :
    readFull stream pos l.length = l := by
  apply List.ext_getElem
  · simp [readFull]
  · intro i h1 h2
    simp [readFull, h i h2]

theorem randPrime_bytes (ht : Spec.TestsPrimes test) {bits p : Nat} (hb : 3 ≤ bits) (hp : Spec.IsKeyPrime bits p) (fuel pos : Nat)
    (hr : readFull stream pos ((bits + 7) / 8) = bigEndian ((bits + 7) / 8) p) :
    randPrime test stream bits (fuel + 1) pos = .done (p, pos + (bits + 7) / 8) := by
  have h6 := isKeyPrime_two hb hp
  have hodd : p % 2 = 1 := by
    rcases hp.prime.eq_two_or_odd with h | h
    · omega
    · exact h
  have hc := candidate_fix bits (by omega) p hp.low hp.high hodd
  have htst := tested_prime bits (by omega) _ (bigEndian_len _ p) (by rw [hc]; exact hp.prime)
  rw [hc] at htst
  have hs : p.size = bits := by
    have h1 := Nat.size_le.2 hp.high
    have h2 : bits - 1 < p.size := Nat.lt_size.2 (by
      have := hp.low
      have e : 2 ^ (bits - 1) = 2 * 2 ^ (bits - 2) := by
        rw [← Nat.pow_succ']
        congr 1
        omega
      omega)
    omega
  rw [randPrime, if_neg (by omega)]
  simp only
  rw [hr, htst, if_pos (by simp [ht.complete _ hp.prime, hs])]

/-- C153: every pair of primes can come out: two different primes with the highest two bits set, of half the bits each, are the key for some
random bytes (unless 65537 is no exponent for them). -/
theorem C153_every (ht : Spec.TestsPrimes test) (bits : Nat) (hb : 12 ≤ bits) (p q : Nat) (hp : Spec.IsKeyPrime (bits / 2) p)
    (hq : Spec.IsKeyPrime (bits - bits / 2) q) (hne : p ≠ q) (hd : ¬ 65537 ∣ (p - 1) * (q - 1)) :
    ∃ stream k, generateKey test stream 1 bits = .done k ∧ k.p = p ∧ k.q = q := by
  let l1 := bigEndian ((bits / 2 + 7) / 8) p
  let l2 := bigEndian ((bits - bits / 2 + 7) / 8) q
  let stream : Nat → UInt8 := fun i => (l1 ++ l2).getD i 0
  have n1 : l1.length = (bits / 2 + 7) / 8 := bigEndian_len _ _
  have n2 : l2.length = (bits - bits / 2 + 7) / 8 := bigEndian_len _ _
  have r1 : readFull stream 0 ((bits / 2 + 7) / 8) = l1 := by
    rw [← n1]
    refine readFull_eq l1 stream 0 fun i h => ?_
    simp [stream, List.getElem?_append_left h, h]
  have r2 : readFull stream ((bits / 2 + 7) / 8) ((bits - bits / 2 + 7) / 8) = l2 := by
    rw [← n1, ← n2]
    refine readFull_eq l2 stream l1.length fun i h => ?_
    simp [stream, h]
  have e1 := randPrime_bytes ht (by omega) hp 0 0 r1
  rw [show 0 + (bits / 2 + 7) / 8 = (bits / 2 + 7) / 8 from Nat.zero_add _] at e1
  have e2 := randPrime_bytes ht (by omega) hq 0 _ r2
  obtain ⟨k, h1, h2, h3⟩ := (C153_rejected 0 0 _ _ bits p q e1 e2).2 hne hd
  refine ⟨stream, k, ?_, h2, h3⟩
  unfold generateKey tooFew
  rw [if_neg (by simp; omega)]
  exact h1

/-! ## Using generated keys -/

/-- The library with keys generated as above.  `source` has the random bytes of each call. -/
noncomputable def generator (test : Nat → Bool) (source : Nat → Nat → UInt8) (fuel : Nat) : Nat → Int → Option {k : PrivKey // k.Valid} :=
  fun r bits => match generateKey test (source r) fuel bits with
    | .done k => checkPriv k
    | _ => none

variable {Other : Type} (other : Bytes → Option Other) (source : Nat → Nat → UInt8)

/-- C153: the whole way: keys from `GenRsaKeys` with a number of bits, read by `NewServer` and `NewClient`, encrypt and decrypt exactly the messages
of up to one eighth of the bits (rounded up) less 11 bytes, and sign with the default hash function exactly if there are at least 745 bits. -/
theorem C153_use (ht : Spec.TestsPrimes test) (fuel r : Nat) (bits : Int) (hm : bits < 2 ^ 50) (pri pub : Bytes)
    (h : genRsaKeys (rsaLib (keyTexts (generator test source fuel) other)) r bits = some (pri, pub)) :
    let L := rsaLib (keyTexts (generator test source fuel) other)
    12 ≤ bits ∧ ∃ k : L.Priv, Spec.IsGenerated bits.toNat k.1 ∧ newServer L pri = some k ∧ newClient L pub = .ok (some (L.pub k)) ∧
      (∀ r1 r2 m, if m.length + 11 ≤ (bits.toNat + 7) / 8 then ∃ c, encrypt L r1 (L.pub k) m = some c ∧ decrypt L r2 k c = some m
        else encrypt L r1 (L.pub k) m = none) ∧
      (∀ r1 src, if 745 ≤ bits then ∃ sg, signDefault L r1 k src = .ok (some sg) ∧ verifyDefault L (L.pub k) src sg = .ok true
        else signDefault L r1 k src = .ok none) := by
  intro L
  have hL := (C152_contract (generator test source fuel) other).2
  have hk := C152_keys (generator test source fuel) other r bits
  cases hg : generator test source fuel r bits with
  | none => rw [hk.1 hg] at h; cases h
  | some k =>
    obtain ⟨pri', pub', e, h1, h2⟩ := hk.2 k hg
    rw [h] at e
    simp only [Option.some.injEq, Prod.mk.injEq] at e
    obtain ⟨rfl, rfl⟩ := e
    have hgen : generateKey test (source r) fuel bits = .done k.1 := by
      unfold generator at hg
      split at hg
      · next k' e => rw [e, checkPriv_some hg]
      · cases hg
    obtain ⟨b12, hG⟩ := C153_generated ht fuel bits k.1 hgen
    have hsz : k.1.n.size = bits.toNat := by
      have a1 := Nat.size_le.2 hG.bits.2
      have a2 := Nat.lt_size.2 hG.bits.1
      omega
    have hbl : byteLen k.1.n = (bits.toNat + 7) / 8 := by rw [byteLen_size, hsz]
    refine ⟨b12, k, hG, h1, h2, ?_, ?_⟩
    · intro r1 r2 m
      have he := C92_encrypt L hL k r1 r2 m
      have hs : L.size (L.pub k) = byteLen k.1.n := rfl
      rw [hs, hbl] at he
      split
      · next hle =>
        cases hc : encrypt L r1 (L.pub k) m with
        | none => have := he.1.1 hc; omega
        | some c => exact ⟨c, rfl, he.2 c hc⟩
      · next hgt => exact he.1.2 (by omega)
    · intro r1 src
      obtain ⟨h3, o, ho⟩ := (C151_hashes (keyTexts (generator test source fuel) other) k r1 src).2.2 (7, 94) (by simp)
      have hsd : signDefault L r1 k src = sign L r1 k src 7 := rfl
      simp only at h3 ho
      rw [hbl] at h3
      rw [hsd]
      split
      · next hle =>
        cases o with
        | none => have := h3.1 ho; omega
        | some sg => exact ⟨sg, ho, (C151_signature _ k r1 7 src sg).2 ho⟩
      · next hgt => exact h3.2 (by omega)

/-- A test of primes, and a key of 12 bits from random bytes that are all 0 but for a few: 53 and 59. -/
example : ∃ (test : Nat → Bool) (stream : Nat → UInt8), Spec.TestsPrimes test ∧
    generateKey test stream 3 12 = .done ⟨53 * 59, 65537, modInverse 65537 (52 * 58), 53, 59⟩ :=
  ⟨fun n => decide n.Prime, fun i => if i = 1 then 58 else 0, ⟨fun _ h => by simpa using h, fun _ h => by simpa using h⟩, by decide +kernel⟩

theorem primeTest : Spec.TestsPrimes fun n => decide n.Prime := ⟨fun _ h => by simpa using h, fun _ h => by simpa using h⟩

example : Spec.IsGenerated 12 ⟨53 * 59, 65537, modInverse 65537 (52 * 58), 53, 59⟩ :=
  (C153_generated primeTest 3 12 _ (show generateKey (fun n => decide n.Prime) (fun i => if i = 1 then 58 else 0) 3 12 = .done _ by decide +kernel)).2
example : ∃ stream k, generateKey (fun n => decide n.Prime) stream 1 12 = .done k ∧ k.p = 59 ∧ k.q = 61 :=
  C153_every primeTest 12 (by decide) 59 61 ⟨by norm_num, by decide, by decide⟩ ⟨by norm_num, by decide, by decide⟩ (by decide) (by decide)
example := C153_few 13 (by decide)
example := C153_sieve 12 (by decide) [11, 200] rfl

end Verif.Rsa
