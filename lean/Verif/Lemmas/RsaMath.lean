import Verif.Model.RsaMath
import Verif.Props.Checksums
import Mathlib.FieldTheory.Finite.Basic
/-!
# Lemmas on RSA: powers, bytes, the private operation
-/
set_option linter.unusedSectionVars false

namespace Verif.Rsa

open Verif.Hash (bigEndian ofBig ofLittle littleEndian ofLittle_lt littleEndian_ofLittle ofLittle_surj ofLittle_inj bigEndian_reverse beBytes_inj)

theorem powMod_eq (n : Nat) : ∀ (e b : Nat), powMod b e n = b ^ e % n := by
  intro e
  induction e using Nat.strongRecOn with
  | ind e ih =>
    intro b
    rw [powMod]
    split
    · next h => rw [h, Nat.pow_zero]
    · next h =>
      simp only [ih (e / 2) (by omega)]
      have hsq : ∀ j, (b * b % n) ^ j % n = b ^ (2 * j) % n := by
        intro j
        rw [← Nat.pow_mod, Nat.pow_mul, Nat.pow_two]
      rw [hsq]
      split
      · next h1 =>
        have e1 : e = 2 * (e / 2) + 1 := by omega
        conv => rhs; rw [e1, Nat.pow_succ, Nat.mul_comm]
        rw [Nat.mul_mod_mod]
      · next h1 => rw [show 2 * (e / 2) = e by omega]

theorem byteLen_lt (n : Nat) : n < 256 ^ byteLen n := by
  induction n using Nat.strongRecOn with
  | ind n ih =>
    rw [byteLen]
    split
    · next h => simp [h]
    · next h =>
      have := ih (n / 256) (by omega)
      rw [Nat.pow_succ]
      omega

theorem byteLen_le (n : Nat) (h : n ≠ 0) : 256 ^ (byteLen n - 1) ≤ n := by
  induction n using Nat.strongRecOn with
  | ind n ih =>
    rw [byteLen, if_neg h, Nat.add_sub_cancel]
    by_cases h0 : n / 256 = 0
    · rw [h0, byteLen, if_pos rfl]; simp; omega
    · have h1 := ih (n / 256) (by omega) h0
      have h2 : byteLen (n / 256) = (byteLen (n / 256) - 1) + 1 := by
        rw [byteLen, if_neg h0, Nat.add_sub_cancel]
      rw [h2, Nat.pow_succ]
      omega

theorem ofBig_eq (l : Bytes) : ofBig l = ofLittle l.reverse := by
  rw [ofBig, ofLittle, List.foldr_reverse]
  congr 1
  funext n b
  exact Nat.add_comm _ _

theorem ofBig_lt (l : Bytes) : ofBig l < 256 ^ l.length := by
  have := ofLittle_lt l.reverse
  rwa [List.length_reverse, ← ofBig_eq] at this

theorem bigEndian_len (k v : Nat) : (bigEndian k v).length = k := by simp [bigEndian]

theorem bigEndian_ofBig (l : Bytes) : bigEndian l.length (ofBig l) = l := by
  have := littleEndian_ofLittle l.reverse
  rw [List.length_reverse, ← ofBig_eq] at this
  rw [bigEndian_reverse, this, List.reverse_reverse]

theorem ofBig_bigEndian (k v : Nat) (h : v < 256 ^ k) : ofBig (bigEndian k v) = v := by
  have h1 := bigEndian_ofBig (bigEndian k v)
  rw [bigEndian_len] at h1
  have := ofBig_lt (bigEndian k v)
  rw [bigEndian_len] at this
  exact beBytes_inj k _ _ this h h1

theorem ofBig_zero (l : Bytes) : ofBig (0 :: l) = ofBig l := rfl

/-! ## Powers modulo primes -/

section
variable {p : Nat} (hp : p.Prime) (h2 : 2 < p)
include hp h2

theorem pow_one_mod (a x : Nat) (ha : a % (p - 1) = 1) : x ^ a ≡ x [MOD p] := by
  have := Fact.mk hp
  rw [← ZMod.natCast_eq_natCast_iff, Nat.cast_pow]
  by_cases h0 : (x : ZMod p) = 0
  · rw [h0, zero_pow]
    rintro rfl
    simp at ha
  · rw [pow_eq_pow_mod a (ZMod.pow_card_sub_one_eq_one h0), ha, pow_one]

theorem pow_red (e d x : Nat) (hd : e * d % (p - 1) = 1) : x ^ (d % (p - 1)) ≡ x ^ d [MOD p] := by
  have := Fact.mk hp
  have hm : d % (p - 1) ≠ 0 := by
    intro h
    rw [Nat.mul_mod, h, Nat.mul_zero, Nat.zero_mod] at hd
    exact absurd hd (by decide)
  have hd0 : d ≠ 0 := by rintro rfl; simp at hm
  rw [← ZMod.natCast_eq_natCast_iff, Nat.cast_pow, Nat.cast_pow]
  by_cases h0 : (x : ZMod p) = 0
  · rw [h0, zero_pow hm, zero_pow hd0]
  · exact (pow_eq_pow_mod d (ZMod.pow_card_sub_one_eq_one h0)).symm

end

/-- Keys as `GenRsaKeys` makes them: two odd primes, exponents that undo each other, and numbers that fit into
memory. -/
structure PrivKey.Valid (k : PrivKey) : Prop where
  p : k.p.Prime
  q : k.q.Prime
  p2 : 2 < k.p
  q2 : 2 < k.q
  ne : k.p ≠ k.q
  n : k.n = k.p * k.q
  ep : k.e * k.d % (k.p - 1) = 1
  eq : k.e * k.d % (k.q - 1) = 1
  e : 2 ≤ k.e ∧ k.e < 2 ^ 31
  size : byteLen k.n < 2 ^ 48 ∧ byteLen k.d < 2 ^ 48

variable {k : PrivKey} (h : k.Valid)
include h

theorem coprime_pq : Nat.Coprime k.p k.q := (Nat.coprime_primes h.p h.q).2 h.ne

theorem modEq_n {a b : Nat} (hp : a ≡ b [MOD k.p]) (hq : a ≡ b [MOD k.q]) : a ≡ b [MOD k.n] := by
  rw [h.n]
  exact (Nat.modEq_and_modEq_iff_modEq_mul (coprime_pq h)).1 ⟨hp, hq⟩

theorem pow_ed (x : Nat) : x ^ (k.e * k.d) ≡ x [MOD k.n] :=
  modEq_n h (pow_one_mod h.p h.p2 _ _ h.ep) (pow_one_mod h.q h.q2 _ _ h.eq)

theorem n_pos : 0 < k.n := by
  rw [h.n]
  exact Nat.mul_pos h.p.pos h.q.pos

/-- The two powers put together are the power modulo `n`. -/
theorem op_eq (c : Nat) : k.op c = c ^ k.d % k.n := by
  have hpp : (0 : Int) < k.p := by exact_mod_cast h.p.pos
  have hqp : (0 : Int) < k.q := by exact_mod_cast h.q.pos
  simp only [PrivKey.op, powMod_eq]
  generalize hm1 : c ^ (k.d % (k.p - 1)) % k.p = m1
  generalize hm2 : c ^ (k.d % (k.q - 1)) % k.q = m2
  have e1 : m1 ≡ c ^ k.d [MOD k.p] := by rw [← hm1]; exact (Nat.mod_modEq _ _).trans (pow_red h.p h.p2 k.e k.d c h.ep)
  have e2 : m2 ≡ c ^ k.d [MOD k.q] := by rw [← hm2]; exact (Nat.mod_modEq _ _).trans (pow_red h.q h.q2 k.e k.d c h.eq)
  have l2 : m2 < k.q := by rw [← hm2]; exact Nat.mod_lt _ h.q.pos
  generalize ht : (if ((m1 : Int) - m2 < 0) then (m1 : Int) - m2 + k.p else (m1 : Int) - m2) = t
  have ht' : t ≡ (m1 : Int) - m2 [ZMOD k.p] := by
    rw [← ht]
    split
    · exact Int.add_modEq_right
    · exact Int.ModEq.refl _
  generalize hu : t * (modInverse k.q k.p : Int) % (k.p : Int) = u
  have hu0 : 0 ≤ u := by rw [← hu]; exact Int.emod_nonneg _ (by omega)
  have hu1 : u < k.p := by rw [← hu]; exact Int.emod_lt_of_pos _ hpp
  have hinv : (modInverse k.q k.p : Int) * k.q ≡ 1 [ZMOD k.p] := by
    have hg := Nat.gcd_eq_gcd_ab k.q k.p
    rw [(coprime_pq h).symm.gcd_eq_one] at hg
    have hi : (modInverse k.q k.p : Int) = Nat.gcdA k.q k.p % k.p := by
      rw [modInverse, Int.toNat_of_nonneg (Int.emod_nonneg _ (by omega))]
    rw [hi]
    have h1 : (Nat.gcdA k.q k.p % (k.p : Int)) * k.q ≡ Nat.gcdA k.q k.p * k.q [ZMOD k.p] := (Int.mod_modEq _ _).mul_right _
    refine h1.trans ?_
    have h2 : Nat.gcdA k.q k.p * k.q = 1 - k.p * Nat.gcdB k.q k.p := by
      rw [Nat.cast_one] at hg
      rw [hg]; ring
    rw [h2]
    exact Int.modEq_iff_dvd.2 ⟨Nat.gcdB k.q k.p, by ring⟩
  have hup : u * k.q ≡ (m1 : Int) - m2 [ZMOD k.p] := by
    have h1 : u ≡ t * modInverse k.q k.p [ZMOD k.p] := by rw [← hu]; exact Int.mod_modEq _ _
    have h2 := h1.mul_right k.q
    rw [mul_assoc] at h2
    have h3 := h2.trans (hinv.mul_left t)
    rw [mul_one] at h3
    exact h3.trans ht'
  obtain ⟨v, rfl⟩ := Int.eq_ofNat_of_zero_le hu0
  have hv : v < k.p := by exact_mod_cast hu1
  have hX : ((v : Int) * k.q + m2).toNat = v * k.q + m2 := by
    rw [show ((v : Int) * k.q + m2) = ((v * k.q + m2 : Nat) : Int) by push_cast; ring, Int.toNat_natCast]
  rw [hX]
  have hlt : v * k.q + m2 < k.n := by
    rw [h.n]
    have : (v + 1) * k.q ≤ k.p * k.q := Nat.mul_le_mul_right _ hv
    rw [Nat.succ_mul] at this
    omega
  have hp : v * k.q + m2 ≡ c ^ k.d [MOD k.p] := by
    refine Nat.ModEq.trans ?_ e1
    rw [← Int.natCast_modEq_iff]
    push_cast
    have := hup.add_right (m2 : Int)
    rwa [sub_add_cancel] at this
  have hq : v * k.q + m2 ≡ c ^ k.d [MOD k.q] := by
    refine Nat.ModEq.trans ?_ e2
    rw [Nat.ModEq, Nat.add_comm, Nat.add_mul_mod_self_right]
  have := modEq_n h hp hq
  rw [Nat.ModEq, Nat.mod_eq_of_lt hlt] at this
  exact this

theorem op_lt (c : Nat) : k.op c < k.n := by
  rw [op_eq h]
  exact Nat.mod_lt _ (n_pos h)

/-- The private operation undoes the public one. -/
theorem op_pow (x : Nat) (hx : x < k.n) : k.op (powMod x k.e k.n) = x := by
  rw [op_eq h, powMod_eq, ← Nat.pow_mod, ← Nat.pow_mul]
  have := pow_ed h x
  rwa [Nat.ModEq, Nat.mod_eq_of_lt hx] at this

/-- And the other way round. -/
theorem pow_op (x : Nat) (hx : x < k.n) : powMod (k.op x) k.e k.n = x := by
  rw [op_eq h, powMod_eq, ← Nat.pow_mod, ← Nat.pow_mul, Nat.mul_comm]
  have := pow_ed h x
  rwa [Nat.ModEq, Nat.mod_eq_of_lt hx] at this

end Verif.Rsa
