import Verif.Model.RsaGen
import Verif.Lemmas.KeyTexts
import Mathlib.Tactic
/-!
# Lemmas on generated RSA keys
-/
set_option linter.unusedSectionVars false

namespace Verif.Rsa

open Verif.Hash (bigEndian ofBig)

/-! ## Bytes of a candidate -/

theorem all_bytes {P : UInt8 → Prop} (h : ∀ n : Fin 256, P (UInt8.ofNat n.1)) (x : UInt8) : P x := by
  have := h ⟨x.toNat, x.toNat_lt⟩
  rwa [UInt8.ofNat_toNat] at this

theorem top_range (b : Nat) (h1 : 2 ≤ b) (h2 : b ≤ 8) (x : UInt8) :
    3 * 2 ^ (b - 2) ≤ ((x &&& UInt8.ofNat (2 ^ b - 1)) ||| UInt8.ofNat (3 * 2 ^ (b - 2))).toNat ∧
    ((x &&& UInt8.ofNat (2 ^ b - 1)) ||| UInt8.ofNat (3 * 2 ^ (b - 2))).toNat < 2 ^ b := by
  refine all_bytes (P := fun x => 3 * 2 ^ (b - 2) ≤ ((x &&& UInt8.ofNat (2 ^ b - 1)) ||| UInt8.ofNat (3 * 2 ^ (b - 2))).toNat ∧
    ((x &&& UInt8.ofNat (2 ^ b - 1)) ||| UInt8.ofNat (3 * 2 ^ (b - 2))).toNat < 2 ^ b) ?_ x
  interval_cases b <;> decide +kernel

theorem top_one (x : UInt8) : ((x &&& UInt8.ofNat (2 ^ 1 - 1)) ||| 1) = 1 := by
  refine all_bytes (P := fun x => ((x &&& UInt8.ofNat (2 ^ 1 - 1)) ||| 1) = 1) ?_ x
  decide +kernel

theorem second_range (x : UInt8) : 128 ≤ (x ||| 0x80).toNat := by
  refine all_bytes (P := fun x => 128 ≤ (x ||| 0x80).toNat) ?_ x
  decide +kernel

theorem low_bit (x : UInt8) : (x ||| 1).toNat = x.toNat + (1 - x.toNat % 2) := by
  refine all_bytes (P := fun x => (x ||| 1).toNat = x.toNat + (1 - x.toNat % 2)) ?_ x
  decide +kernel

theorem top_fix (b : Nat) (h1 : 2 ≤ b) (h2 : b ≤ 8) (x : UInt8) (l1 : 3 * 2 ^ (b - 2) ≤ x.toNat) (l2 : x.toNat < 2 ^ b) :
    ((x &&& UInt8.ofNat (2 ^ b - 1)) ||| UInt8.ofNat (3 * 2 ^ (b - 2))) = x := by
  refine all_bytes (P := fun x => 3 * 2 ^ (b - 2) ≤ x.toNat → x.toNat < 2 ^ b →
    ((x &&& UInt8.ofNat (2 ^ b - 1)) ||| UInt8.ofNat (3 * 2 ^ (b - 2))) = x) ?_ x l1 l2
  clear l1 l2 x
  interval_cases b <;> decide +kernel

theorem second_fix (x : UInt8) (h : 128 ≤ x.toNat) : x ||| 0x80 = x := by
  refine all_bytes (P := fun x => 128 ≤ x.toNat → x ||| 0x80 = x) ?_ x h
  decide +kernel

theorem setTop_ge (b : Nat) (hb : 2 ≤ b) (x : UInt8) (r : Bytes) :
    setTop b (x :: r) = ((x &&& UInt8.ofNat (2 ^ b - 1)) ||| UInt8.ofNat (3 * 2 ^ (b - 2))) :: r := by
  unfold setTop
  exact if_pos hb

theorem setTop_one (x y : UInt8) (r : Bytes) : setTop 1 (x :: y :: r) = 1 :: (y ||| 0x80) :: r := by
  have := top_one x
  unfold setTop
  exact (if_neg (by decide)).trans (congrArg (· :: (y ||| 0x80) :: r) this)

theorem setLow_length : ∀ l : Bytes, (setLow l).length = l.length
  | [] => rfl
  | [_] => rfl
  | x :: y :: r => by rw [setLow, List.length_cons, setLow_length (y :: r)]; rfl

theorem ofBig_setLow : ∀ l : Bytes, l ≠ [] → ofBig (setLow l) = ofBig l + (1 - ofBig l % 2)
  | [], h => absurd rfl h
  | [x], _ => by
    rw [setLow, ofBig_cons, ofBig_cons, low_bit]
    simp [ofBig]
  | x :: y :: r, _ => by
    rw [setLow, ofBig_cons, ofBig_cons, setLow_length, ofBig_setLow (y :: r) (by simp)]
    have : (x.toNat * 256 ^ (y :: r).length + ofBig (y :: r)) % 2 = ofBig (y :: r) % 2 := by
      rw [List.length_cons, Nat.pow_succ, Nat.add_mod, ← Nat.mul_assoc, Nat.mul_mod]
      simp
    rw [this]
    omega

theorem pow256 (n : Nat) : 256 ^ n = 2 ^ (8 * n) := by
  rw [show 256 = 2 ^ 8 from rfl, ← Nat.pow_mul]

theorem bits_split (bits : Nat) (h : 2 ≤ bits) : ∃ n b, 1 ≤ b ∧ b ≤ 8 ∧ bits = 8 * n + b ∧ (bits + 7) / 8 = n + 1 ∧
    (if bits % 8 = 0 then 8 else bits % 8) = b ∧ (b = 1 → 1 ≤ n) := by
  refine ⟨(bits - 1) / 8, (bits - 1) % 8 + 1, by omega, by omega, by omega, by omega, ?_, by omega⟩
  split <;> omega

theorem setTop_range (n b : Nat) (h1 : 1 ≤ b) (h2 : b ≤ 8) (h3 : b = 1 → 1 ≤ n) (l : Bytes) (hl : l.length = n + 1) :
    3 * 2 ^ (8 * n + b - 2) ≤ ofBig (setTop b l) ∧ ofBig (setTop b l) < 2 ^ (8 * n + b) := by
  match l, hl with
  | x :: r, hl =>
    have hr : r.length = n := by simpa using hl
    rcases Nat.lt_or_ge b 2 with hb | hb
    · have hb : b = 1 := by omega
      subst hb
      match r, hr with
      | [], hr => simp at hr; omega
      | y :: r, hr =>
        have hr' : r.length + 1 = n := by simpa using hr
        rw [setTop_one, ofBig_cons, ofBig_cons]
        have a := second_range y
        have b := (y ||| 0x80).toNat_lt
        have c := ofBig_lt r
        simp only [List.length_cons]
        rw [hr']
        subst hr'
        have e1 : 2 ^ (8 * (r.length + 1) + 1) = 2 * 256 * 256 ^ r.length := by
          rw [pow256, show 8 * (r.length + 1) + 1 = 9 + 8 * r.length by omega, Nat.pow_add]
        have e2 : 2 ^ (8 * (r.length + 1) + 1 - 2) = 128 * 256 ^ r.length := by
          rw [pow256, show 8 * (r.length + 1) + 1 - 2 = 7 + 8 * r.length by omega, Nat.pow_add]
        rw [e1, e2, Nat.pow_succ]
        have d : 128 * 256 ^ r.length ≤ (y ||| 0x80).toNat * 256 ^ r.length := Nat.mul_le_mul_right _ a
        have e : ((y ||| 0x80).toNat + 1) * 256 ^ r.length ≤ 256 * 256 ^ r.length := Nat.mul_le_mul_right _ b
        rw [Nat.succ_mul] at e
        have f : (1 : UInt8).toNat = 1 := rfl
        rw [f]
        generalize 256 ^ r.length = P at *
        generalize (y ||| 0x80).toNat * P = Q at *
        omega
    · rw [setTop_ge b hb, ofBig_cons, hr]
      obtain ⟨a, c⟩ := top_range b hb h2 x
      have d := ofBig_lt r
      rw [hr] at d
      generalize ((x &&& UInt8.ofNat (2 ^ b - 1)) ||| UInt8.ofNat (3 * 2 ^ (b - 2))).toNat = t at *
      have e1 : 2 ^ (8 * n + b) = 2 ^ b * 256 ^ n := by rw [pow256, Nat.add_comm, Nat.pow_add]
      have e2 : 2 ^ (8 * n + b - 2) = 2 ^ (b - 2) * 256 ^ n := by
        rw [pow256, ← Nat.pow_add]
        congr 1
        omega
      rw [e1, e2]
      have f : 3 * 2 ^ (b - 2) * 256 ^ n ≤ t * 256 ^ n := Nat.mul_le_mul_right _ a
      have g : (t + 1) * 256 ^ n ≤ 2 ^ b * 256 ^ n := Nat.mul_le_mul_right _ c
      rw [Nat.succ_mul] at g
      rw [Nat.mul_assoc] at f
      omega

theorem setTop_length (b : Nat) (l : Bytes) : (setTop b l).length = l.length := by
  match l with
  | [] => rfl
  | x :: r =>
    unfold setTop
    simp only
    split
    · rfl
    · cases r <;> rfl

theorem candidate_range (bits : Nat) (h : 2 ≤ bits) (l : Bytes) (hl : l.length = (bits + 7) / 8) :
    3 * 2 ^ (bits - 2) ≤ candidate bits l ∧ candidate bits l < 2 ^ bits ∧ candidate bits l % 2 = 1 := by
  obtain ⟨n, b, h1, h2, h3, h4, h5, h6⟩ := bits_split bits h
  rw [candidate, h5]
  rw [h4] at hl
  have hne : setTop b l ≠ [] := by
    intro h0
    have := setTop_length b l
    rw [h0, hl] at this
    simp at this
  obtain ⟨a, c⟩ := setTop_range n b h1 h2 h6 l hl
  rw [ofBig_setLow _ hne, h3]
  have e : 2 ^ (8 * n + b) = 2 * 2 ^ (8 * n + b - 1) := by
    rw [← Nat.pow_succ']
    congr 1
    omega
  rw [e] at c ⊢
  omega

/-- Random bytes can be the bytes of any odd number with the highest two bits set. -/
theorem candidate_fix (bits : Nat) (h : 2 ≤ bits) (p : Nat) (h1 : 3 * 2 ^ (bits - 2) ≤ p) (h2 : p < 2 ^ bits) (h3 : p % 2 = 1) :
    candidate bits (bigEndian ((bits + 7) / 8) p) = p := by
  obtain ⟨n, b, b1, b2, e1, e2, e3, e4⟩ := bits_split bits h
  have hp : p < 256 ^ (n + 1) := by
    rw [pow256]
    exact Nat.lt_of_lt_of_le h2 (Nat.pow_le_pow_right (by decide) (by omega))
  have hv := ofBig_bigEndian (n + 1) p hp
  have hl := bigEndian_len (n + 1) p
  rw [candidate, e3, e2]
  generalize bigEndian (n + 1) p = l at hv hl
  have key : setTop b l = l := by
    match l, hl, hv with
    | x :: r, hl, hv =>
      have hr : r.length = n := by simpa using hl
      have hlt := ofBig_lt r
      rw [ofBig_cons, hr] at hv
      rw [hr] at hlt
      rcases Nat.lt_or_ge b 2 with hb | hb
      · have hb : b = 1 := by omega
        subst hb
        match r, hr with
        | [], hr => simp at hr; have := e4 rfl; omega
        | y :: r, hr =>
          have hr' : r.length + 1 = n := by simpa using hr
          rw [setTop_one]
          rw [ofBig_cons] at hv hlt
          have c := ofBig_lt r
          have d := y.toNat_lt
          have g1 : 2 ^ bits = 512 * 256 ^ r.length := by
            rw [pow256, e1, ← hr', show 8 * (r.length + 1) + 1 = 9 + 8 * r.length by omega, Nat.pow_add]
          have g2 : 2 ^ (bits - 2) = 128 * 256 ^ r.length := by
            rw [pow256, e1, ← hr', show 8 * (r.length + 1) + 1 - 2 = 7 + 8 * r.length by omega, Nat.pow_add]
          rw [g1] at h2
          rw [g2] at h1
          rw [← hr', Nat.pow_succ] at hv hlt
          have P0 : 0 < 256 ^ r.length := Nat.pow_pos (by decide)
          have hx : x.toNat = 1 := by
            generalize 256 ^ r.length = P at *
            generalize ofBig r = R at *
            have hx2 : x.toNat < 2 := by
              by_contra hc
              have : 2 * (P * 256) ≤ x.toNat * (P * 256) := Nat.mul_le_mul_right _ (by omega)
              omega
            have hx0 : x.toNat ≠ 0 := by
              intro h0
              rw [h0] at hv
              omega
            omega
          have hx' : x = 1 := UInt8.toNat_inj.1 hx
          have hy : 128 ≤ y.toNat := by
            rw [hx] at hv
            by_contra hc
            have : y.toNat * 256 ^ r.length ≤ 127 * 256 ^ r.length := Nat.mul_le_mul_right _ (by omega)
            generalize 256 ^ r.length = P at *
            omega
          rw [hx', second_fix y hy]
      · rw [setTop_ge b hb]
        have g1 : 2 ^ bits = 2 ^ b * 256 ^ n := by rw [pow256, e1, Nat.add_comm, Nat.pow_add]
        have g2 : 2 ^ (bits - 2) = 2 ^ (b - 2) * 256 ^ n := by
          rw [pow256, ← Nat.pow_add, e1]
          congr 1
          omega
        rw [g1] at h2
        rw [g2] at h1
        have P0 : 0 < 256 ^ n := Nat.pow_pos (by decide)
        rw [top_fix b hb b2 x]
        · by_contra hc
          have : (x.toNat + 1) * 256 ^ n ≤ 3 * 2 ^ (b - 2) * 256 ^ n := Nat.mul_le_mul_right _ (by omega)
          rw [Nat.succ_mul, Nat.mul_assoc 3] at this
          omega
        · by_contra hc
          have : 2 ^ b * 256 ^ n ≤ x.toNat * 256 ^ n := Nat.mul_le_mul_right _ (by omega)
          omega
  rw [key, ofBig_setLow l (by intro h0; rw [h0] at hl; simp at hl), hv]
  omega

/-! ## The sieve -/

theorem sieve_prime (bits c d : Nat) (hc : 3 * 2 ^ (bits - 2) ≤ c) (hp : (c + d).Prime) :
    sieve bits (c % smallProduct) d = true := by
  rw [sieve, List.all_eq_true]
  intro q hq
  have hq' : q ∣ smallProduct ∧ 3 ≤ q ∧ q ≤ 53 := by
    revert q
    decide
  simp only [Bool.not_eq_true', Bool.and_eq_false_iff, decide_eq_false_iff_not, Bool.or_eq_false_iff, not_not]
  by_cases hm : (c % smallProduct + d) % q = 0
  · right
    have hd : q ∣ c + d := by
      have : (c + d) % q = (c % smallProduct + d) % q := by
        rw [Nat.add_mod c, Nat.add_mod (c % smallProduct), Nat.mod_mod_of_dvd _ hq'.1]
      exact Nat.dvd_of_mod_eq_zero (this.trans hm)
    have he : q = c + d := by
      rcases (Nat.dvd_prime hp).1 hd with h1 | h1
      · omega
      · exact h1
    have hs : ¬ 6 < bits := by
      intro h6
      have : 2 ^ 5 ≤ 2 ^ (bits - 2) := Nat.pow_le_pow_right (by decide) (by omega)
      omega
    refine ⟨hs, ?_⟩
    rw [Nat.mod_eq_of_lt]
    · exact he.symm
    · unfold smallProduct
      omega
  · exact .inl hm

theorem nextDelta_spec (bits m : Nat) : ∀ n d0 d, nextDelta bits m n d0 = some d →
    ∃ i < n, d = d0 + 2 * i ∧ sieve bits m d = true ∧ ∀ j < i, sieve bits m (d0 + 2 * j) = false
  | 0, _, _, h => by simp [nextDelta] at h
  | n + 1, d0, d, h => by
    rw [nextDelta] at h
    split at h
    · next hs =>
      simp only [Option.some.injEq] at h
      subst h
      exact ⟨0, by omega, by omega, hs, by omega⟩
    · next hs =>
      obtain ⟨i, h1, h2, h3, h4⟩ := nextDelta_spec bits m n _ d h
      refine ⟨i + 1, by omega, by omega, h3, ?_⟩
      intro j hj
      cases j with
      | zero => simpa using hs
      | succ j =>
        have := h4 j (by omega)
        rwa [show d0 + 2 * (j + 1) = d0 + 2 + 2 * j by omega]

theorem tested_prime (bits : Nat) (h : 2 ≤ bits) (l : Bytes) (hl : l.length = (bits + 7) / 8) (hp : (candidate bits l).Prime) :
    tested bits l = candidate bits l := by
  have := sieve_prime bits (candidate bits l) 0 (candidate_range bits h l hl).1 hp
  simp only [tested]
  rw [show (2 : Nat) ^ 19 = (2 ^ 19 - 1) + 1 from rfl, nextDelta, if_pos this]
  rfl

theorem tested_le (bits : Nat) (l : Bytes) : candidate bits l ≤ tested bits l ∧ tested bits l < candidate bits l + 2 ^ 20 := by
  simp only [tested]
  split
  · next d h =>
    obtain ⟨i, h1, h2, -⟩ := nextDelta_spec _ _ _ _ _ h
    omega
  · omega

theorem readFull_length (stream : Nat → UInt8) (pos n : Nat) : (readFull stream pos n).length = n := by simp [readFull]

/-! ## The loops -/

theorem randPrime_done {test : Nat → Bool} {stream : Nat → UInt8} {bits : Nat} : ∀ {fuel pos p pos' : Nat},
    randPrime test stream bits fuel pos = .done (p, pos') → 2 ≤ bits ∧ test p = true ∧ 3 * 2 ^ (bits - 2) ≤ p ∧ p < 2 ^ bits ∧ p.size = bits
  | 0, _, _, _, h => by simp [randPrime] at h
  | fuel + 1, pos, p, pos', h => by
    rw [randPrime] at h
    split at h
    · cases h
    · next hb =>
      simp only at h
      split at h
      · next ht =>
        simp only [Bool.and_eq_true, beq_iff_eq] at ht
        simp only [Run.done.injEq, Prod.mk.injEq] at h
        obtain ⟨rfl, -⟩ := h
        have := candidate_range bits (by omega) _ (readFull_length stream pos ((bits + 7) / 8))
        have h2 := tested_le bits (readFull stream pos ((bits + 7) / 8))
        refine ⟨by omega, ht.1, by omega, ?_, ht.2⟩
        rw [← Nat.size_le]
        exact ht.2.le
      · exact randPrime_done h

theorem randPrime_error {test : Nat → Bool} {stream : Nat → UInt8} {bits : Nat} (hb : 2 ≤ bits) : ∀ {fuel pos : Nat},
    randPrime test stream bits fuel pos ≠ .error
  | 0, _ => by simp [randPrime]
  | fuel + 1, pos => by
    rw [randPrime, if_neg (by omega)]
    simp only
    split
    · simp
    · exact randPrime_error hb

theorem randPrime_more {test : Nat → Bool} {stream : Nat → UInt8} {bits : Nat} : ∀ {fuel pos : Nat} {x : Nat × Nat} (more : Nat),
    randPrime test stream bits fuel pos = .done x → randPrime test stream bits (fuel + more) pos = .done x
  | 0, _, _, _, h => by simp [randPrime] at h
  | fuel + 1, pos, x, more, h => by
    rw [Nat.succ_add, randPrime]
    rw [randPrime] at h
    split
    · next hb => rw [if_pos hb] at h; cases h
    · next hb =>
      rw [if_neg hb] at h
      simp only at h ⊢
      split
      · next ht => rwa [if_pos ht] at h
      · next ht => rw [if_neg ht] at h; exact randPrime_more more h

theorem size_mul {p q a b : Nat} (ha : 2 ≤ a) (hb : 2 ≤ b) (p1 : 3 * 2 ^ (a - 2) ≤ p) (p2 : p < 2 ^ a) (q1 : 3 * 2 ^ (b - 2) ≤ q)
    (q2 : q < 2 ^ b) : (p * q).size = a + b := by
  have h1 : p * q < 2 ^ (a + b) := by
    rw [Nat.pow_add]
    exact Nat.mul_lt_mul'' p2 q2
  have h2 : 2 ^ (a + b - 1) ≤ p * q := by
    have := Nat.mul_le_mul p1 q1
    have e : 3 * 2 ^ (a - 2) * (3 * 2 ^ (b - 2)) = 9 * 2 ^ (a + b - 4) := by
      rw [show a + b - 4 = (a - 2) + (b - 2) by omega, Nat.pow_add]
      ring
    have e2 : 2 ^ (a + b - 1) = 8 * 2 ^ (a + b - 4) := by
      rw [show 8 = 2 ^ 3 from rfl, ← Nat.pow_add]
      congr 1
      omega
    omega
  have h3 := Nat.size_le.2 h1
  have h4 := Nat.lt_size.2 h2
  omega

theorem byteLen_size (n : Nat) : byteLen n = (n.size + 7) / 8 := by
  by_cases h : n = 0
  · subst h
    unfold byteLen
    simp
  · have h1 := byteLen_lt n
    have h2 := byteLen_le n h
    rw [pow256] at h1 h2
    have h3 := Nat.size_le.2 h1
    have h4 := Nat.lt_size.2 h2
    have : byteLen n ≠ 0 := by
      unfold byteLen
      simp [h]
    omega

end Verif.Rsa
