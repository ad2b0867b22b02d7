import Verif.Model.MathUtil
import Mathlib.Tactic.IntervalCases
/-!
# Properties C46 and C47: comma grouping; bits, bytes and words
-/

set_option linter.unusedSectionVars false

namespace Verif.Comma

/-! ## Specification -/

/-- The number written by a list of decimal digits. -/
def value (l : List Char) : Nat := l.foldl (fun a ch => a * 10 + (ch.toNat - 48)) 0

/-- A decimal digit. -/
def IsDigit (ch : Char) : Prop := 48 ≤ ch.toNat ∧ ch.toNat ≤ 57

/-! ## Lemmas -/

theorem dec3_eq : ∀ d < 1000, dec3 d = dec (d / 100) ++ (dec (d / 10 % 10) ++ dec (d % 10)) := by decide +kernel

theorem dec3_len : ∀ d < 1000, (dec3 d).length = 3 ∧ ∀ ch ∈ dec3 d, 48 ≤ ch.toNat ∧ ch.toNat ≤ 57 := by decide +kernel

theorem dec_small : ∀ d < 1000, 1 ≤ (dec d).length ∧ (dec d).length ≤ 3 ∧ ∀ ch ∈ dec d, 48 ≤ ch.toNat ∧ ch.toNat ≤ 57 := by
  decide +kernel

theorem dec_append (n d : Nat) (hn : 0 < n) (hd : d < 10) : dec n ++ dec d = dec (10 * n + d) :=
  Nat.toDigits_append_toDigits (by omega) hn hd

theorem dec_split (n : Nat) (h : 1000 ≤ n) : dec n = dec (n / 1000) ++ dec3 (n % 1000) := by
  rw [dec3_eq _ (by omega), ← List.append_assoc, ← List.append_assoc,
    dec_append _ _ (by omega) (by omega), dec_append _ _ (by omega) (by omega), dec_append _ _ (by omega) (by omega)]
  congr 1
  omega

/-- The groups of three digits that the loop produces. -/
theorem loop_groups (l : Nat) : ∀ s, ∃ gs : List (List Char), commaLoop l s = ((commaLoop l s).1, gs.flatMap (',' :: ·) ++ s) ∧
    (commaLoop l s).1 < 1000 ∧ dec l = dec (commaLoop l s).1 ++ gs.flatten ∧ (∀ g ∈ gs, g.length = 3 ∧ ∀ ch ∈ g, IsDigit ch) ∧
    (gs ≠ [] → 0 < (commaLoop l s).1) := by
  induction l using Nat.strongRecOn with
  | ind l ih =>
    intro s
    rw [commaLoop]
    by_cases h : l ≥ 1000
    · simp only [if_pos h]
      obtain ⟨gs, h1, h2, h3, h4, h5⟩ := ih (l / 1000) (by omega) ([','] ++ dec3 (l % 1000) ++ s)
      refine ⟨gs ++ [dec3 (l % 1000)], ?_, h2, ?_, ?_, fun _ => ?_⟩
      · rw [h1]; simp
      · rw [dec_split l h, h3]; simp
      · intro g hg
        rcases List.mem_append.1 hg with hg | hg
        · exact h4 g hg
        · simp only [List.mem_singleton] at hg
          subst hg
          exact dec3_len _ (by omega)
      · by_cases hg : gs = []
        · subst hg
          have : l / 1000 < 1000 := by
            by_contra hc
            obtain ⟨x, hx⟩ : ∃ x, x = l / 1000 := ⟨_, rfl⟩
            rw [commaLoop, if_pos (by omega)] at h1
            have h2' := congrArg (fun p => p.2.length) h1
            obtain ⟨gs', g1, _⟩ := ih (l / 1000 / 1000) (by omega) ([','] ++ dec3 (l / 1000 % 1000) ++ ([','] ++ dec3 (l % 1000) ++ s))
            simp only at h2'
            rw [g1] at h2'
            simp at h2'
            have := (dec3_len (l / 1000 % 1000) (by omega)).1
            omega
          have : (commaLoop (l / 1000) ([','] ++ dec3 (l % 1000) ++ s)).1 = l / 1000 := by
            rw [commaLoop, if_neg (by omega)]
          rw [this]; omega
        · exact h5 hg
    · simp only [if_neg h]
      exact ⟨[], by simp, by omega, by simp, by simp, by simp⟩

/-- C46, shape: the comma form is one group of one to three digits followed by groups of exactly three digits, each
preceded by a comma; without the commas the groups are the decimal digits of the number. -/
theorem C46_groups (n : Nat) : ∃ (g : List Char) (gs : List (List Char)), commaString n = g ++ gs.flatMap (',' :: ·) ∧ 1 ≤ g.length ∧ g.length ≤ 3 ∧
    (∀ ch ∈ g, IsDigit ch) ∧ (∀ x ∈ gs, x.length = 3 ∧ ∀ ch ∈ x, IsDigit ch) ∧ g ++ gs.flatten = Nat.toDigits 10 n := by
  obtain ⟨gs, h1, h2, h3, h4, _⟩ := loop_groups n []
  obtain ⟨d1, d2, d3⟩ := dec_small _ h2
  refine ⟨dec (commaLoop n []).1, gs, ?_, d1, d2, d3, h4, h3.symm⟩
  unfold commaString
  rw [h1]
  simp

theorem filter_digits (l : List Char) (h : ∀ ch ∈ l, IsDigit ch) : l.filter (· ≠ ',') = l := by
  rw [List.filter_eq_self]
  intro ch hc
  have := h ch hc
  simp only [ne_eq, decide_not, Bool.not_eq_true', decide_eq_false_iff_not]
  rintro rfl
  obtain ⟨h1, _⟩ := this
  exact absurd h1 (by decide)

/-- C46: deleting the commas leaves the decimal digits. -/
theorem C46_strip (n : Nat) : (commaString n).filter (· ≠ ',') = Nat.toDigits 10 n := by
  obtain ⟨g, gs, h1, _, _, h4, h5, h6⟩ := C46_groups n
  rw [h1, List.filter_append, filter_digits g h4, ← h6]
  congr 1
  clear h1 h6
  induction gs with
  | nil => rfl
  | cons x xs ih =>
    rw [List.flatMap_cons, List.flatten_cons, List.cons_append, List.filter_cons_of_neg (by simp), List.filter_append,
      filter_digits x (h5 x (by simp)).2, ih (fun y hy => h5 y (by simp [hy]))]

theorem value_append (l : List Char) (c : Char) : value (l ++ [c]) = value l * 10 + (c.toNat - 48) := by
  simp [value, List.foldl_append]

theorem value_dec (n : Nat) : value (dec n) = n := by
  induction n using Nat.strongRecOn with
  | ind n ih =>
    have key : ∀ d < 10, ∃ c, dec d = [c] ∧ c.toNat - 48 = d := by
      intro d hd
      interval_cases d
      all_goals exact ⟨_, rfl, by decide⟩
    by_cases h : n < 10
    · obtain ⟨c, hc, hv⟩ := key n h
      rw [hc]
      simp [value, hv]
    · obtain ⟨c, hc, hv⟩ := key (n % 10) (by omega)
      rw [show dec n = dec (n / 10) ++ dec (n % 10) by
        rw [dec_append _ _ (by omega) (by omega)]; congr 1; omega, hc, value_append, ih (n / 10) (by omega), hv]
      omega

/-- C46: the number can be read back from its comma form. -/
theorem C46_recover (n : Nat) : value ((commaString n).filter (· ≠ ',')) = n := by
  rw [C46_strip]; exact value_dec n

/-- C46: different numbers have different comma forms. -/
theorem C46_injective (n m : Nat) (h : commaString n = commaString m) : n = m := by
  rw [← C46_recover n, ← C46_recover m, h]

example : commaString 1234567 = "1,234,567".toList ∧ commaString 1000 = "1,000".toList ∧ commaString 999 = "999".toList ∧
    commaString 18446744073709551615 = "18,446,744,073,709,551,615".toList := by decide +kernel

end Verif.Comma

namespace Verif.Bits

/-- C47: `GetBit` returns the indexed bit for every index below 32 and an error otherwise. -/
theorem C47_bit (v i : BitVec 32) :
    (i.toNat < 32 → ∃ r, getBit v i = some r ∧ r.toNat = v.toNat / 2 ^ i.toNat % 2) ∧ (32 ≤ i.toNat → getBit v i = none) := by
  constructor
  · intro h
    refine ⟨(v &&& (1#32 <<< i)) >>> i, by simp only [getBit]; rw [if_pos]; exact ⟨by rw [BitVec.le_def]; exact Nat.zero_le _, by rw [BitVec.lt_def]; exact h⟩, ?_⟩
    have : ((v &&& (1#32 <<< i)) >>> i) = (if v.getLsbD i.toNat then 1#32 else 0#32) := by
      apply BitVec.eq_of_getLsbD_eq
      intro j hj
      rw [BitVec.ushiftRight_eq', BitVec.shiftLeft_eq']
      simp only [BitVec.getLsbD_ushiftRight, BitVec.getLsbD_and, BitVec.getLsbD_shiftLeft]
      by_cases hj0 : j = 0
      · subst hj0
        cases hb : v.getLsbD i.toNat <;> simp [h]
      · split <;> simp [BitVec.getLsbD_one, hj0]
    rw [this, ← Nat.shiftRight_eq_div_pow, ← Nat.and_one_is_mod]
    have e : v.getLsbD i.toNat = (v.toNat).testBit i.toNat := rfl
    rw [e, Nat.testBit_eq_decide_div_mod_eq, Nat.and_one_is_mod, Nat.shiftRight_eq_div_pow]
    by_cases hb : v.toNat / 2 ^ i.toNat % 2 = 1
    · simp [hb]
    · have : v.toNat / 2 ^ i.toNat % 2 = 0 := by omega
      simp [this]
  · intro h
    simp only [getBit]
    rw [if_neg]
    rw [BitVec.lt_def]
    intro hc
    have := hc.2
    simp at this
    omega

theorem field (v : BitVec 32) (m k : Nat) :
    ((v &&& (BitVec.ofNat 32 (2 ^ m - 1) <<< k)) >>> k).toNat = v.toNat / 2 ^ k % 2 ^ m := by
  apply Nat.eq_of_testBit_eq
  intro j
  rw [Nat.testBit_mod_two_pow, Nat.testBit_div_two_pow]
  have h1 : ∀ (x : BitVec 32) j, x.toNat.testBit j = x.getLsbD j := fun _ _ => rfl
  rw [h1, h1]
  simp only [BitVec.getLsbD_ushiftRight, BitVec.getLsbD_and, BitVec.getLsbD_shiftLeft, BitVec.getLsbD_ofNat,
    Nat.testBit_two_pow_sub_one]
  have e : k + j - k = j := by omega
  rw [e, Nat.add_comm k j]
  by_cases hj : j + k < 32
  · have : j < 32 := by omega
    have h2 : ¬ (j + k < k) := by omega
    simp [hj, this, h2, Bool.and_comm]
  · have : v.getLsbD (j + k) = false := BitVec.getLsbD_of_ge v (j + k) (by omega)
    simp [this]

/-- C47: `GetByte` returns the indexed byte for every index below 4 and an error otherwise. -/
theorem C47_byte (v i : BitVec 32) :
    (i.toNat < 4 → ∃ r, getByte v i = some r ∧ r.toNat = v.toNat / 256 ^ i.toNat % 256) ∧ (4 ≤ i.toNat → getByte v i = none) := by
  constructor
  · intro h
    refine ⟨(v &&& (0xFF#32 <<< (i * 8#32))) >>> (i * 8#32), by simp only [getByte]; rw [if_pos]; exact ⟨by rw [BitVec.le_def]; exact Nat.zero_le _, by rw [BitVec.lt_def]; exact h⟩, ?_⟩
    rw [BitVec.ushiftRight_eq', BitVec.shiftLeft_eq']
    have e : (i * 8#32).toNat = 8 * i.toNat := by
      rw [BitVec.toNat_mul]; simp only [BitVec.toNat_ofNat]; omega
    rw [e, show (256 : Nat) = 2 ^ 8 from rfl, ← Nat.pow_mul]
    exact field v 8 _
  · intro h
    simp only [getByte]
    rw [if_neg]
    rw [BitVec.lt_def]
    intro hc
    have := hc.2
    simp at this
    omega

/-- C47: `GetWord` returns the indexed 16-bit word for every index below 2 and an error otherwise. -/
theorem C47_word (v i : BitVec 32) :
    (i.toNat < 2 → ∃ r, getWord v i = some r ∧ r.toNat = v.toNat / 65536 ^ i.toNat % 65536) ∧ (2 ≤ i.toNat → getWord v i = none) := by
  constructor
  · intro h
    refine ⟨(v &&& (0xFFFF#32 <<< (i * 16#32))) >>> (i * 16#32), by simp only [getWord]; rw [if_pos]; exact ⟨by rw [BitVec.le_def]; exact Nat.zero_le _, by rw [BitVec.lt_def]; exact h⟩, ?_⟩
    rw [BitVec.ushiftRight_eq', BitVec.shiftLeft_eq']
    have e : (i * 16#32).toNat = 16 * i.toNat := by
      rw [BitVec.toNat_mul]; simp only [BitVec.toNat_ofNat]; omega
    rw [e, show (65536 : Nat) = 2 ^ 16 from rfl, ← Nat.pow_mul]
    exact field v 16 _
  · intro h
    simp only [getWord]
    rw [if_neg]
    rw [BitVec.lt_def]
    intro hc
    have := hc.2
    simp at this
    omega

/-- C47: every value is recombined from its four bytes and from its two words. -/
theorem C47_recombine (v : BitVec 32) :
    (∃ b0 b1 b2 b3, getByte v 0#32 = some b0 ∧ getByte v 1#32 = some b1 ∧ getByte v 2#32 = some b2 ∧ getByte v 3#32 = some b3 ∧
      v.toNat = b0.toNat + 256 * b1.toNat + 65536 * b2.toNat + 16777216 * b3.toNat) ∧
    (∃ w0 w1, getWord v 0#32 = some w0 ∧ getWord v 1#32 = some w1 ∧ v.toNat = w0.toNat + 65536 * w1.toNat) := by
  have hv := v.isLt
  constructor
  · obtain ⟨b0, h0, e0⟩ := (C47_byte v 0#32).1 (by simp)
    obtain ⟨b1, h1, e1⟩ := (C47_byte v 1#32).1 (by simp)
    obtain ⟨b2, h2, e2⟩ := (C47_byte v 2#32).1 (by simp)
    obtain ⟨b3, h3, e3⟩ := (C47_byte v 3#32).1 (by simp)
    refine ⟨b0, b1, b2, b3, h0, h1, h2, h3, ?_⟩
    simp at e0 e1 e2 e3
    omega
  · obtain ⟨b0, h0, e0⟩ := (C47_word v 0#32).1 (by simp)
    obtain ⟨b1, h1, e1⟩ := (C47_word v 1#32).1 (by simp)
    refine ⟨b0, b1, h0, h1, ?_⟩
    simp at e0 e1
    omega

theorem mod_two_pow (n k : Nat) : n % 2 ^ k = ((List.range k).map fun i => n / 2 ^ i % 2 * 2 ^ i).sum := by
  induction k with
  | zero => simp [Nat.mod_one]
  | succ k ih =>
    rw [Nat.mod_pow_succ, List.range_succ, List.map_append, List.sum_append, ← ih]
    simp [Nat.mul_comm]

/-- C47: every value is the sum of its 32 bits at their places. -/
theorem C47_recombine_bits (v : BitVec 32) :
    ∃ b : Nat → BitVec 32, (∀ i < 32, getBit v (BitVec.ofNat 32 i) = some (b i)) ∧
      v.toNat = ((List.range 32).map fun i => (b i).toNat * 2 ^ i).sum := by
  have h : ∀ i, ∃ r, i < 32 → getBit v (BitVec.ofNat 32 i) = some r ∧ r.toNat = v.toNat / 2 ^ i % 2 := by
    intro i
    by_cases hi : i < 32
    · have e : (BitVec.ofNat 32 i).toNat = i := by rw [BitVec.toNat_ofNat]; omega
      obtain ⟨r, h1, h2⟩ := (C47_bit v (BitVec.ofNat 32 i)).1 (by omega)
      exact ⟨r, fun _ => ⟨h1, by rw [h2, e]⟩⟩
    · exact ⟨0#32, fun h => absurd h hi⟩
  obtain ⟨b, hb⟩ := Classical.axiomOfChoice h
  refine ⟨b, fun i hi => (hb i hi).1, ?_⟩
  have hm := mod_two_pow v.toNat 32
  rw [Nat.mod_eq_of_lt v.isLt] at hm
  rw [hm]
  congr 1
  apply List.map_congr_left
  intro i hi
  rw [(hb i (List.mem_range.1 hi)).2]

example : getByte 0x12345678#32 2#32 = some 0x34#32 ∧ getWord 0x12345678#32 1#32 = some 0x1234#32 ∧ getBit 8#32 3#32 = some 1#32 ∧
    getBit 8#32 32#32 = none := by decide

end Verif.Bits
