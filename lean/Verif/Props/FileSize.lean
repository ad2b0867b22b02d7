import Verif.Model.FileSize
import Mathlib.Data.List.Basic
import Mathlib.Data.Nat.Log
import Mathlib.Tactic.NormNum
import Mathlib.Tactic.Ring
import Mathlib.Tactic.Linarith
import Mathlib.Tactic.IntervalCases
/-!
# File sizes (C57, C75)
-/

set_option linter.unusedSectionVars false

namespace Verif.FileSize

theorem shift_lt (x : BitVec 64) (b : Nat) : (x >>> b) < 1024#64 ↔ x.toNat < 2 ^ (b + 10) := by
  rw [BitVec.lt_def, BitVec.toNat_ushiftRight, Nat.shiftRight_eq_div_pow,
    show (1024#64).toNat = 1024 from rfl, Nat.div_lt_iff_lt_mul (Nat.pos_of_ne_zero (by simp)), Nat.pow_add]
  constructor <;> intro h <;> omega

theorem loop_spec (x : BitVec 64) : ∀ (fuel i : Nat), fuel + i = 7 → (i = 0 ∨ 2 ^ (10 * i) ≤ x.toNat) →
    ∃ j, loop x fuel i (10 * i) = (j, 10 * j) ∧ j ≤ 6 ∧ (j = 0 ∨ 2 ^ (10 * j) ≤ x.toNat) ∧
      x.toNat < 2 ^ (10 * (j + 1)) := by
  intro fuel
  induction fuel with
  | zero =>
    intro i h1 h2
    have hi : i = 7 := by omega
    subst hi
    have := x.isLt
    rcases h2 with h2 | h2
    · omega
    · norm_num at h2; omega
  | succ fuel ih =>
    intro i h1 h2
    by_cases h : (x >>> (10 * i)) < 1024#64
    · refine ⟨i, by rw [loop, if_pos h], by omega, h2, ?_⟩
      have := (shift_lt x (10 * i)).1 h
      rwa [Nat.mul_add, Nat.mul_one]
    · have hx : ¬ x.toNat < 2 ^ (10 * i + 10) := fun hc => h ((shift_lt x (10 * i)).2 hc)
      obtain ⟨j, hj, hr⟩ := ih (i + 1) (by omega) (.inr (by rw [Nat.mul_add, Nat.mul_one]; omega))
      refine ⟨j, ?_, hr⟩
      rw [loop, if_neg h]
      rw [Nat.mul_add, Nat.mul_one] at hj
      exact hj

/-- The units in order. -/
def Spec.units : List String := ["B", "KB", "MB", "GB", "TB", "PB", "EB"]

/-- **C57**.  For every 64-bit size a unit of the table is printed, the size is at least one of that unit (or the unit
is the byte) and less than 1024 of it. -/
theorem C57_unit (x : BitVec 64) : ∃ (j : Nat) (name : String) (t : Nat), Spec.units[j]? = some name ∧
    parts x = .ok (t, name) ∧ (j = 0 ∨ 1024 ^ j ≤ x.toNat) ∧ x.toNat < 1024 ^ (j + 1) := by
  obtain ⟨j, h1, h2, h3, h4⟩ := loop_spec x 7 0 rfl (.inl rfl)
  have hn : ∃ name, Spec.units[j]? = some name := by
    refine ⟨Spec.units[j]'(by simp [Spec.units]; omega), ?_⟩
    rw [List.getElem?_eq_getElem]
  obtain ⟨name, hname⟩ := hn
  refine ⟨j, name, thousandths (toFloat x.toNat) (10 * j), hname, ?_, ?_, ?_⟩
  · have : loop x bytesNames.length 0 0 = (j, 10 * j) := h1
    rw [parts, this]
    have hb : bytesNames[j]? = some name := hname
    simp only [hb]
  · rcases h3 with h | h
    · exact .inl h
    · right; rw [show (1024 : Nat) = 2 ^ 10 by rfl, ← Nat.pow_mul]; exact h
  · rw [show (1024 : Nat) = 2 ^ 10 by rfl, ← Nat.pow_mul]; exact h4

/-! ## The printed number -/

/-- Rounding moves by at most one half. -/
theorem roundShift_err (n k : Nat) :
    2 * (roundShift n k * 2 ^ k) ≤ 2 * n + 2 ^ k ∧ 2 * n ≤ 2 * (roundShift n k * 2 ^ k) + 2 ^ k := by
  have h1 := Nat.div_add_mod n (2 ^ k)
  have h2 := Nat.mod_lt n (show 0 < 2 ^ k from Nat.pos_of_ne_zero (by simp))
  unfold roundShift
  simp only
  generalize n / 2 ^ k = q at *
  generalize n % 2 ^ k = r at *
  generalize 2 ^ k = m at *
  subst h1
  have e1 : q * m = m * q := Nat.mul_comm _ _
  have e2 : (q + 1) * m = m * q + m := by ring
  split_ifs <;> (first | rw [e1] | rw [e2]) <;> constructor <;> omega

theorem roundShift_mono (k : Nat) {a b : Nat} (h : a ≤ b) : roundShift a k ≤ roundShift b k := by
  have hp : 0 < 2 ^ k := Nat.pos_of_ne_zero (by simp)
  have a1 := Nat.div_add_mod a (2 ^ k)
  have a2 := Nat.mod_lt a hp
  have b1 := Nat.div_add_mod b (2 ^ k)
  have b2 := Nat.mod_lt b hp
  have hq : a / 2 ^ k ≤ b / 2 ^ k := Nat.div_le_div_right h
  unfold roundShift
  simp only
  generalize a / 2 ^ k = qa at *
  generalize a % 2 ^ k = ra at *
  generalize b / 2 ^ k = qb at *
  generalize b % 2 ^ k = rb at *
  generalize 2 ^ k = m at *
  by_cases he : qa = qb
  · subst he
    have : ra ≤ rb := by omega
    split_ifs <;> omega
  · split_ifs <;> omega

theorem roundShift_zero (n : Nat) : roundShift n 0 = n := by
  simp [roundShift, Nat.mod_one]

theorem toFloat_exact {n : Nat} (h : n < 2 ^ 53) : toFloat n = n := by
  have : n.log2 ≤ 52 := by
    by_cases h0 : n = 0
    · subst h0; decide
    · have := (Nat.log2_lt h0).2 h; omega
  rw [toFloat]
  simp only [Nat.sub_eq_zero_of_le this, roundShift_zero]
  simp

theorem toFloat_err {n : Nat} (h : n < 2 ^ 64) : toFloat n ≤ n + 2 ^ 10 ∧ n ≤ toFloat n + 2 ^ 10 := by
  by_cases h0 : n < 2 ^ 53
  · rw [toFloat_exact h0]; omega
  · have hn : n ≠ 0 := by omega
    have hl : n.log2 < 64 := (Nat.log2_lt hn).2 h
    have hk : n.log2 - 52 ≤ 11 := by omega
    have := roundShift_err n (n.log2 - 52)
    have hp : 2 ^ (n.log2 - 52) ≤ 2 ^ 11 := Nat.pow_le_pow_right (by decide) hk
    unfold toFloat
    simp only
    omega

/-- The thousandths printed for a size with unit number `j`. -/
theorem parts_eq (x : BitVec 64) (j : Nat) (name : String) (t : Nat) (hn : Spec.units[j]? = some name)
    (hp : parts x = .ok (t, name)) : t = roundShift (toFloat x.toNat * 1000) (10 * j) ∧
      x.toNat < 1024 ^ (j + 1) := by
  obtain ⟨j', h1, h2, h3, h4⟩ := loop_spec x 7 0 rfl (.inl rfl)
  have hl : loop x bytesNames.length 0 0 = (j', 10 * j') := h1
  rw [parts, hl] at hp
  simp only at hp
  have hjlt : j < 7 := by
    by_contra hc
    rw [List.getElem?_eq_none (by simp [Spec.units]; omega)] at hn
    simp at hn
  cases hb : bytesNames[j']? with
  | none => rw [hb] at hp; simp at hp
  | some name' =>
    rw [hb] at hp
    simp only [Res.ok.injEq, Prod.mk.injEq] at hp
    obtain ⟨ht, rfl⟩ := hp
    have hjj : j = j' := by
      have key : ∀ a : Fin 7, ∀ b : Fin 7, Spec.units[a.1]? = bytesNames[b.1]? → a = b := by decide
      have := key ⟨j, hjlt⟩ ⟨j', by omega⟩ (by rw [hn, hb])
      simpa using this
    subst hjj
    exact ⟨ht.symm, by rw [show (1024 : Nat) = 2 ^ 10 by rfl, ← Nat.pow_mul]; exact h4⟩

/-- **C75** (accuracy).  The number printed differs from the exact quotient of the size and its unit by at most half a
thousandth plus 2^-50 of a unit (the error of the conversion to a float, only for sizes of 2^53 bytes and more):
`t/1000` is printed for `size/1024^j`. -/
theorem C75_accuracy (x : BitVec 64) (j : Nat) (name : String) (t : Nat) (hn : Spec.units[j]? = some name)
    (hp : parts x = .ok (t, name)) :
    2 * 1024 ^ j * t ≤ 2000 * x.toNat + 1024 ^ j + (if x.toNat < 2 ^ 53 then 0 else 2000 * 1024) ∧
    2000 * x.toNat ≤ 2 * 1024 ^ j * t + 1024 ^ j + (if x.toNat < 2 ^ 53 then 0 else 2000 * 1024) := by
  obtain ⟨ht, -⟩ := parts_eq x j name t hn hp
  have he := roundShift_err (toFloat x.toNat * 1000) (10 * j)
  rw [← ht, show 2 ^ (10 * j) = 1024 ^ j by rw [Nat.pow_mul]] at he
  have e1 : 2 * 1024 ^ j * t = 2 * (t * 1024 ^ j) := by ring
  rw [e1]
  split_ifs with h53
  · rw [toFloat_exact h53] at he; omega
  · have := toFloat_err x.isLt; omega

theorem digits3_spec : ∀ n < 1000, Nat.ofDigitChars 10 (digits3 n) 0 = n ∧ (digits3 n).length = 3 ∧
    ∀ c ∈ digits3 n, c.isDigit = true := by decide +kernel

/-- **C75** (the text).  Every size is printed as a whole number, a point, three decimals and a unit: the size is at
least one of that unit (or the unit is the byte) and less than 1024 of it, and the number printed is the quotient
rounded as said above. -/
theorem C75_text (x : BitVec 64) : ∃ (j : Nat) (name : String) (whole decimals : List Char),
    Spec.units[j]? = some name ∧ (j = 0 ∨ 1024 ^ j ≤ x.toNat) ∧ x.toNat < 1024 ^ (j + 1) ∧
    string x = .ok (whole ++ ['.'] ++ decimals ++ name.toList) ∧
    whole ≠ [] ∧ (∀ c ∈ whole ++ decimals, c.isDigit = true) ∧ decimals.length = 3 ∧
    let t := 1000 * Nat.ofDigitChars 10 whole 0 + Nat.ofDigitChars 10 decimals 0
    2 * 1024 ^ j * t ≤ 2000 * x.toNat + 1024 ^ j + (if x.toNat < 2 ^ 53 then 0 else 2000 * 1024) ∧
    2000 * x.toNat ≤ 2 * 1024 ^ j * t + 1024 ^ j + (if x.toNat < 2 ^ 53 then 0 else 2000 * 1024) := by
  obtain ⟨j, name, t, h1, h2, h3, h4⟩ := C57_unit x
  obtain ⟨d1, d2, d3⟩ := digits3_spec (t % 1000) (Nat.mod_lt _ (by decide))
  refine ⟨j, name, Nat.toDigits 10 (t / 1000), digits3 (t % 1000), h1, h3, h4, ?_, ?_, ?_, d2, ?_⟩
  · rw [string, h2]; rfl
  · exact Nat.toDigits_ne_nil
  · intro c hc
    rcases List.mem_append.1 hc with hc | hc
    · exact Nat.isDigit_of_mem_toDigits (b := 10) (by decide) (by decide) hc
    · exact d3 c hc
  · have : 1000 * Nat.ofDigitChars 10 (Nat.toDigits 10 (t / 1000)) 0 + Nat.ofDigitChars 10 (digits3 (t % 1000)) 0 = t := by
      rw [Nat.ofDigitChars_ten_toDigits, d1]; omega
    simp only [this]
    exact C75_accuracy x j name t h1 h2

theorem next_unit_exact (x : BitVec 64) (j : Nat) (name : String) (t : Nat) (hn : Spec.units[j]? = some name)
    (hp : parts x = .ok (t, name)) (hx : x.toNat < 2 ^ 53) :
    t ≤ 1024000 ∧ (t = 1024000 ↔ 2000 * 1024 ^ (j + 1) ≤ 2000 * x.toNat + 1024 ^ j) := by
  obtain ⟨rfl, hlt⟩ := parts_eq x j name t hn hp
  rw [toFloat_exact hx]
  generalize x.toNat = n at *
  rw [Nat.pow_succ] at hlt ⊢
  have hp : 0 < 2 ^ (10 * j) := Nat.pos_of_ne_zero (by simp)
  have h1 := Nat.div_add_mod (n * 1000) (2 ^ (10 * j))
  have h2 := Nat.mod_lt (n * 1000) hp
  unfold roundShift
  simp only
  rw [show (2 : Nat) ^ (10 * j) = 1024 ^ j by rw [Nat.pow_mul]] at *
  have hq : n * 1000 / 1024 ^ j < 1024000 := by
    rw [Nat.div_lt_iff_lt_mul hp]; omega
  generalize n * 1000 / 1024 ^ j = q at *
  generalize n * 1000 % 1024 ^ j = r at *
  generalize 1024 ^ j = m at *
  have hmq : q ≤ 1023999 := by omega
  have hmul : m * q ≤ m * 1023999 := Nat.mul_le_mul_left m hmq
  have e : 2000 * n = 2 * (m * q) + 2 * r := by omega
  rw [e]
  clear e
  by_cases he : q = 1023999
  · subst he
    clear hlt h1
    split_ifs <;> constructor <;> first | omega | contradiction
  · have hmul : m * q ≤ m * 1023998 := Nat.mul_le_mul_left m (by omega)
    split_ifs <;> constructor <;> omega

theorem toFloat_high {n : Nat} (h1 : 2 ^ 59 ≤ n) (h2 : n < 2 ^ 60) : toFloat n = roundShift n 7 * 128 := by
  have hn : n ≠ 0 := by omega
  have a := (Nat.log2_lt hn).2 h2
  have b := (Nat.le_log2 hn).2 h1
  have : n.log2 - 52 = 7 := by omega
  rw [toFloat, this]

/-- **C75** (next unit).  The number printed is at most 1024.000, and it is 1024.000 exactly for the sizes within a
two-thousandth of the next unit; but for petabytes already 50 bytes earlier because of the conversion to a float.
Missing: below 1024, which is false. -/
theorem C75_next_unit_partial (x : BitVec 64) (j : Nat) (name : String) (t : Nat) (hn : Spec.units[j]? = some name)
    (hp : parts x = .ok (t, name)) :
    t ≤ 1024000 ∧ (t = 1024000 ↔
      if j = 5 then 1152920941656893505 ≤ x.toNat else 2000 * 1024 ^ (j + 1) ≤ 2000 * x.toNat + 1024 ^ j) := by
  obtain ⟨ht, hlt⟩ := parts_eq x j name t hn hp
  by_cases hx : x.toNat < 2 ^ 53
  · obtain ⟨h1, h2⟩ := next_unit_exact x j name t hn hp hx
    refine ⟨h1, ?_⟩
    split_ifs with h5
    · subst h5
      rw [h2]
      constructor <;> intro h <;> omega
    · exact h2
  have hx64 := x.isLt
  have hj7 : j < 7 := by
    by_contra hc
    rw [List.getElem?_eq_none (by simp [Spec.units]; omega)] at hn
    simp at hn
  have hj : j = 5 ∨ j = 6 := by
    by_contra hc
    have : j ≤ 4 := by omega
    have : 1024 ^ (j + 1) ≤ 1024 ^ 5 := Nat.pow_le_pow_right (by decide) (by omega)
    omega
  have ha := (C75_accuracy x j name t hn hp).1
  rw [if_neg hx] at ha
  rcases hj with rfl | rfl
  · rw [if_pos rfl]
    by_cases hb : x.toNat < 2 ^ 59
    · refine ⟨by omega, by constructor <;> intro h <;> omega⟩
    · rw [toFloat_high (by omega) (by omega)] at ht
      have mono : ∀ {a b : Nat}, a ≤ b → roundShift (roundShift a 7 * 128 * 1000) 50 ≤ roundShift (roundShift b 7 * 128 * 1000) 50 := by
        intro a b h
        apply roundShift_mono
        have := roundShift_mono 7 h
        omega
      have top : roundShift (roundShift (2 ^ 60) 7 * 128 * 1000) 50 = 1024000 := by decide +kernel
      have at1 : roundShift (roundShift 1152920941656893505 7 * 128 * 1000) 50 = 1024000 := by decide +kernel
      have at0 : roundShift (roundShift 1152920941656893504 7 * 128 * 1000) 50 = 1023999 := by decide +kernel
      have h60 : x.toNat ≤ 2 ^ 60 := by omega
      have m1 := mono h60
      rw [top] at m1
      rw [ht]
      refine ⟨m1, ?_, ?_⟩
      · intro h
        by_contra hc
        have m2 := mono (show x.toNat ≤ 1152920941656893504 by omega)
        rw [at0] at m2
        have : roundShift (roundShift x.toNat 7 * 128 * 1000) 50 = 1024000 := h
        omega
      · intro h
        have m2 := mono h
        rw [at1] at m2
        exact Nat.le_antisymm m1 m2
  · rw [if_neg (by decide)]
    refine ⟨by omega, by constructor <;> intro h <;> omega⟩

/-- **C75** is false: a size below 1024 MB (one byte short of 1 GB) is printed as `1024.000MB`. -/
theorem C75_false : ∃ x : BitVec 64, x.toNat < 1024 ^ 3 ∧ string x = .ok "1024.000MB".toList :=
  ⟨1073741823#64, by decide, by decide +kernel⟩

example : string 1536#64 = .ok "1.500KB".toList := by decide +kernel
example : string 18446744073709551615#64 = .ok "16.000EB".toList := by decide +kernel
example : Spec.units[1]? = some "KB" ∧ parts 1536#64 = .ok (1500, "KB") := by decide +kernel

example := C75_accuracy 1536#64 1 "KB" 1500 rfl (by decide +kernel)

example := C75_next_unit_partial 1536#64 1 "KB" 1500 rfl (by decide +kernel)

end Verif.FileSize
