import Verif.Props.FileSize
/-!
# C155: the order of printed file sizes
-/

set_option linter.unusedSectionVars false

namespace Verif.FileSize

/-- The text says `t` thousandths of the unit number `j`: a whole number, a point, three decimals, the name of the unit. -/
def Spec.Says (text : List Char) (j t : Nat) : Prop :=
  ∃ (name : String) (whole decimals : List Char), Spec.units[j]? = some name ∧
    text = whole ++ ['.'] ++ decimals ++ name.toList ∧ whole ≠ [] ∧ (∀ c ∈ whole ++ decimals, c.isDigit = true) ∧
    decimals.length = 3 ∧ t = 1000 * Nat.ofDigitChars 10 whole 0 + Nat.ofDigitChars 10 decimals 0

/-- A text says one thing. -/
theorem says_unique {text : List Char} {j t j' t' : Nat} (h : Spec.Says text j t) (h' : Spec.Says text j' t') : j = j' ∧ t = t' := by
  obtain ⟨name, whole, dec, h1, h2, -, h4, h5, rfl⟩ := h
  obtain ⟨name', whole', dec', h1', h2', -, h4', h5', rfl⟩ := h'
  have hw : ∀ (w d : List Char) (n : List Char), (∀ c ∈ w ++ d, c.isDigit = true) →
      (w ++ ['.'] ++ d ++ n).takeWhile Char.isDigit = w ∧ (w ++ ['.'] ++ d ++ n).dropWhile Char.isDigit = '.' :: (d ++ n) := by
    intro w d n hc
    have hw : ∀ c ∈ w, Char.isDigit c = true := fun c h => hc c (List.mem_append_left _ h)
    rw [List.append_assoc, List.append_assoc]
    constructor
    · rw [List.takeWhile_append_of_pos hw]; simp [Char.isDigit]
    · rw [List.dropWhile_append_of_pos hw]; simp [Char.isDigit]
  obtain ⟨a, b⟩ := hw whole dec name.toList h4
  obtain ⟨a', b'⟩ := hw whole' dec' name'.toList h4'
  rw [← h2] at a b
  rw [← h2'] at a' b'
  rw [a] at a'
  rw [b] at b'
  have hd := List.append_inj (List.cons.inj b').2 (h5.trans h5'.symm)
  obtain ⟨rfl, hn⟩ := hd
  have hn := String.toList_inj.1 hn
  subst hn a'
  refine ⟨?_, rfl⟩
  have key : ∀ a : Fin 7, ∀ b : Fin 7, Spec.units[a.1]? = Spec.units[b.1]? → a = b := by decide
  have lt : ∀ {k : Nat} {n : String}, Spec.units[k]? = some n → k < 7 := fun {k n} h => by
    by_contra hc
    rw [List.getElem?_eq_none (by simp [Spec.units]; omega)] at h
    simp at h
  exact congrArg Fin.val (key ⟨j, lt h1⟩ ⟨j', lt h1'⟩ (h1.trans h1'.symm))

/-- What is printed. -/
theorem string_says (x : BitVec 64) : ∃ s j t name, string x = .ok s ∧ Spec.Says s j t ∧ Spec.units[j]? = some name ∧ parts x = .ok (t, name) ∧
    (j = 0 ∨ 1024 ^ j ≤ x.toNat) ∧ x.toNat < 1024 ^ (j + 1) := by
  obtain ⟨j, name, t, h1, h2, h3, h4⟩ := C57_unit x
  obtain ⟨d1, d2, d3⟩ := digits3_spec (t % 1000) (Nat.mod_lt _ (by decide))
  refine ⟨_, j, t, name, by rw [string, h2]; rfl, ⟨name, Nat.toDigits 10 (t / 1000), digits3 (t % 1000), h1, rfl, Nat.toDigits_ne_nil, ?_, d2, ?_⟩,
    h1, h2, h3, h4⟩
  · intro c hc
    rcases List.mem_append.1 hc with hc | hc
    · exact Nat.isDigit_of_mem_toDigits (b := 10) (by decide) (by decide) hc
    · exact d3 c hc
  · rw [Nat.ofDigitChars_ten_toDigits, d1]; omega

theorem says_parts {x : BitVec 64} {s : List Char} {j t : Nat} (h : string x = .ok s) (hs : Spec.Says s j t) :
    ∃ name, Spec.units[j]? = some name ∧ parts x = .ok (t, name) ∧ (j = 0 ∨ 1024 ^ j ≤ x.toNat) ∧ x.toNat < 1024 ^ (j + 1) := by
  obtain ⟨s', j', t', name, h1, h2, h3, h4, h5, h6⟩ := string_says x
  rw [h] at h1
  obtain rfl := Res.ok.inj h1
  obtain ⟨rfl, rfl⟩ := says_unique hs h2
  exact ⟨name, h3, h4, h5, h6⟩

/-- Rounding does not reach past the next power of two, nor below the own one. -/
theorem roundShift_pow {n k m : Nat} (hk : k ≤ m) :
    (n ≤ 2 ^ m → roundShift n k * 2 ^ k ≤ 2 ^ m) ∧ (2 ^ m ≤ n → 2 ^ m ≤ roundShift n k * 2 ^ k) := by
  have e : roundShift (2 ^ m) k * 2 ^ k = 2 ^ m := by
    have hd : 2 ^ k ∣ 2 ^ m := Nat.pow_dvd_pow 2 hk
    have h0 : 0 < 2 ^ k := Nat.pos_of_ne_zero (by simp)
    have hr : roundShift (2 ^ m) k = 2 ^ m / 2 ^ k := by
      unfold roundShift
      simp only [Nat.mod_eq_zero_of_dvd hd]
      rw [if_pos (by omega)]
    rw [hr, Nat.div_mul_cancel hd]
  constructor <;> intro h
  · rw [← e]; exact Nat.mul_le_mul_right _ (roundShift_mono k h)
  · conv_lhs => rw [← e]
    exact Nat.mul_le_mul_right _ (roundShift_mono k h)

theorem toFloat_mono {a b : Nat} (h : a ≤ b) : toFloat a ≤ toFloat b := by
  by_cases ha : a < 2 ^ 53
  · rw [toFloat_exact ha]
    by_cases hb : b < 2 ^ 53
    · rwa [toFloat_exact hb]
    · have hb0 : b ≠ 0 := by omega
      have hl := (Nat.le_log2 hb0).2 (Nat.le_of_not_lt hb)
      have := (roundShift_pow (n := b) (k := b.log2 - 52) (m := b.log2) (by omega)).2 (Nat.log2_self_le hb0)
      have h2 : 2 ^ 53 ≤ 2 ^ b.log2 := Nat.pow_le_pow_right (by decide) hl
      unfold toFloat
      simp only
      omega
  · have ha0 : a ≠ 0 := by omega
    have hb0 : b ≠ 0 := by omega
    have hla : a.log2 ≤ b.log2 := (Nat.le_log2 hb0).2 (Nat.le_trans (Nat.log2_self_le ha0) h)
    have h53 := (Nat.le_log2 ha0).2 (Nat.le_of_not_lt ha)
    unfold toFloat
    simp only
    rcases Nat.lt_or_eq_of_le hla with hlt | heq
    · have h1 := (roundShift_pow (n := a) (k := a.log2 - 52) (m := a.log2 + 1) (by omega)).1 (Nat.le_of_lt Nat.lt_log2_self)
      have h2 := (roundShift_pow (n := b) (k := b.log2 - 52) (m := b.log2) (by omega)).2 (Nat.log2_self_le hb0)
      have h3 : 2 ^ (a.log2 + 1) ≤ 2 ^ b.log2 := Nat.pow_le_pow_right (by decide) hlt
      omega
    · rw [heq]
      exact Nat.mul_le_mul_right _ (roundShift_mono _ h)

/-- At least one whole unit is printed, but for bytes. -/
theorem parts_low {x : BitVec 64} {j t : Nat} {name : String} (hn : Spec.units[j]? = some name) (hp : parts x = .ok (t, name))
    (h : 1024 ^ j ≤ x.toNat) : 1000 ≤ t := by
  obtain ⟨rfl, -⟩ := parts_eq x j name t hn hp
  have h1 : toFloat (2 ^ (10 * j)) ≤ toFloat x.toNat := toFloat_mono (by rw [Nat.pow_mul]; exact h)
  have h2 : 2 ^ (10 * j) ≤ toFloat (2 ^ (10 * j)) := by
    unfold toFloat
    simp only
    exact (roundShift_pow (by rw [Nat.log2_two_pow]; omega)).2 (Nat.le_refl _)
  have h3 : 2 ^ (10 * j) * 1000 ≤ toFloat x.toNat * 1000 := Nat.mul_le_mul_right _ (Nat.le_trans h2 h1)
  refine Nat.le_trans ?_ (roundShift_mono _ h3)
  have h0 : 0 < 2 ^ (10 * j) := Nat.pos_of_ne_zero (by simp)
  unfold roundShift
  simp only [Nat.mul_mod_right, Nat.mul_div_cancel_left 1000 h0]
  rw [if_pos (by omega)]

/-- **C155** (readable).  Every size has a text, which says a number of thousandths of a unit, and only one. -/
theorem C155_says (x : BitVec 64) : ∃ s, string x = .ok s ∧ ∃! p : Nat × Nat, Spec.Says s p.1 p.2 := by
  obtain ⟨s, j, t, name, h1, h2, -⟩ := string_says x
  exact ⟨s, h1, (j, t), h2, fun p hp => Prod.ext (says_unique hp h2).1 (says_unique hp h2).2⟩

/-- **C155** (order).  A larger size never prints as a smaller one: its unit is not smaller, and neither is the number of bytes that
its text says. -/
theorem C155_order (x y : BitVec 64) (h : x.toNat ≤ y.toNat) (s s' : List Char) (hx : string x = .ok s) (hy : string y = .ok s')
    (j t j' t' : Nat) (hs : Spec.Says s j t) (hs' : Spec.Says s' j' t') : j ≤ j' ∧ t * 1024 ^ j ≤ t' * 1024 ^ j' := by
  obtain ⟨name, h1, h2, h3, h4⟩ := says_parts hx hs
  obtain ⟨name', h1', h2', h3', h4'⟩ := says_parts hy hs'
  have hjj : j ≤ j' := by
    by_contra hc
    have hlow : 1024 ^ j ≤ x.toNat := h3.resolve_left (by omega)
    have : 1024 ^ (j' + 1) ≤ 1024 ^ j := Nat.pow_le_pow_right (by decide) (by omega)
    omega
  refine ⟨hjj, ?_⟩
  rcases Nat.lt_or_eq_of_le hjj with hlt | rfl
  · have ht := (C75_next_unit_partial x j name t h1 h2).1
    have ht' := parts_low h1' h2' (h3'.resolve_left (by omega))
    calc t * 1024 ^ j ≤ 1024000 * 1024 ^ j := Nat.mul_le_mul_right _ ht
      _ = 1000 * 1024 ^ (j + 1) := by rw [Nat.pow_succ]; omega
      _ ≤ 1000 * 1024 ^ j' := Nat.mul_le_mul_left _ (Nat.pow_le_pow_right (by decide) hlt)
      _ ≤ t' * 1024 ^ j' := Nat.mul_le_mul_right _ ht'
  · obtain ⟨rfl, -⟩ := parts_eq x j name t h1 h2
    obtain ⟨rfl, -⟩ := parts_eq y j name' t' h1' h2'
    exact Nat.mul_le_mul_right _ (roundShift_mono _ (Nat.mul_le_mul_right _ (toFloat_mono h)))

/-- **C155** (equal texts).  Sizes with the same text differ by at most a thousandth of the unit, and by 2048 bytes more if they have more
than 53 bits: below 1 KB they are equal. -/
theorem C155_same (x y : BitVec 64) (s : List Char) (hx : string x = .ok s) (hy : string y = .ok s) (j t : Nat) (hs : Spec.Says s j t) :
    1000 * (x.toNat - y.toNat) ≤ 1024 ^ j + (if x.toNat < 2 ^ 53 then 0 else 1000 * 2048) := by
  obtain ⟨name, h1, h2, -⟩ := says_parts hx hs
  obtain ⟨name', h1', h2', -⟩ := says_parts hy hs
  have a := (C75_accuracy x j name t h1 h2).2
  have b := (C75_accuracy y j name' t h1' h2').1
  by_cases hxy : x.toNat ≤ y.toNat
  · rw [Nat.sub_eq_zero_of_le hxy]; exact Nat.zero_le _
  by_cases hx53 : x.toNat < 2 ^ 53
  · rw [if_pos hx53] at a
    rw [if_pos (by omega)] at b
    rw [if_pos hx53]
    omega
  · rw [if_neg hx53] at a
    rw [if_neg hx53]
    split_ifs at b <;> omega

/-- Instance: 1536 bytes say 1500 thousandths of the unit number 1, one byte more says 1501. -/
example : Spec.Says "1.500KB".toList 1 1500 ∧ string 1536#64 = .ok "1.500KB".toList ∧ string 1537#64 = .ok "1.501KB".toList ∧
    Spec.Says "1.501KB".toList 1 1501 := by
  refine ⟨⟨"KB", "1".toList, "500".toList, by decide, by decide, by decide, by decide, by decide, by decide⟩, by decide +kernel, by decide +kernel,
    ⟨"KB", "1".toList, "501".toList, by decide, by decide, by decide, by decide, by decide, by decide⟩⟩

example := C155_order 1536#64 1537#64 (by decide) "1.500KB".toList "1.501KB".toList (by decide +kernel) (by decide +kernel)
  1 1500 1 1501 ⟨"KB", "1".toList, "500".toList, by decide, by decide, by decide, by decide, by decide, by decide⟩
  ⟨"KB", "1".toList, "501".toList, by decide, by decide, by decide, by decide, by decide, by decide⟩

/-- Two sizes above 1 KB with the same text. -/
example : string 1045#64 = string 1046#64 ∧ string 1045#64 = .ok "1.021KB".toList := by decide +kernel

end Verif.FileSize
