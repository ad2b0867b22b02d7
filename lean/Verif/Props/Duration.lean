import Verif.Model.Duration
import Mathlib.Data.List.Basic
import Mathlib.Data.List.DropRight
import Mathlib.Tactic.Ring
/-!
# Durations (C67)
-/

set_option linter.unusedSectionVars false

namespace Verif.Duration

/-! ## Reading a text back -/

/-- The value of a text of decimal digits. -/
def Spec.dec (t : List Char) : Nat := t.foldl (fun n c => 10 * n + (c.toNat - 48)) 0

/-- The value of `whole.fraction` in units of `10^-prec`. -/
def Spec.num (prec : Nat) (t : List Char) : Nat :=
  let f := (t.dropWhile (· != '.')).tail
  Spec.dec (t.takeWhile (· != '.')) * 10 ^ prec + Spec.dec (f ++ List.replicate (prec - f.length) '0')

/-- The value of minutes and seconds. -/
def Spec.minSec (t : List Char) : Nat :=
  if 'm' ∈ t then Spec.dec (t.takeWhile (· != 'm')) * 60 * 10 ^ 9 + Spec.num 9 (t.dropWhile (· != 'm')).tail
  else Spec.num 9 t

/-- The value of hours, minutes and seconds. -/
def Spec.hms (t : List Char) : Nat :=
  if 'h' ∈ t then Spec.dec (t.takeWhile (· != 'h')) * 3600 * 10 ^ 9 + Spec.minSec (t.dropWhile (· != 'h')).tail
  else Spec.minSec t

/-- The number of nanoseconds a text without sign stands for. -/
def Spec.parseAbs (t : List Char) : Nat :=
  match t.reverse with
  | 's' :: 'n' :: r => Spec.num 0 r.reverse
  | 's' :: 'µ' :: r => Spec.num 3 r.reverse
  | 's' :: 'm' :: r => Spec.num 6 r.reverse
  | 's' :: r => Spec.hms r.reverse
  | _ => 0

/-- The number of nanoseconds a text stands for, without days. -/
def Spec.parseStd (t : List Char) : Int :=
  if t.head? = some '-' then - (Spec.parseAbs t.tail : Int) else Spec.parseAbs t

/-- The number of nanoseconds a text stands for. -/
def Spec.parse (t : List Char) : Int :=
  if 'd' ∈ t then Spec.dec (t.takeWhile (· != 'd')) * (24 * 3600 * 10 ^ 9) + Spec.parseStd (t.dropWhile (· != 'd')).tail
  else Spec.parseStd t

/-! ## Digits -/

/-- Decimal digits. -/
def isDigit (c : Char) : Bool := decide (c ∈ "0123456789".toList)

theorem digitChar_val : ∀ n : Fin 10, (Nat.digitChar n.1).toNat - 48 = n.1 ∧ isDigit (Nat.digitChar n.1) = true := by
  decide

theorem dec_snoc (t : List Char) (c : Char) : Spec.dec (t ++ [c]) = 10 * Spec.dec t + (c.toNat - 48) := by
  simp [Spec.dec]

theorem decimal_spec (n : Nat) : Spec.dec (decimal n) = n ∧ (∀ c ∈ decimal n, isDigit c = true) ∧ decimal n ≠ [] := by
  induction n using Nat.strong_induction_on with
  | _ n ih =>
    unfold decimal at *
    by_cases h : n < 10
    · rw [Nat.toDigits_of_lt_base h]
      have := digitChar_val ⟨n, h⟩
      refine ⟨by simp [Spec.dec, this.1], ?_, by simp⟩
      intro c hc
      rw [List.mem_singleton] at hc
      rw [hc]; exact this.2
    · rw [Nat.toDigits_of_base_le (by decide) (by omega)]
      obtain ⟨h1, h2, h3⟩ := ih (n / 10) (by omega)
      have := digitChar_val ⟨n % 10, by omega⟩
      refine ⟨?_, ?_, by simp⟩
      · rw [dec_snoc, h1, this.1]; simp only; omega
      · intro c hc
        rw [List.mem_append, List.mem_singleton] at hc
        rcases hc with hc | rfl
        · exact h2 c hc
        · exact this.2

theorem padded_spec : ∀ (k n : Nat), n < 10 ^ k → (padded k n).length = k ∧ Spec.dec (padded k n) = n ∧
    (∀ c ∈ padded k n, isDigit c = true)
  | 0, n, h => by
    have : n = 0 := by simpa using h
    subst this
    simp [padded, Spec.dec]
  | k + 1, n, h => by
    obtain ⟨h1, h2, h3⟩ := padded_spec k (n / 10) (by rw [Nat.pow_succ] at h; omega)
    have := digitChar_val ⟨n % 10, by omega⟩
    refine ⟨by simp [padded, h1], ?_, ?_⟩
    · rw [padded, dec_snoc, h2, this.1]; simp only; omega
    · intro c hc
      rw [padded, List.mem_append, List.mem_singleton] at hc
      rcases hc with hc | rfl
      · exact h3 c hc
      · exact this.2

theorem strip_zeros (l : List Char) : ∃ k, l = (l.reverse.dropWhile (· == '0')).reverse ++ List.replicate k '0' := by
  induction l using List.reverseRecOn with
  | nil => exact ⟨0, rfl⟩
  | append_singleton l c ih =>
    rw [List.reverse_append, List.reverse_singleton, List.singleton_append, List.dropWhile_cons]
    by_cases h : c = '0'
    · subst h
      obtain ⟨k, hk⟩ := ih
      refine ⟨k + 1, ?_⟩
      simp only [beq_self_eq_true, if_true]
      rw [List.replicate_succ', ← List.append_assoc, ← hk]
    · refine ⟨0, ?_⟩
      simp [h]

theorem takeWhile_sep {p : List Char} {c : Char} {r : List Char} (h : c ∉ p) :
    (p ++ c :: r).takeWhile (· != c) = p ∧ (p ++ c :: r).dropWhile (· != c) = c :: r := by
  induction p with
  | nil => simp
  | cons a p ih =>
    simp only [List.mem_cons, not_or] at h
    have ha : a ≠ c := fun e => h.1 e.symm
    obtain ⟨h1, h2⟩ := ih h.2
    simp [ha, h1, h2]

theorem takeWhile_all {p : List Char} {c : Char} (h : c ∉ p) :
    p.takeWhile (· != c) = p ∧ p.dropWhile (· != c) = [] := by
  induction p with
  | nil => simp
  | cons a p ih =>
    simp only [List.mem_cons, not_or] at h
    have ha : a ≠ c := fun e => h.1 e.symm
    obtain ⟨h1, h2⟩ := ih h.2
    simp [ha, h1, h2]

theorem not_mem_digits {l : List Char} (h : ∀ c ∈ l, isDigit c = true) {c : Char} (hc : isDigit c = false) : c ∉ l := by
  intro hm
  rw [h c hm] at hc
  simp at hc

theorem frac_chars (v prec : Nat) (h : v < 10 ^ prec) : ∀ c ∈ frac v prec, c = '.' ∨ isDigit c = true := by
  intro c hc
  unfold frac at hc
  simp only at hc
  split_ifs at hc
  · simp at hc
  · rcases List.mem_cons.1 hc with e | hm
    · exact .inl e
    · right
      apply (padded_spec prec v h).2.2
      obtain ⟨k, hk⟩ := strip_zeros (padded prec v)
      rw [hk]; exact List.mem_append_left _ hm

/-- Whole part, fraction: read back. -/
theorem num_number (w v prec : Nat) (h : v < 10 ^ prec) :
    Spec.num prec (decimal w ++ frac v prec) = w * 10 ^ prec + v := by
  obtain ⟨p1, p2, p3⟩ := padded_spec prec v h
  obtain ⟨d1, d2, d3⟩ := decimal_spec w
  have hdot : '.' ∉ decimal w := not_mem_digits d2 (by decide)
  obtain ⟨k, hk⟩ := strip_zeros (padded prec v)
  unfold Spec.num frac
  simp only
  split_ifs with h0
  · rw [List.append_nil, (takeWhile_all hdot).1, (takeWhile_all hdot).2, d1]
    rw [h0, List.nil_append] at hk
    have hkl : k = prec := by rw [← p1, hk]; simp
    simp only [List.tail_nil, List.nil_append, List.length_nil, Nat.sub_zero]
    rw [← hkl, ← hk, p2, hkl]
  · rw [(takeWhile_sep hdot).1, (takeWhile_sep hdot).2, d1]
    simp only [List.tail_cons]
    have hkl : prec - ((padded prec v).reverse.dropWhile (· == '0')).reverse.length = k := by
      have := congrArg List.length hk
      rw [List.length_append, p1, List.length_replicate] at this
      omega
    rw [hkl, ← hk, p2]

theorem number_chars (v prec : Nat) : ∀ c ∈ number v prec, c = '.' ∨ isDigit c = true := by
  intro c hc
  rcases List.mem_append.1 hc with h | h
  · exact .inr ((decimal_spec _).2.1 c h)
  · exact frac_chars _ _ (Nat.mod_lt _ (Nat.pos_of_ne_zero (by simp))) c h

/-- The characters of seconds. -/
theorem secs_chars (u : Nat) : ∀ c ∈ decimal (u / 10 ^ 9 % 60) ++ frac (u % 10 ^ 9) 9, c = '.' ∨ isDigit c = true := by
  intro c hc
  rcases List.mem_append.1 hc with h | h
  · exact .inr ((decimal_spec _).2.1 c h)
  · exact frac_chars _ _ (Nat.mod_lt _ (by decide)) c h

theorem plain_ne {l : List Char} (h : ∀ c ∈ l, c = '.' ∨ isDigit c = true) {c : Char} (hd : c ≠ '.')
    (hc : isDigit c = false) : c ∉ l := by
  intro hm
  rcases h c hm with e | e
  · exact hd e
  · rw [e] at hc; simp at hc

theorem parseAbs_seconds (t : List Char) (x : Char) (h1 : x ≠ 'n') (h2 : x ≠ 'µ') (h3 : x ≠ 'm') :
    Spec.parseAbs (t ++ [x] ++ ['s']) = Spec.hms (t ++ [x]) := by
  unfold Spec.parseAbs
  rw [List.reverse_append, List.reverse_append]
  simp only [List.reverse_cons, List.reverse_nil, List.nil_append, List.singleton_append]
  split
  · rename_i e; simp only [List.cons.injEq, true_and] at e; exact absurd e.1 h1
  · rename_i e; simp only [List.cons.injEq, true_and] at e; exact absurd e.1 h2
  · rename_i e; simp only [List.cons.injEq, true_and] at e; exact absurd e.1 h3
  · rename_i e
    simp only [List.cons.injEq, true_and] at e
    subst e; simp
  · rename_i h
    exact absurd rfl (h _)

theorem parseAbs_hms (t : List Char) (s f : List Char) (hs : s ≠ [])
    (h : ∀ c ∈ s ++ f, c = '.' ∨ isDigit c = true) :
    Spec.parseAbs (t ++ s ++ f ++ ['s']) = Spec.hms (t ++ s ++ f) := by
  obtain ⟨l, x, hx⟩ : ∃ l x, t ++ s ++ f = l ++ [x] := by
    have : t ++ s ++ f ≠ [] := by simp [hs]
    exact ⟨_, _, (List.dropLast_append_getLast this).symm⟩
  have hmem : x ∈ s ++ f := by
    have hg : (t ++ s ++ f).getLast? = some x := by rw [hx]; simp
    have hne : s ++ f ≠ [] := by simp [hs]
    rw [List.append_assoc, List.getLast?_append, List.getLast?_eq_some_getLast hne] at hg
    simp only [Option.some_or, Option.some.injEq] at hg
    rw [← hg]; exact List.getLast_mem hne
  rw [hx]
  have hn : ∀ c : Char, c ≠ '.' → isDigit c = false → x ≠ c := by
    intro c h1 h2 e
    subst e
    exact plain_ne h h1 h2 hmem
  exact parseAbs_seconds l x (hn _ (by decide) (by decide)) (hn _ (by decide) (by decide)) (hn _ (by decide) (by decide))

theorem parseAbs_stdAbs (u : Nat) : Spec.parseAbs (stdAbs u) = u := by
  unfold stdAbs
  by_cases h9 : u < 10 ^ 9
  · rw [if_pos h9]
    by_cases h0 : u = 0
    · subst h0; decide
    rw [if_neg h0]
    by_cases h3 : u < 10 ^ 3
    · rw [if_pos h3]
      have : Spec.parseAbs (number u 0 ++ ['n', 's']) = Spec.num 0 (number u 0) := by
        unfold Spec.parseAbs; rw [List.reverse_append]; simp
      rw [this, number, num_number _ _ _ (Nat.mod_lt _ (by decide))]
      simp [Nat.mod_one]
    rw [if_neg h3]
    by_cases h6 : u < 10 ^ 6
    · rw [if_pos h6]
      have : Spec.parseAbs (number u 3 ++ ['µ', 's']) = Spec.num 3 (number u 3) := by
        unfold Spec.parseAbs; rw [List.reverse_append]; simp
      rw [this, number, num_number _ _ _ (Nat.mod_lt _ (by decide))]
      omega
    · rw [if_neg h6]
      have : Spec.parseAbs (number u 6 ++ ['m', 's']) = Spec.num 6 (number u 6) := by
        unfold Spec.parseAbs; rw [List.reverse_append]; simp
      rw [this, number, num_number _ _ _ (Nat.mod_lt _ (by decide))]
      omega
  · rw [if_neg h9]
    simp only
    have hsc := secs_chars u
    have hm : 'm' ∉ decimal (u / 10 ^ 9 % 60) ++ frac (u % 10 ^ 9) 9 := plain_ne hsc (by decide) (by decide)
    have hh : 'h' ∉ decimal (u / 10 ^ 9 % 60) ++ frac (u % 10 ^ 9) 9 := plain_ne hsc (by decide) (by decide)
    have hnum := num_number (u / 10 ^ 9 % 60) (u % 10 ^ 9) 9 (Nat.mod_lt _ (by decide))
    have hne := (decimal_spec (u / 10 ^ 9 % 60)).2.2
    by_cases h1 : u / 10 ^ 9 / 60 > 0
    · rw [if_pos h1]
      set m := u / 10 ^ 9 / 60 with hmdef
      obtain ⟨a1, a2, a3⟩ := decimal_spec (m % 60)
      have mm : 'm' ∉ decimal (m % 60) := not_mem_digits a2 (by decide)
      have mh : 'h' ∉ decimal (m % 60) := not_mem_digits a2 (by decide)
      have hms : Spec.minSec (decimal (m % 60) ++ ['m'] ++ decimal (u / 10 ^ 9 % 60) ++ frac (u % 10 ^ 9) 9) =
          m % 60 * 60 * 10 ^ 9 + (u / 10 ^ 9 % 60 * 10 ^ 9 + u % 10 ^ 9) := by
        have e : decimal (m % 60) ++ ['m'] ++ decimal (u / 10 ^ 9 % 60) ++ frac (u % 10 ^ 9) 9 =
            decimal (m % 60) ++ 'm' :: (decimal (u / 10 ^ 9 % 60) ++ frac (u % 10 ^ 9) 9) := by simp
        rw [e, Spec.minSec, if_pos (by simp), (takeWhile_sep mm).1, (takeWhile_sep mm).2, List.tail_cons, hnum, a1]
      by_cases h2 : m / 60 > 0
      · rw [if_pos h2]
        obtain ⟨b1, b2, b3⟩ := decimal_spec (m / 60)
        have bh : 'h' ∉ decimal (m / 60) := not_mem_digits b2 (by decide)
        have e : decimal (m / 60) ++ ['h'] ++ (decimal (m % 60) ++ ['m']) ++
            (decimal (u / 10 ^ 9 % 60) ++ frac (u % 10 ^ 9) 9 ++ ['s']) =
            (decimal (m / 60) ++ ['h'] ++ (decimal (m % 60) ++ ['m'])) ++ decimal (u / 10 ^ 9 % 60) ++
              frac (u % 10 ^ 9) 9 ++ ['s'] := by simp
        rw [e, parseAbs_hms _ _ _ hne hsc]
        have e2 : (decimal (m / 60) ++ ['h'] ++ (decimal (m % 60) ++ ['m'])) ++ decimal (u / 10 ^ 9 % 60) ++
            frac (u % 10 ^ 9) 9 = decimal (m / 60) ++ 'h' ::
              (decimal (m % 60) ++ ['m'] ++ decimal (u / 10 ^ 9 % 60) ++ frac (u % 10 ^ 9) 9) := by simp
        rw [e2, Spec.hms, if_pos (by simp), (takeWhile_sep bh).1, (takeWhile_sep bh).2, List.tail_cons, hms, b1]
        omega
      · rw [if_neg h2]
        have e : decimal (m % 60) ++ ['m'] ++ (decimal (u / 10 ^ 9 % 60) ++ frac (u % 10 ^ 9) 9 ++ ['s']) =
            (decimal (m % 60) ++ ['m']) ++ decimal (u / 10 ^ 9 % 60) ++ frac (u % 10 ^ 9) 9 ++ ['s'] := by simp
        rw [e, parseAbs_hms _ _ _ hne hsc, Spec.hms, if_neg, hms]
        · omega
        · simp only [List.mem_append, List.mem_singleton, not_or] at hh ⊢
          exact ⟨⟨⟨mh, by decide⟩, hh.1⟩, hh.2⟩
    · rw [if_neg h1]
      have := parseAbs_hms [] _ _ hne hsc
      simp only [List.nil_append] at this
      rw [this, Spec.hms, if_neg hh, Spec.minSec, if_neg hm, hnum]
      omega

theorem stdAbs_chars (u : Nat) : ∀ c ∈ stdAbs u, c ≠ 'd' ∧ c ≠ '-' := by
  have hp : ∀ l : List Char, (∀ c ∈ l, c = '.' ∨ isDigit c = true) → ∀ c ∈ l, c ≠ 'd' ∧ c ≠ '-' := by
    intro l hl c hc
    constructor
    · rintro rfl; exact plain_ne hl (by decide) (by decide) hc
    · rintro rfl; exact plain_ne hl (by decide) (by decide) hc
  have hd : ∀ n, ∀ c ∈ decimal n, c ≠ 'd' ∧ c ≠ '-' := fun n => hp _ fun c hc => .inr ((decimal_spec n).2.1 c hc)
  have hn : ∀ p, ∀ c ∈ number u p, c ≠ 'd' ∧ c ≠ '-' := fun p => hp _ (number_chars u p)
  have hf := hp _ (frac_chars (u % 10 ^ 9) 9 (Nat.mod_lt _ (by decide)))
  intro c hc
  unfold stdAbs at hc
  simp only at hc
  split_ifs at hc <;> simp only [List.mem_append, List.mem_cons, List.not_mem_nil, or_false] at hc
  · rcases hc with rfl | rfl <;> decide
  · rcases hc with h | rfl | rfl
    · exact hn _ c h
    · decide
    · decide
  · rcases hc with h | rfl | rfl
    · exact hn _ c h
    · decide
    · decide
  · rcases hc with h | rfl | rfl
    · exact hn _ c h
    · decide
    · decide
  · rcases hc with ((h | rfl) | (h | rfl)) | ((h | h) | rfl)
    · exact hd _ c h
    · decide
    · exact hd _ c h
    · decide
    · exact hd _ c h
    · exact hf c h
    · decide
  · rcases hc with (h | rfl) | ((h | h) | rfl)
    · exact hd _ c h
    · decide
    · exact hd _ c h
    · exact hf c h
    · decide
  · rcases hc with (h | h) | rfl
    · exact hd _ c h
    · exact hf c h
    · decide

theorem parseStd_std (d : BitVec 64) : Spec.parseStd (std d) = d.toInt := by
  unfold std
  by_cases h : d.slt 0
  · rw [if_pos h, Spec.parseStd, if_pos (by simp), List.tail_cons, parseAbs_stdAbs]
    have hlt : d.toInt < 0 := by simpa [BitVec.slt] using h
    have hn : 2 ^ 63 ≤ d.toNat := by
      by_contra hc
      rw [BitVec.toInt_eq_toNat_of_lt (by omega)] at hlt
      omega
    have := d.isLt
    rw [BitVec.toNat_neg, BitVec.toInt_eq_toNat_cond, if_neg (by omega), Nat.mod_eq_of_lt (by omega)]
    omega
  · rw [if_neg h, Spec.parseStd, if_neg]
    · rw [parseAbs_stdAbs]
      have hge : ¬ d.toInt < 0 := by simpa [BitVec.slt] using h
      have : d.toNat < 2 ^ 63 := by
        by_contra hc
        have := d.isLt
        rw [BitVec.toInt_eq_toNat_cond, if_neg (by omega)] at hge
        omega
      rw [BitVec.toInt_eq_toNat_of_lt (by omega)]
    · intro e
      exact (stdAbs_chars d.toNat '-' (List.mem_of_mem_head? (by rw [e]; rfl))).2 rfl

theorem std_no_d (d : BitVec 64) : 'd' ∉ std d := by
  unfold std
  split_ifs
  · simp only [List.mem_cons, not_or]
    exact ⟨by decide, fun h => (stdAbs_chars _ _ h).1 rfl⟩
  · exact fun h => (stdAbs_chars _ _ h).1 rfl

theorem nonneg_of_not_slt {d : BitVec 64} (h : ¬ d.slt day) : d.toNat < 2 ^ 63 ∧ day.toNat ≤ d.toNat := by
  have hge : ¬ d.toInt < day.toInt := by simpa [BitVec.slt] using h
  have hday : day.toInt = 86400000000000 := by decide
  have hday' : day.toNat = 86400000000000 := by decide
  rw [hday] at hge
  rw [hday']
  have := d.isLt
  by_cases hc : d.toNat < 2 ^ 63
  · rw [BitVec.toInt_eq_toNat_of_lt (by omega)] at hge
    omega
  · rw [BitVec.toInt_eq_toNat_cond, if_neg (by omega)] at hge
    omega

theorem div_day {d : BitVec 64} (h : ¬ d.slt day) :
    (d.sdiv day).toNat = d.toNat / 86400000000000 ∧ (d.srem day).toNat = d.toNat % 86400000000000 := by
  obtain ⟨h1, h2⟩ := nonneg_of_not_slt h
  have hd : d.msb = false := by rw [BitVec.msb_eq_false_iff_two_mul_lt]; omega
  have hy : day.msb = false := by decide
  have hday' : day.toNat = 86400000000000 := by decide
  constructor
  · simp only [BitVec.sdiv, hd, hy, BitVec.udiv_eq, BitVec.toNat_udiv, hday']
  · simp only [BitVec.srem, hd, hy, BitVec.umod_eq, BitVec.toNat_umod, hday']

/-- **C67** (days).  A duration of a day or more is written as its whole number of days, the letter `d` and the text of
the remainder, which is below one day; a shorter (or negative) duration is written as the Go library does. -/
theorem C67_days (d : BitVec 64) :
    (d.toInt < 86400000000000 → string d = std d) ∧
    (86400000000000 ≤ d.toInt → ∃ days rest : Nat, rest < 86400000000000 ∧
      d.toInt = days * 86400000000000 + rest ∧
      string d = Nat.toDigits 10 days ++ ['d'] ++ std (BitVec.ofNat 64 rest)) := by
  have hday : day.toInt = 86400000000000 := by decide
  constructor
  · intro h
    rw [string, if_pos (by simpa [BitVec.slt, hday] using h)]
  · intro h
    have hn : ¬ d.slt day := by simpa [BitVec.slt, hday] using h
    obtain ⟨h1, h2⟩ := div_day hn
    obtain ⟨h3, -⟩ := nonneg_of_not_slt hn
    refine ⟨d.toNat / 86400000000000, d.toNat % 86400000000000, Nat.mod_lt _ (by decide), ?_, ?_⟩
    · rw [BitVec.toInt_eq_toNat_of_lt (by omega)]
      omega
    · rw [string, if_neg hn, h1, ← h2]
      simp [decimal]

/-- **C67** (faithful).  Every duration can be read back from its text. -/
theorem C67_parse (d : BitVec 64) : Spec.parse (string d) = d.toInt := by
  unfold string
  by_cases h : d.slt day
  · rw [if_pos h, Spec.parse, if_neg (std_no_d d), parseStd_std]
  · rw [if_neg h]
    obtain ⟨h1, h2⟩ := div_day h
    obtain ⟨h3, -⟩ := nonneg_of_not_slt h
    simp only
    obtain ⟨a1, a2, -⟩ := decimal_spec (d.sdiv day).toNat
    have hd : 'd' ∉ decimal (d.sdiv day).toNat := not_mem_digits a2 (by decide)
    have e : decimal (d.sdiv day).toNat ++ ['d'] ++ std (d.srem day) =
        decimal (d.sdiv day).toNat ++ 'd' :: std (d.srem day) := by simp
    rw [e, Spec.parse, if_pos (by simp), (takeWhile_sep hd).1, (takeWhile_sep hd).2, List.tail_cons, a1, parseStd_std,
      h1, BitVec.toInt_eq_toNat_of_lt (by rw [h2]; omega), h2, BitVec.toInt_eq_toNat_of_lt (by omega)]
    omega

/-- **C67** (consequence).  Different durations have different texts. -/
theorem C67_injective (a b : BitVec 64) (h : string a = string b) : a = b := by
  apply BitVec.eq_of_toInt_eq
  rw [← C67_parse, ← C67_parse, h]

example : String.ofList (string 90061500000000#64) = "1d1h1m1.5s" := by decide +kernel
example : String.ofList (string (-1500000#64)) = "-1.5ms" := by decide +kernel

end Verif.Duration
