import Verif.Model.ParseDuration
import Verif.Props.Duration
/-!
# Reading durations back with `ParseDuration` (C100)
-/

set_option linter.unusedSectionVars false

namespace Verif.Duration

theorem digit_of_isDigit {c : Char} (h : isDigit c = true) : digit c = true := by
  have h : c ∈ "0123456789".toList := of_decide_eq_true h
  have e : "0123456789".toList = ['0', '1', '2', '3', '4', '5', '6', '7', '8', '9'] := by decide
  rw [e] at h
  simp only [List.mem_cons, List.not_mem_nil, or_false] at h
  rcases h with rfl | rfl | rfl | rfl | rfl | rfl | rfl | rfl | rfl | rfl <;> decide

/-- The digits read behind `x`. -/
def decFrom (x : Nat) (ds : List Char) : Nat := ds.foldl (fun n c => n * 10 + (c.toNat - 48)) x

theorem decFrom_zero (ds : List Char) : decFrom 0 ds = Spec.dec ds := by
  unfold decFrom Spec.dec
  congr 1
  funext n c
  omega

theorem le_decFrom (ds : List Char) : ∀ x, x ≤ decFrom x ds := by
  induction ds with
  | nil => intro x; exact Nat.le_refl _
  | cons c ds ih =>
    intro x
    have := ih (x * 10 + (c.toNat - 48))
    show x ≤ decFrom (x * 10 + (c.toNat - 48)) ds
    omega

/-- Nothing follows, or something that is no digit. -/
def NoDigit (r : List Char) : Prop := ∀ c, r.head? = some c → digit c = false

theorem leadingInt_stop {r : List Char} (h : NoDigit r) (x : Nat) : leadingInt r x = some (x, r) := by
  cases r with
  | nil => rfl
  | cons c s => rw [leadingInt, if_neg (by rw [h c rfl]; decide)]

theorem leadingInt_digits (r : List Char) (hr : NoDigit r) : ∀ (ds : List Char), (∀ c ∈ ds, digit c = true) → ∀ x,
    decFrom x ds ≤ 2 ^ 63 → leadingInt (ds ++ r) x = some (decFrom x ds, r) := by
  intro ds
  induction ds with
  | nil => intro _ x _; exact leadingInt_stop hr x
  | cons c ds ih =>
    intro hd x hx
    have h0 : decFrom x (c :: ds) = decFrom (x * 10 + (c.toNat - 48)) ds := rfl
    have h1 := le_decFrom ds (x * 10 + (c.toNat - 48))
    rw [h0] at hx
    rw [List.cons_append, leadingInt, if_pos (hd c List.mem_cons_self), if_neg (by omega), if_neg (by omega), h0]
    exact ih (fun a ha => hd a (List.mem_cons_of_mem _ ha)) _ hx

theorem leadingFraction_digits (r : List Char) (hr : NoDigit r) : ∀ (ds : List Char), (∀ c ∈ ds, digit c = true) →
    ∀ x scale, decFrom x ds < 2 ^ 63 →
    leadingFraction (ds ++ r) x scale false = (decFrom x ds, scale * 10 ^ ds.length, r) := by
  intro ds
  induction ds with
  | nil =>
    intro _ x scale _
    cases r with
    | nil => simp [leadingFraction, decFrom]
    | cons c s => rw [List.nil_append, leadingFraction, if_neg (by rw [hr c rfl]; decide)]; simp [decFrom]
  | cons c ds ih =>
    intro hd x scale hx
    have h0 : decFrom x (c :: ds) = decFrom (x * 10 + (c.toNat - 48)) ds := rfl
    have h1 := le_decFrom ds (x * 10 + (c.toNat - 48))
    rw [h0] at hx
    rw [List.cons_append, leadingFraction, if_pos (hd c List.mem_cons_self), if_neg (by decide), if_neg (by omega),
      if_neg (by omega), h0, ih (fun a ha => hd a (List.mem_cons_of_mem _ ha)) _ _ hx, List.length_cons, Nat.pow_succ]
    congr 2
    ring

/-- A unit, followed by nothing or a digit. -/
structure UnitThen (u r : List Char) (unit : Nat) : Prop where
  chars : ∀ c ∈ u, unitChar c = true
  known : unitMap u = some unit
  next : ∀ c, r.head? = some c → unitChar c = false

theorem UnitThen.ne_nil {u r : List Char} {unit : Nat} (h : UnitThen u r unit) : u ≠ [] := by
  rintro rfl
  have := h.known
  revert this
  simp [unitMap]

theorem takeWhile_unit (u r : List Char) (h1 : ∀ c ∈ u, unitChar c = true)
    (h2 : ∀ c, r.head? = some c → unitChar c = false) :
    (u ++ r).takeWhile unitChar = u ∧ (u ++ r).dropWhile unitChar = r := by
  induction u with
  | nil =>
    cases r with
    | nil => exact ⟨rfl, rfl⟩
    | cons c r => simp [h2 c rfl]
  | cons c u ih =>
    have hc := h1 c List.mem_cons_self
    obtain ⟨a, b⟩ := ih fun d hd => h1 d (List.mem_cons_of_mem _ hd)
    simp [hc, a, b]

theorem noDigit_unit (u r : List Char) (h1 : ∀ c ∈ u, unitChar c = true) (h : u ≠ []) :
    NoDigit (u ++ r) ∧ ∀ t, u ++ r ≠ '.' :: t := by
  cases u with
  | nil => exact absurd rfl h
  | cons c u =>
    have hc := h1 c List.mem_cons_self
    constructor
    · intro d hd
      simp only [List.cons_append, List.head?_cons, Option.some.injEq] at hd
      subst hd
      unfold unitChar at hc
      cases hx : digit c <;> simp_all
    · intro t e
      simp only [List.cons_append, List.cons.injEq] at e
      rw [e.1] at hc
      revert hc; decide

theorem decimal_digits (w : Nat) : (∀ c ∈ decimal w, digit c = true) ∧ decFrom 0 (decimal w) = w := by
  obtain ⟨h1, h2, -⟩ := decimal_spec w
  exact ⟨fun c hc => digit_of_isDigit (h2 c hc), by rw [decFrom_zero, h1]⟩

theorem decimal_cons (w : Nat) : ∃ c t, decimal w = c :: t ∧ digit c = true := by
  obtain ⟨h, -⟩ := decimal_digits w
  have h3 := (decimal_spec w).2.2
  cases e : decimal w with
  | nil => exact absurd e h3
  | cons c t => exact ⟨c, t, rfl, h c (by rw [e]; exact List.mem_cons_self)⟩

/-- A whole number and a unit. -/
theorem chunk_int (F : FracMul) (w : Nat) (u r : List Char) (unit : Nat) (h : UnitThen u r unit) (hu : 0 < unit)
    (hw : w * unit ≤ 2 ^ 63) : chunk F (decimal w ++ (u ++ r)) = .ok (w * unit, r) := by
  obtain ⟨c, t, e, hc⟩ := decimal_cons w
  obtain ⟨n1, n2⟩ := noDigit_unit u r h.chars h.ne_nil
  obtain ⟨d1, d2⟩ := decimal_digits w
  obtain ⟨t1, t2⟩ := takeWhile_unit u r h.chars h.next
  have hw1 : w ≤ w * unit := Nat.le_mul_of_pos_right _ hu
  have hl := leadingInt_digits (u ++ r) n1 (decimal w) d1 0 (by rw [d2]; omega)
  rw [d2] at hl
  have hov : ¬ w > 2 ^ 63 / unit := by
    rw [Nat.not_lt]
    exact (Nat.le_div_iff_mul_le hu).2 hw
  have hlen : (decimal w ++ (u ++ r)).length ≠ (u ++ r).length := by
    rw [List.length_append, e, List.length_cons]; omega
  unfold chunk
  split
  · rename_i heq; rw [e] at heq; simp at heq
  · rename_i c' s' heq
    have hc' : digit c' = true := by
      rw [e, List.cons_append] at heq
      simp only [List.cons.injEq] at heq
      rw [← heq.1]; exact hc
    rw [if_neg (by rw [hc']; simp), hl]
    simp only [decide_eq_true hlen]
    rw [if_neg (by simp), t1, t2, if_neg h.ne_nil, h.known]
    simp only
    rw [if_neg hov]
    simp

/-- A number with a fraction and a unit. -/
theorem chunk_frac (F : FracMul) (w : Nat) (ds u r : List Char) (unit q : Nat) (h : UnitThen u r unit)
    (hd : ∀ c ∈ ds, digit c = true) (hq : unit = q * 10 ^ ds.length) (h10 : ds.length ≤ 9)
    (hu : unit ≤ 10 ^ 9) (hu0 : 0 < unit) (hf : Spec.dec ds * q < unit) (hw : w * unit + Spec.dec ds * q ≤ 2 ^ 63) :
    chunk F (decimal w ++ ('.' :: ds ++ (u ++ r))) = .ok (w * unit + Spec.dec ds * q, r) := by
  obtain ⟨c, t, e, hc⟩ := decimal_cons w
  obtain ⟨n1, n2⟩ := noDigit_unit u r h.chars h.ne_nil
  obtain ⟨d1, d2⟩ := decimal_digits w
  obtain ⟨t1, t2⟩ := takeWhile_unit u r h.chars h.next
  have hq0 : 0 < q := by
    rcases Nat.eq_zero_or_pos q with z | z
    · rw [z] at hq; omega
    · exact z
  have hw1 : w ≤ w * unit := Nat.le_mul_of_pos_right _ hu0
  have hf1 : Spec.dec ds ≤ Spec.dec ds * q := Nat.le_mul_of_pos_right _ hq0
  have hdot : NoDigit ('.' :: ds ++ (u ++ r)) := by
    intro d hd
    simp only [List.cons_append, List.head?_cons, Option.some.injEq] at hd
    rw [← hd]; decide
  have hl := leadingInt_digits ('.' :: ds ++ (u ++ r)) hdot (decimal w) d1 0 (by rw [d2]; omega)
  rw [d2] at hl
  have hfr := leadingFraction_digits (u ++ r) n1 ds hd 0 1 (by rw [decFrom_zero]; omega)
  rw [decFrom_zero, Nat.one_mul] at hfr
  have hov : ¬ w > 2 ^ 63 / unit := by
    rw [Nat.not_lt]
    exact (Nat.le_div_iff_mul_le hu0).2 (by omega)
  have hlen : (decimal w ++ ('.' :: ds ++ (u ++ r))).length ≠ ('.' :: ds ++ (u ++ r)).length := by
    rw [List.length_append, e, List.length_cons]; omega
  have hp10 : 10 ^ ds.length ≤ 10 ^ 9 := Nat.pow_le_pow_right (by decide) h10
  have hmul : F.mul (Spec.dec ds) unit (10 ^ ds.length) = Spec.dec ds * q := by
    rw [hq]
    exact F.exact _ _ _ (by omega) (by omega) (by omega)
  unfold chunk
  split
  · rename_i heq; rw [e] at heq; simp at heq
  · rename_i c' s' heq
    have hc' : digit c' = true := by
      rw [e, List.cons_append] at heq
      simp only [List.cons.injEq] at heq
      rw [← heq.1]; exact hc
    rw [if_neg (by rw [hc']; simp), hl]
    simp only [decide_eq_true hlen]
    simp only [List.cons_append, hfr]
    rw [if_neg (by simp), t1, t2, if_neg h.ne_nil, h.known]
    simp only [hmul]
    rw [if_neg hov]
    by_cases h0 : Spec.dec ds > 0
    · rw [if_pos h0, if_neg (by omega)]
    · have : Spec.dec ds = 0 := by omega
      rw [if_neg h0, if_neg (by omega), this]; simp

/-- A number of `prec` decimals in the unit `10^prec`, as the library writes it. -/
theorem chunk_number (F : FracMul) (w v prec : Nat) (u r : List Char) (hp : prec ≤ 9) (h : UnitThen u r (10 ^ prec))
    (hv : v < 10 ^ prec) (hw : w * 10 ^ prec + v ≤ 2 ^ 63) :
    chunk F (decimal w ++ (frac v prec ++ (u ++ r))) = .ok (w * 10 ^ prec + v, r) := by
  obtain ⟨p1, p2, p3⟩ := padded_spec prec v hv
  obtain ⟨k, hk⟩ := strip_zeros (padded prec v)
  have hu0 : 0 < 10 ^ prec := Nat.pow_pos (by decide)
  have hzeros : ∀ (l : List Char) (k : Nat), Spec.dec (l ++ List.replicate k '0') = Spec.dec l * 10 ^ k := by
    intro l k
    induction k with
    | zero => simp
    | succ k ih =>
      rw [List.replicate_succ', ← List.append_assoc, dec_snoc, ih, Nat.pow_succ]
      have : '0'.toNat - 48 = 0 := by decide
      rw [this]; ring
  unfold frac
  simp only
  split_ifs with h0
  · rw [h0, List.nil_append] at hk
    have hz : v = 0 := by
      have := hzeros [] k
      rw [List.nil_append, ← hk, p2] at this
      simpa [Spec.dec] using this
    subst hz
    rw [List.nil_append]
    exact chunk_int F w u r _ h hu0 hw
  · set ds := ((padded prec v).reverse.dropWhile (· == '0')).reverse with hds
    have hdv : Spec.dec ds * 10 ^ k = v := by rw [← hzeros, ← hk, p2]
    have hlen : ds.length + k = prec := by
      rw [← p1, hk, List.length_append, List.length_replicate]
    have hdd : ∀ c ∈ ds, digit c = true := by
      intro c hc
      refine digit_of_isDigit (p3 c ?_)
      rw [hk]; exact List.mem_append_left _ hc
    rw [← hdv]
    refine chunk_frac F w ds u r (10 ^ prec) (10 ^ k) h hdd ?_ (by omega) (Nat.pow_le_pow_right (by decide) hp) hu0
      (by omega) (by omega)
    rw [← Nat.pow_add]; congr 1; omega

theorem chunks_step (F : FracMul) (s : List Char) (d v : Nat) (rest : List Char) (hs : s ≠ [])
    (h : chunk F s = .ok (v, rest)) (hd : d + v ≤ 2 ^ 63) (fuel : Nat) :
    chunks F (fuel + 1) s d = chunks F fuel rest (d + v) := by
  cases s with
  | nil => exact absurd rfl hs
  | cons c s =>
    rw [chunks, h]
    simp only
    rw [if_neg (by omega)]

theorem chunks_nil (F : FracMul) (fuel d : Nat) : chunks F fuel [] d = .ok d := by
  cases fuel <;> rfl

theorem head_decimal (w : Nat) (r : List Char) : ∀ c, (decimal w ++ r).head? = some c → unitChar c = false := by
  intro c hc
  obtain ⟨c', t, e, hd⟩ := decimal_cons w
  rw [e, List.cons_append, List.head?_cons, Option.some.injEq] at hc
  subst hc
  simp [unitChar, hd]

theorem ne_nil_decimal (w : Nat) (r : List Char) : decimal w ++ r ≠ [] := by
  obtain ⟨c', t, e, -⟩ := decimal_cons w
  rw [e]; simp

/-- The unsigned text is read back. -/
theorem chunks_stdAbs (F : FracMul) (u : Nat) (hu : u ≤ 2 ^ 63) : chunks F (stdAbs u).length (stdAbs u) 0 = .ok u := by
  have one : ∀ (w v prec : Nat) (un : List Char), prec ≤ 9 → UnitThen un [] (10 ^ prec) → v < 10 ^ prec →
      ∀ d, d + (w * 10 ^ prec + v) ≤ 2 ^ 63 → ∀ fuel,
      chunks F (fuel + 1) (decimal w ++ (frac v prec ++ un)) d = .ok (d + (w * 10 ^ prec + v)) := by
    intro w v prec un hp hun hv d hd fuel
    have := chunk_number F w v prec un [] hp hun hv (by omega)
    rw [List.append_nil] at this
    rw [chunks_step F _ d _ _ (ne_nil_decimal _ _) this hd, chunks_nil]
  have len : ∀ (t : List Char) (n : Nat), n < t.length → ∃ k, t.length = k + n + 1 := fun t n h =>
    ⟨t.length - n - 1, by omega⟩
  have uns : UnitThen ['n', 's'] [] (10 ^ 0) := ⟨by decide, by decide, by simp⟩
  have uus : UnitThen ['µ', 's'] [] (10 ^ 3) := ⟨by decide, by decide, by simp⟩
  have ums : UnitThen ['m', 's'] [] (10 ^ 6) := ⟨by decide, by decide, by simp⟩
  have us : UnitThen ['s'] [] (10 ^ 9) := ⟨by decide, by decide, by simp⟩
  unfold stdAbs
  by_cases h9 : u < 10 ^ 9
  · rw [if_pos h9]
    by_cases h0 : u = 0
    · rw [if_pos h0, h0]
      have := one 0 0 9 ['s'] (by decide) us (by decide) 0 (by decide) 1
      rw [show decimal 0 ++ (frac 0 9 ++ ['s']) = ['0', 's'] by decide +kernel] at this
      exact this
    rw [if_neg h0]
    have num : ∀ prec un, prec ≤ 9 → UnitThen un [] (10 ^ prec) →
        chunks F (number u prec ++ un).length (number u prec ++ un) 0 = .ok u := by
      intro prec un hp hun
      have hpos : 0 < 10 ^ prec := Nat.pow_pos (by decide)
      have hdm := Nat.div_add_mod u (10 ^ prec)
      rw [Nat.mul_comm] at hdm
      obtain ⟨k, hk⟩ := len (number u prec ++ un) 0 (by
        rw [List.length_append]
        have := List.length_pos_iff.2 hun.ne_nil
        omega)
      have := one (u / 10 ^ prec) (u % 10 ^ prec) prec un hp hun (Nat.mod_lt _ hpos) 0 (by omega) (k + 0)
      rw [hk, number, List.append_assoc, this, hdm, Nat.zero_add]
    split_ifs
    · exact num 0 _ (by decide) uns
    · exact num 3 _ (by decide) uus
    · exact num 6 _ (by decide) ums
  · rw [if_neg h9]
    simp only
    set s := u / 10 ^ 9 with hs
    have secs : ∀ d, d + (s % 60 * 10 ^ 9 + u % 10 ^ 9) ≤ 2 ^ 63 → ∀ fuel,
        chunks F (fuel + 1) (decimal (s % 60) ++ frac (u % 10 ^ 9) 9 ++ ['s']) d =
          .ok (d + (s % 60 * 10 ^ 9 + u % 10 ^ 9)) := by
      intro d hd fuel
      rw [List.append_assoc]
      exact one _ _ 9 _ (by decide) us (Nat.mod_lt _ (by decide)) d hd fuel
    have mins : ∀ d, d + (s / 60 % 60 * (60 * 10 ^ 9) + (s % 60 * 10 ^ 9 + u % 10 ^ 9)) ≤ 2 ^ 63 → ∀ fuel,
        chunks F (fuel + 1 + 1) (decimal (s / 60 % 60) ++ ['m'] ++
          (decimal (s % 60) ++ frac (u % 10 ^ 9) 9 ++ ['s'])) d =
          .ok (d + s / 60 % 60 * (60 * 10 ^ 9) + (s % 60 * 10 ^ 9 + u % 10 ^ 9)) := by
      intro d hd fuel
      have hun : UnitThen ['m'] (decimal (s % 60) ++ frac (u % 10 ^ 9) 9 ++ ['s']) (60 * 10 ^ 9) :=
        ⟨by decide, by decide, by rw [List.append_assoc]; exact head_decimal _ _⟩
      have hs60 := Nat.mod_lt (s / 60) (show 0 < 60 by decide)
      have := chunk_int F (s / 60 % 60) ['m'] _ _ hun (by omega) (by omega)
      have hd2 : d + s / 60 % 60 * (60 * 10 ^ 9) ≤ 2 ^ 63 :=
        Nat.le_trans (Nat.add_le_add_left (Nat.le_add_right _ _) _) hd
      rw [List.append_assoc, chunks_step F _ d _ _ (ne_nil_decimal _ _) this hd2,
        secs (d + s / 60 % 60 * (60 * 10 ^ 9)) (by omega)]
    by_cases h1 : s / 60 > 0
    · rw [if_pos h1]
      by_cases h2 : s / 60 / 60 > 0
      · rw [if_pos h2]
        have hun : UnitThen ['h'] (decimal (s / 60 % 60) ++ ['m'] ++
          (decimal (s % 60) ++ frac (u % 10 ^ 9) 9 ++ ['s'])) (3600 * 10 ^ 9) :=
          ⟨by decide, by decide, by rw [List.append_assoc]; exact head_decimal _ _⟩
        have := chunk_int F (s / 60 / 60) ['h'] _ _ hun (by omega) (by omega)
        obtain ⟨k, hk⟩ := len (decimal (s / 60 / 60) ++ ['h'] ++ (decimal (s / 60 % 60) ++ ['m']) ++
          (decimal (s % 60) ++ frac (u % 10 ^ 9) 9 ++ ['s'])) 2 (by simp; omega)
        rw [hk, List.append_assoc, List.append_assoc,
          chunks_step F _ 0 _ _ (ne_nil_decimal _ _) this (by omega), mins (0 + s / 60 / 60 * (3600 * 10 ^ 9)) (by omega)]
        congr 1
        omega
      · obtain ⟨k, hk⟩ := len (decimal (s / 60 % 60) ++ ['m'] ++
          (decimal (s % 60) ++ frac (u % 10 ^ 9) 9 ++ ['s'])) 1 (by simp; omega)
        rw [if_neg h2, hk, mins 0 (by omega)]
        congr 1
        omega
    · obtain ⟨k, hk⟩ := len (decimal (s % 60) ++ frac (u % 10 ^ 9) 9 ++ ['s']) 0 (by simp)
      rw [if_neg h1, hk, secs 0 (by omega)]
      congr 1
      omega

theorem stdAbs_head (u : Nat) : ∃ w r, stdAbs u = decimal w ++ r ∧ r ≠ [] := by
  unfold stdAbs
  simp only
  split_ifs with h9 h0 h3 h6 h1 h2
  · exact ⟨0, ['s'], by decide, by simp⟩
  · exact ⟨_, _, by rw [number, List.append_assoc], by simp⟩
  · exact ⟨_, _, by rw [number, List.append_assoc], by simp⟩
  · exact ⟨_, _, by rw [number, List.append_assoc], by simp⟩
  · exact ⟨_, _, by rw [List.append_assoc, List.append_assoc], by simp⟩
  · exact ⟨_, _, by rw [List.append_assoc], by simp⟩
  · exact ⟨_, _, by rw [List.append_assoc], by simp⟩

theorem stdAbs_first (u : Nat) : ∃ c t, stdAbs u = c :: t ∧ digit c = true ∧ t ≠ [] := by
  obtain ⟨w, r, e, hr⟩ := stdAbs_head u
  obtain ⟨c, t, e2, hc⟩ := decimal_cons w
  exact ⟨c, t ++ r, by rw [e, e2]; rfl, hc, by simp [hr]⟩

theorem digit_ne {c : Char} (h : digit c = true) : c ≠ '-' ∧ c ≠ '+' := by
  constructor
  · rintro rfl; revert h; decide
  · rintro rfl; revert h; decide

theorem parseAbs_stdAbs' (F : FracMul) (neg : Bool) (u : Nat) (h : u ≤ 2 ^ 63) (hn : neg = false → u < 2 ^ 63) :
    parseAbs F neg (stdAbs u) = .ok (if neg then -(BitVec.ofNat 64 u) else BitVec.ofNat 64 u) := by
  obtain ⟨c, t, e, hc, ht⟩ := stdAbs_first u
  unfold parseAbs
  rw [if_neg (by rw [e]; intro he; exact ht (List.cons.inj he).2), if_neg (by rw [e]; simp), chunks_stdAbs F u h]
  simp only
  cases neg with
  | true => rfl
  | false =>
    have := hn rfl
    rw [if_neg (by simp), if_neg (by omega)]; rfl

/-- The text of the Go library is read back, for every duration. -/
theorem parse_std (F : FracMul) (d : BitVec 64) : parseDuration F (std d) = .ok d := by
  have hlt := d.isLt
  unfold std
  by_cases h : d.slt 0
  · have hneg : d.toInt < 0 := by simpa [BitVec.slt] using h
    have hn : 2 ^ 63 ≤ d.toNat := by
      by_contra hc
      rw [BitVec.toInt_eq_toNat_of_lt (by omega)] at hneg
      omega
    rw [if_pos h]
    unfold parseDuration
    simp only
    rw [parseAbs_stdAbs' F true _ (by rw [BitVec.toNat_neg]; omega) (by simp)]
    simp only [if_true, BitVec.ofNat_toNat, BitVec.setWidth_eq, BitVec.neg_neg]
  · have hneg : ¬ d.toInt < 0 := by simpa [BitVec.slt] using h
    have hn : d.toNat < 2 ^ 63 := by
      by_contra hc
      rw [BitVec.toInt_eq_toNat_cond, if_neg (by omega)] at hneg
      omega
    rw [if_neg h]
    obtain ⟨c, t, e, hc, -⟩ := stdAbs_first d.toNat
    obtain ⟨h1, h2⟩ := digit_ne hc
    have : parseDuration F (stdAbs d.toNat) = parseAbs F false (stdAbs d.toNat) := by
      unfold parseDuration
      rw [e]
      split
      · rename_i he; exact absurd (List.cons.inj he).1 h1
      · rename_i he; exact absurd (List.cons.inj he).1 h2
      · rfl
    rw [this, parseAbs_stdAbs' F false _ (by omega) (fun _ => hn)]
    simp

/-- **C100** (partial: below one day).  `ParseDuration` reads back the text of every duration below one day, the negative
ones included, down to the smallest. -/
theorem C100_below_day_partial (F : FracMul) (d : BitVec 64) (h : d.toInt < 86400000000000) :
    parseDuration F (string d) = .ok d := by
  rw [(C67_days d).1 h, parse_std]

theorem chunk_unknown (F : FracMul) (w : Nat) (u r : List Char) (h1 : ∀ c ∈ u, unitChar c = true) (hu : u ≠ [])
    (h2 : ∀ c, r.head? = some c → unitChar c = false) (hm : unitMap u = none) (hw : w ≤ 2 ^ 63) :
    chunk F (decimal w ++ (u ++ r)) = .error (.unknown u) := by
  obtain ⟨c, t, e, hc⟩ := decimal_cons w
  obtain ⟨n1, n2⟩ := noDigit_unit u r h1 hu
  obtain ⟨d1, d2⟩ := decimal_digits w
  obtain ⟨t1, t2⟩ := takeWhile_unit u r h1 h2
  have hl := leadingInt_digits (u ++ r) n1 (decimal w) d1 0 (by rw [d2]; omega)
  rw [d2] at hl
  have hlen : (decimal w ++ (u ++ r)).length ≠ (u ++ r).length := by
    rw [List.length_append, e, List.length_cons]; omega
  unfold chunk
  split
  · rename_i heq; rw [e] at heq; simp at heq
  · rename_i c' s' heq
    have hc' : digit c' = true := by
      rw [e, List.cons_append] at heq
      simp only [List.cons.injEq] at heq
      rw [← heq.1]; exact hc
    rw [if_neg (by rw [hc']; simp), hl]
    simp only [decide_eq_true hlen]
    rw [if_neg (by simp), t1, if_neg hu, hm]

/-- **C100** (false from one day on).  The text of every duration of a day or more is refused: `unknown unit "d"`. -/
theorem C100_day_false (F : FracMul) (d : BitVec 64) (h : 86400000000000 ≤ d.toInt) :
    parseDuration F (string d) = .error (.unknown ['d']) := by
  obtain ⟨days, rest, hr, hd, e⟩ := (C67_days d).2 h
  have hmax := d.toInt_lt
  have hstd : std (BitVec.ofNat 64 rest) = stdAbs rest := by
    have e2 : (BitVec.ofNat 64 rest).toNat = rest := by rw [BitVec.toNat_ofNat]; omega
    unfold std
    rw [if_neg, e2]
    simp only [BitVec.slt, decide_eq_true_eq]
    rw [BitVec.toInt_eq_toNat_of_lt (by omega), e2]
    simp
  obtain ⟨w, r, er, -⟩ := stdAbs_head rest
  have hc := chunk_unknown F days ['d'] (stdAbs rest) (by decide) (by decide) (by rw [er]; exact head_decimal _ _) (by decide)
    (by omega)
  obtain ⟨c, t, ed, hcd⟩ := decimal_cons days
  obtain ⟨h1, h2⟩ := digit_ne hcd
  have e3 : string d = decimal days ++ (['d'] ++ stdAbs rest) := by rw [e, hstd, List.append_assoc]; rfl
  have e4 : decimal days ++ (['d'] ++ stdAbs rest) = c :: (t ++ (['d'] ++ stdAbs rest)) := by rw [ed]; rfl
  have e5 : parseDuration F (string d) = parseAbs F false (string d) := by
    unfold parseDuration
    rw [e3, e4]
    split
    · rename_i he; exact absurd (List.cons.inj he).1 h1
    · rename_i he; exact absurd (List.cons.inj he).1 h2
    · rfl
  rw [e5, e3, parseAbs, if_neg (by rw [e4]; simp), if_neg (by rw [e4]; simp)]
  rw [e4] at hc ⊢
  rw [List.length_cons, chunks, hc]

example : parseDuration FracMul.floor "-1h2m3.25s".toList = .ok (-3723250000000#64) := by decide +kernel
example : parseDuration FracMul.floor (string 90061500000000#64) = .error (.unknown ['d']) := by decide +kernel
example : parseDuration FracMul.floor (string 80061500000000#64) = .ok 80061500000000#64 := by decide +kernel
example : parseDuration FracMul.floor (string (BitVec.intMin 64)) = .ok (BitVec.intMin 64) := by decide +kernel

example : parseDuration FracMul.floor (string (-172800000000001#64)) = .ok (-172800000000001#64) :=
  C100_below_day_partial _ _ (by decide)

end Verif.Duration
