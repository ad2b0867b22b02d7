import Verif.Props.ParseDuration
/-!
# What `ParseDuration` reads (C105)
-/

set_option linter.unusedSectionVars false

namespace Verif.Duration

/-- One term of a duration: digits before the point, digits behind the point (`none`: no point), unit. -/
structure Spec.Term where
  int : List Char
  frac : Option (List Char)
  unit : String
deriving DecidableEq

namespace Spec.Term

/-- The units and their nanoseconds. -/
def units : List (String × Nat) :=
  [("ns", 1), ("us", 1000), ("µs", 1000), ("μs", 1000), ("ms", 1000000), ("s", 1000000000), ("m", 60000000000),
    ("h", 3600000000000)]

/-- The digits behind the point. -/
def fracDigits (t : Term) : List Char := t.frac.getD []

/-- How the number is written. -/
def number (t : Term) : List Char := t.int ++ (match t.frac with | none => [] | some ds => '.' :: ds)

/-- How the term is written. -/
def text (t : Term) : List Char := t.number ++ t.unit.toList

/-- Digits only, at least one. -/
structure IsNumber (t : Term) : Prop where
  int : ∀ c ∈ t.int, c ∈ "0123456789".toList
  frac : ∀ c ∈ t.fracDigits, c ∈ "0123456789".toList
  some : t.int ≠ [] ∨ t.fracDigits ≠ []

/-- A number of `n` units of `u` nanoseconds each, with a fraction of whole nanoseconds: the last digit stands for
`q` nanoseconds. -/
structure Means (t : Term) (n : Nat) : Prop where
  number : t.IsNumber
  unit : ∃ u q, (t.unit, u) ∈ units ∧ u = q * 10 ^ t.fracDigits.length ∧ n = Spec.dec t.int * u + Spec.dec t.fracDigits * q

end Spec.Term

open Spec (Term)

theorem leadingInt_over (r : List Char) : ∀ (ds : List Char), (∀ c ∈ ds, digit c = true) → ∀ x, x ≤ 2 ^ 63 →
    2 ^ 63 < decFrom x ds → leadingInt (ds ++ r) x = none := by
  intro ds
  induction ds with
  | nil => intro _ x hx h; exact absurd h (by show ¬ 2 ^ 63 < x; omega)
  | cons c ds ih =>
    intro hd x hx h
    rw [List.cons_append, leadingInt, if_pos (hd c List.mem_cons_self)]
    by_cases h1 : x > 2 ^ 63 / 10
    · rw [if_pos h1]
    · rw [if_neg h1]
      by_cases h2 : x * 10 + (c.toNat - 48) > 2 ^ 63
      · rw [if_pos h2]
      · rw [if_neg h2]
        exact ih (fun a ha => hd a (List.mem_cons_of_mem _ ha)) _ (by omega) h

theorem dec_lt (ds : List Char) (h : ∀ c ∈ ds, digit c = true) : Spec.dec ds < 10 ^ ds.length := by
  induction ds using List.reverseRecOn with
  | nil => decide
  | append_singleton l c ih =>
    have h1 := ih fun a ha => h a (List.mem_append_left _ ha)
    have h2 := h c (List.mem_append_right _ List.mem_cons_self)
    have h3 : c.toNat - 48 ≤ 9 := by
      unfold digit at h2
      simp only [Bool.and_eq_true, decide_eq_true_eq] at h2
      have : c.toNat ≤ '9'.toNat := h2.2
      have e : '9'.toNat = 57 := by decide
      omega
    rw [dec_snoc, List.length_append, List.length_singleton, Nat.pow_succ]
    omega

theorem unit_table {u : String} {n : Nat} (h : (u, n) ∈ Term.units) :
    unitMap u.toList = some n ∧ (∀ c ∈ u.toList, unitChar c = true) ∧ 0 < n ∧ n ≤ 3600000000000 := by
  simp only [Term.units, List.mem_cons, Prod.mk.injEq, List.not_mem_nil, or_false] at h
  rcases h with ⟨rfl, rfl⟩ | ⟨rfl, rfl⟩ | ⟨rfl, rfl⟩ | ⟨rfl, rfl⟩ | ⟨rfl, rfl⟩ | ⟨rfl, rfl⟩ | ⟨rfl, rfl⟩ | ⟨rfl, rfl⟩ <;>
    decide

theorem digit_mem {c : Char} (h : c ∈ "0123456789".toList) : digit c = true :=
  digit_of_isDigit (decide_eq_true h)

/-- What is left when the number has been read: the part of `chunk` behind the numbers. -/
def finish (F : FracMul) (v f scale : Nat) (s2 : List Char) : Except PErr (Nat × List Char) :=
  let u := s2.takeWhile unitChar
  let rest := s2.dropWhile unitChar
  if u = [] then .error .missing
  else
    match unitMap u with
    | none => .error (.unknown u)
    | some unit =>
      if v > 2 ^ 63 / unit then .error .invalid
      else
        let v := v * unit
        let v := if f > 0 then v + F.mul f unit scale else v
        if f > 0 ∧ v > 2 ^ 63 then .error .invalid else .ok (v, rest)

/-- Reading a number in front of something that is neither digit nor point. -/
theorem chunk_read (F : FracMul) (t : Term) (h : t.IsNumber) (r : List Char) (hr : NoDigit r) (hdot : ∀ x, r ≠ '.' :: x)
    (f sc : Nat) (hf : leadingFraction (t.fracDigits ++ r) 0 1 false = (f, sc, r)) :
    chunk F (t.number ++ r) = if 2 ^ 63 < Spec.dec t.int then .error .invalid else
      finish F (Spec.dec t.int) f sc r := by
  obtain ⟨int, fr, un⟩ := t
  have hi : ∀ c ∈ int, digit c = true := fun c hc => digit_mem (h.int c hc)
  have hfd : ∀ c ∈ Term.fracDigits ⟨int, fr, un⟩, digit c = true := fun c hc => digit_mem (h.frac c hc)
  have hsome := h.some
  simp only [Term.number, Term.fracDigits] at *
  -- the first character
  have hfirst : ∃ c s, int ++ (match fr with | none => [] | some ds => '.' :: ds) ++ r = c :: s ∧
      (c == '.' || digit c) = true := by
    cases int with
    | cons c s => exact ⟨c, _, rfl, by rw [hi c List.mem_cons_self]; simp⟩
    | nil =>
      cases fr with
      | none => simp at hsome
      | some ds => exact ⟨'.', _, rfl, rfl⟩
  obtain ⟨c, s, e, hc⟩ := hfirst
  -- what follows the digits
  have hnd : NoDigit ((match fr with | none => [] | some ds => '.' :: ds) ++ r) := by
    cases fr with
    | none => exact hr
    | some ds =>
      intro d hd
      simp only [List.cons_append, List.head?_cons, Option.some.injEq] at hd
      rw [← hd]; decide
  unfold chunk
  rw [e]
  simp only
  rw [if_neg (by rw [hc]; decide), ← e, List.append_assoc]
  by_cases hbig : 2 ^ 63 < Spec.dec int
  · rw [if_pos hbig, leadingInt_over _ int hi 0 (by decide) (by rw [decFrom_zero]; exact hbig)]
  · rw [if_neg hbig, leadingInt_digits _ hnd int hi 0 (by rw [decFrom_zero]; omega), decFrom_zero]
    simp only
    cases fr with
    | none =>
      have hne : int ≠ [] := by rcases hsome with h | h <;> simp_all
      have hlen : (int ++ ([] ++ r)).length ≠ ([] ++ r).length := by
        have := List.length_pos_iff.2 hne
        rw [List.length_append]; omega
      simp only [decide_eq_true hlen]
      rw [List.nil_append]
      unfold finish
      have hz : leadingFraction r 0 1 false = (0, 1, r) := leadingFraction_digits r hr [] (by simp) 0 1 (by decide)
      simp only [Option.getD_none, List.nil_append, hz, Prod.mk.injEq, and_true] at hf
      obtain ⟨rfl, rfl⟩ := hf
      split
      · rename_i x; exact absurd rfl (hdot x)
      · rw [if_neg (by simp)]; rfl
    | some ds =>
      simp only [Option.getD_some] at hf
      simp only [List.cons_append, hf]
      have hor : ¬ ((!decide ((int ++ '.' :: (ds ++ r)).length ≠ ('.' :: (ds ++ r)).length)) &&
          (!decide ((ds ++ r).length ≠ r.length))) = true := by
        simp only [Option.getD_some] at hsome
        rcases hsome with h | h
        · have := List.length_pos_iff.2 h
          have hl : (int ++ '.' :: (ds ++ r)).length ≠ ('.' :: (ds ++ r)).length := by
            rw [List.length_append]; omega
          rw [decide_eq_true hl]; simp
        · have := List.length_pos_iff.2 h
          have hl : (ds ++ r).length ≠ r.length := by
            rw [List.length_append]; omega
          rw [decide_eq_true hl]; simp
      rw [if_neg hor]
      rfl

theorem means_small {t : Term} {n : Nat} (h : t.Means n) : Spec.dec t.fracDigits < 2 ^ 63 := by
  obtain ⟨u, q, hu, e, -⟩ := h.unit
  obtain ⟨-, -, h0, h1⟩ := unit_table hu
  have hq : 0 < q := by rcases Nat.eq_zero_or_pos q with z | z; · rw [z] at e; omega
                        · exact z
  have := dec_lt _ fun c hc => digit_mem (h.number.frac c hc)
  have : 10 ^ t.fracDigits.length ≤ q * 10 ^ t.fracDigits.length := Nat.le_mul_of_pos_left _ hq
  omega

theorem small_fraction {t : Term} (h : t.IsNumber) (hf : Spec.dec t.fracDigits < 2 ^ 63) (r : List Char) (hr : NoDigit r) :
    leadingFraction (t.fracDigits ++ r) 0 1 false = (Spec.dec t.fracDigits, 10 ^ t.fracDigits.length, r) := by
  have hfr := leadingFraction_digits r hr t.fracDigits (fun c hc => digit_mem (h.frac c hc)) 0 1 (by rw [decFrom_zero]; exact hf)
  rwa [decFrom_zero, Nat.one_mul] at hfr

theorem IsNumber.first {t : Term} (h : t.IsNumber) (r : List Char) :
    ∃ c s, t.number ++ r = c :: s ∧ unitChar c = false ∧ c ≠ '-' ∧ c ≠ '+' := by
  obtain ⟨int, fr, un⟩ := t
  cases int with
  | cons c s =>
    have hd := digit_mem (h.int c List.mem_cons_self)
    exact ⟨c, _, rfl, by simp [unitChar, hd], digit_ne hd⟩
  | nil =>
    cases fr with
    | none => have := h.some; simp [Term.fracDigits] at this
    | some ds => exact ⟨'.', _, rfl, by decide, by decide, by decide⟩

theorem text_length {t : Term} (h : t.IsNumber) {u : Nat} (hu : (t.unit, u) ∈ Term.units) : 2 ≤ t.text.length := by
  obtain ⟨hm, -⟩ := unit_table hu
  obtain ⟨c, s, e, -⟩ := IsNumber.first h []
  rw [List.append_nil] at e
  rw [Term.text, e]
  cases hl : t.unit.toList with
  | nil => rw [hl] at hm; simp [unitMap] at hm
  | cons a b => simp; omega

/-- The term is read as `n` nanoseconds, whatever follows; an error when that is above 2^63. -/
structure Reads (F : FracMul) (t : Term) (n : Nat) : Prop where
  number : t.IsNumber
  length : 2 ≤ t.text.length
  chunk : ∀ r, (∀ c, r.head? = some c → unitChar c = false) →
    chunk F (t.text ++ r) = if n ≤ 2 ^ 63 then .ok (n, r) else .error .invalid

/-- One term with a known unit. -/
theorem chunk_unit (F : FracMul) (t : Term) (h : t.IsNumber) (u : Nat) (hu : (t.unit, u) ∈ Term.units) (f sc : Nat)
    (hf : ∀ r, NoDigit r → leadingFraction (t.fracDigits ++ r) 0 1 false = (f, sc, r)) :
    Reads F t (Spec.dec t.int * u + if f > 0 then F.mul f u sc else 0) := by
  refine ⟨h, text_length h hu, ?_⟩
  intro r hr
  obtain ⟨hm, hc, h0, h1⟩ := unit_table hu
  have hut : UnitThen t.unit.toList r u := ⟨hc, hm, hr⟩
  obtain ⟨n1, n2⟩ := noDigit_unit _ r hc hut.ne_nil
  obtain ⟨t1, t2⟩ := takeWhile_unit _ r hc hr
  have hiu : Spec.dec t.int ≤ Spec.dec t.int * u := Nat.le_mul_of_pos_right _ h0
  rw [Term.text, List.append_assoc, chunk_read F t h _ n1 n2 f sc (hf _ n1)]
  unfold finish
  rw [t1, t2]
  simp only
  rw [if_neg hut.ne_nil, hm]
  simp only
  by_cases hle : Spec.dec t.int * u + (if f > 0 then F.mul f u sc else 0) ≤ 2 ^ 63
  · have hov : ¬ Spec.dec t.int > 2 ^ 63 / u := by
      rw [Nat.not_lt]
      exact (Nat.le_div_iff_mul_le h0).2 (by omega)
    rw [if_pos hle, if_neg (by omega), if_neg hov]
    by_cases hf : f > 0
    · rw [if_pos hf, if_pos hf] at *
      rw [if_neg (by omega)]
    · rw [if_neg hf, if_neg hf, if_neg (by omega), Nat.add_zero]
  · rw [if_neg hle]
    by_cases hbig : 2 ^ 63 < Spec.dec t.int
    · rw [if_pos hbig]
    · rw [if_neg hbig]
      by_cases hov : Spec.dec t.int > 2 ^ 63 / u
      · rw [if_pos hov]
      · rw [if_neg hov]
        have hle2 : Spec.dec t.int * u ≤ 2 ^ 63 := (Nat.le_div_iff_mul_le h0).1 (by omega)
        have hf : f > 0 := by
          by_contra hf
          rw [if_neg hf] at hle; omega
        rw [if_pos hf] at hle ⊢
        rw [if_pos ⟨hf, by omega⟩]

/-- One term: its value, or an error when it is above 2^63 nanoseconds. -/
theorem chunk_term (F : FracMul) (t : Term) (n : Nat) (h : t.Means n) : Reads F t n := by
  have hsmall := means_small h
  obtain ⟨u, q, hu, e, en⟩ := h.unit
  obtain ⟨hm, hc, h0, h1⟩ := unit_table hu
  have hq : 0 < q := by rcases Nat.eq_zero_or_pos q with z | z; · rw [z] at e; omega
                        · exact z
  have hlt := dec_lt _ fun c hc => digit_mem (h.number.frac c hc)
  have hfq : Spec.dec t.fracDigits * q < u := by
    rw [e, Nat.mul_comm q]; exact Nat.mul_lt_mul_of_pos_right hlt hq
  have hp : 10 ^ t.fracDigits.length ≤ u := by rw [e]; exact Nat.le_mul_of_pos_left _ hq
  have hmul : F.mul (Spec.dec t.fracDigits) u (10 ^ t.fracDigits.length) = Spec.dec t.fracDigits * q := by
    rw [e]
    exact F.exact _ _ _ (by omega) (by omega) (by omega)
  have := chunk_unit F t h.number u hu _ _ (small_fraction h.number hsmall)
  rw [hmul] at this
  rw [en]
  by_cases hf : Spec.dec t.fracDigits > 0
  · rwa [if_pos hf] at this
  · have hz : Spec.dec t.fracDigits = 0 := by omega
    rw [if_neg hf] at this
    rwa [hz, Nat.zero_mul]

/-- The texts of the terms one after the other. -/
def Spec.texts (ts : List (Term × Nat)) : List Char := ts.flatMap fun p => p.1.text

/-- Together. -/
def Spec.total (ts : List (Term × Nat)) : Nat := (ts.map fun p => p.2).sum

theorem texts_first (ts : List (Term × Nat)) (h : ∀ p ∈ ts, p.1.IsNumber) (r : List Char)
    (hr : ∀ c, r.head? = some c → unitChar c = false) :
    ∀ c, (Spec.texts ts ++ r).head? = some c → unitChar c = false := by
  cases ts with
  | nil => exact hr
  | cons p ts =>
    intro c hc
    obtain ⟨c', s, e, hu, -⟩ := IsNumber.first (h p List.mem_cons_self) (p.1.unit.toList ++ (Spec.texts ts ++ r))
    have e2 : Spec.texts (p :: ts) ++ r = p.1.number ++ (p.1.unit.toList ++ (Spec.texts ts ++ r)) := by
      simp [Spec.texts, Term.text]
    rw [e2, e, List.head?_cons, Option.some.injEq] at hc
    rw [← hc]; exact hu

/-- The terms, and then something else. -/
theorem chunks_terms (F : FracMul) : ∀ (ts : List (Term × Nat)), (∀ p ∈ ts, Reads F p.1 p.2) → ∀ (r : List Char),
    (∀ c, r.head? = some c → unitChar c = false) → ∀ d k, d ≤ 2 ^ 63 →
    chunks F ((Spec.texts ts).length + k) (Spec.texts ts ++ r) d =
      if d + Spec.total ts ≤ 2 ^ 63 then
        chunks F ((Spec.texts ts).length + k - ts.length) r (d + Spec.total ts) else .error .invalid := by
  intro ts
  induction ts with
  | nil => intro _ r _ d k hd; rw [if_pos (by simpa [Spec.total] using hd)]; simp [Spec.texts, Spec.total]
  | cons p ts ih =>
    intro h r hr d k hd
    have hp := h p List.mem_cons_self
    have hts : ∀ q ∈ ts, Reads F q.1 q.2 := fun q hq => h q (List.mem_cons_of_mem _ hq)
    have e1 : Spec.texts (p :: ts) ++ r = p.1.text ++ (Spec.texts ts ++ r) := by simp [Spec.texts]
    have e2 : Spec.total (p :: ts) = p.2 + Spec.total ts := by simp [Spec.total]
    have e3 : (Spec.texts (p :: ts)).length = p.1.text.length + (Spec.texts ts).length := by simp [Spec.texts]
    have hl := hp.length
    have hc := hp.chunk (Spec.texts ts ++ r) (texts_first ts (fun q hq => (hts q hq).number) r hr)
    obtain ⟨c, s, ec, -⟩ := IsNumber.first hp.number (p.1.unit.toList ++ (Spec.texts ts ++ r))
    have ec : p.1.text ++ (Spec.texts ts ++ r) = c :: s := by rw [Term.text, List.append_assoc, ec]
    rw [e1, e2, e3, show p.1.text.length + (Spec.texts ts).length + k =
      (Spec.texts ts).length + (k + p.1.text.length - 1) + 1 by omega]
    rw [ec] at hc ⊢
    rw [chunks, hc]
    by_cases h1 : p.2 ≤ 2 ^ 63
    · rw [if_pos h1]
      simp only
      by_cases h2 : d + p.2 > 2 ^ 63
      · rw [if_pos h2, if_neg (by omega)]
      · rw [if_neg h2, ih hts r hr (d + p.2) _ (by omega), List.length_cons]
        by_cases h3 : d + p.2 + Spec.total ts ≤ 2 ^ 63
        · rw [if_pos h3, if_pos (by omega), ← Nat.add_assoc]
          congr 1
          omega
        · rw [if_neg h3, if_neg (by omega)]
    · rw [if_neg h1]
      simp only
      rw [if_neg (by omega)]

/-- The sign of a duration: the text and whether it is negative. -/
inductive Spec.Sign | none | plus | minus

/-- How the sign is written. -/
def Spec.Sign.text : Spec.Sign → List Char
  | .none => []
  | .plus => ['+']
  | .minus => ['-']

/-- The terms behind an optional sign. -/
theorem parse_terms (F : FracMul) (sg : Spec.Sign) (ts : List (Term × Nat)) (hne : ts ≠ [])
    (h : ∀ p ∈ ts, Reads F p.1 p.2) :
    let v : Int := match sg with | .minus => -(Spec.total ts : Int) | _ => Spec.total ts
    parseDuration F (sg.text ++ Spec.texts ts) =
      if -2 ^ 63 ≤ v ∧ v < 2 ^ 63 then .ok (BitVec.ofInt 64 v) else .error .invalid := by
  have hc := chunks_terms F ts h [] (by simp) 0 0 (by decide)
  simp only [List.append_nil, Nat.add_zero, Nat.zero_add] at hc
  have hfirst : ∃ c s, Spec.texts ts = c :: s ∧ c ≠ '-' ∧ c ≠ '+' ∧ 2 ≤ (Spec.texts ts).length := by
    cases ts with
    | nil => exact absurd rfl hne
    | cons p ts =>
      have hp := h p List.mem_cons_self
      obtain ⟨c, s, e, -, h1, h2⟩ := IsNumber.first hp.number (p.1.unit.toList ++ Spec.texts ts)
      have e2 : Spec.texts (p :: ts) = c :: s := by rw [← e]; simp [Spec.texts, Term.text]
      refine ⟨c, s, e2, h1, h2, ?_⟩
      have := hp.length
      simp only [Spec.texts, List.flatMap_cons, List.length_append]
      omega
  obtain ⟨c, s, e, c1, c2, hlen⟩ := hfirst
  have habs : ∀ neg, parseAbs F neg (Spec.texts ts) =
      if Spec.total ts ≤ 2 ^ 63 then
        (if neg then .ok (-(BitVec.ofNat 64 (Spec.total ts)))
          else if Spec.total ts > 2 ^ 63 - 1 then .error .invalid else .ok (BitVec.ofNat 64 (Spec.total ts)))
      else .error .invalid := by
    intro neg
    unfold parseAbs
    rw [if_neg (by intro hx; rw [hx] at hlen; simp at hlen), if_neg (by rw [e]; simp), hc]
    by_cases ht : Spec.total ts ≤ 2 ^ 63
    · rw [if_pos ht, if_pos ht, chunks_nil]
    · rw [if_neg ht, if_neg ht]
  have hpos : ∀ x : Nat, (BitVec.ofInt 64 (x : Int)) = BitVec.ofNat 64 x := fun x => BitVec.ofInt_natCast ..
  have hplus : parseAbs F false (Spec.texts ts) =
      if -2 ^ 63 ≤ (Spec.total ts : Int) ∧ (Spec.total ts : Int) < 2 ^ 63 then
        .ok (BitVec.ofInt 64 (Spec.total ts)) else .error .invalid := by
    rw [habs, hpos]
    by_cases ht : Spec.total ts ≤ 2 ^ 63
    · rw [if_pos ht, if_neg (by decide)]
      by_cases h2 : Spec.total ts > 2 ^ 63 - 1
      · rw [if_pos h2, if_neg (by omega)]
      · rw [if_neg h2, if_pos (by omega)]
    · rw [if_neg ht, if_neg (by omega)]
  cases sg with
  | none =>
    simp only [Spec.Sign.text, List.nil_append]
    rw [← hplus]
    unfold parseDuration
    rw [e]
    split
    · rename_i he; exact absurd (List.cons.inj he).1 c1
    · rename_i he; exact absurd (List.cons.inj he).1 c2
    · rfl
  | plus =>
    simp only [Spec.Sign.text]
    rw [← hplus]
    rfl
  | minus =>
    simp only [Spec.Sign.text]
    show parseAbs F true (Spec.texts ts) = _
    rw [habs]
    by_cases ht : Spec.total ts ≤ 2 ^ 63
    · rw [if_pos ht, if_pos rfl, if_pos (by omega), BitVec.ofInt_neg, hpos]
    · rw [if_neg ht, if_neg (by omega)]

/-- **C105** `ParseDuration` of one or more terms behind an optional sign is the signed sum of their values when it fits
into 64 bits, and an error otherwise. -/
theorem C105_terms (F : FracMul) (sg : Spec.Sign) (ts : List (Term × Nat)) (hne : ts ≠ [])
    (h : ∀ p ∈ ts, p.1.Means p.2) :
    let v : Int := match sg with | .minus => -(Spec.total ts : Int) | _ => Spec.total ts
    parseDuration F (sg.text ++ Spec.texts ts) =
      if -2 ^ 63 ≤ v ∧ v < 2 ^ 63 then .ok (BitVec.ofInt 64 v) else .error .invalid := by
  exact parse_terms F sg ts hne fun p hp => chunk_term F p.1 p.2 (h p hp)

theorem unitMap_known {u : String} {n : Nat} (h : unitMap u.toList = some n) : (u, n) ∈ Term.units := by
  have key : ∀ v : String, u.toList = v.toList → u = v := fun v h => String.toList_inj.1 h
  unfold unitMap at h
  split_ifs at h with h1 h2 h3 h4 h5 h6 h7 h8 <;> cases h
  · rw [key "ns" h1]; decide
  · rw [key "us" h2]; decide
  · rw [key "µs" h3]; decide
  · rw [key "μs" h4]; decide
  · rw [key "ms" h5]; decide
  · rw [key "s" h6]; decide
  · rw [key "m" h7]; decide
  · rw [key "h" h8]; decide

theorem texts_length {F : FracMul} (ts : List (Term × Nat)) (h : ∀ p ∈ ts, Reads F p.1 p.2) : 2 * ts.length ≤ (Spec.texts ts).length := by
  induction ts with
  | nil => exact Nat.le_refl _
  | cons p ts ih =>
    have h1 := (h p List.mem_cons_self).length
    have h2 := ih fun q hq => h q (List.mem_cons_of_mem _ hq)
    have e : (Spec.texts (p :: ts)).length = p.1.text.length + (Spec.texts ts).length := by simp [Spec.texts]
    rw [e, List.length_cons]; omega

/-- The parser behind an optional sign. -/
theorem parse_first (F : FracMul) (s : List Char) (sg : Spec.Sign) (h1 : ∀ t, s ≠ '-' :: t) (h2 : ∀ t, s ≠ '+' :: t) :
    ∃ neg, parseDuration F (sg.text ++ s) = parseAbs F neg s := by
  cases sg with
  | none =>
    refine ⟨false, ?_⟩
    simp only [Spec.Sign.text, List.nil_append]
    unfold parseDuration
    split
    · exact absurd rfl (h1 _)
    · exact absurd rfl (h2 _)
    · rfl
  | plus => exact ⟨false, rfl⟩
  | minus => exact ⟨true, rfl⟩

/-- **C105** A number without a unit, or with a unit that does not exist, is an error that says so, wherever it stands:
behind any terms that are in range and in front of anything.  (The number zero alone is the one exception.) -/
theorem C105_bad_unit (F : FracMul) (sg : Spec.Sign) (ts : List (Term × Nat)) (h : ∀ p ∈ ts, p.1.Means p.2)
    (ht : Spec.total ts ≤ 2 ^ 63) (t : Term) (hn : t.IsNumber) (hi : Spec.dec t.int ≤ 2 ^ 63)
    (hf : Spec.dec t.fracDigits < 2 ^ 63) (hu : ∀ c ∈ t.unit.toList, c ≠ '.' ∧ c ∉ "0123456789".toList)
    (hx : ∀ n, (t.unit, n) ∉ Term.units) (rest : List Char)
    (hr : ∀ c, rest.head? = some c → t.unit ≠ "" ∧ (c = '.' ∨ c ∈ "0123456789".toList))
    (h0 : ts ≠ [] ∨ t.text ≠ ['0']) :
    parseDuration F (sg.text ++ (Spec.texts ts ++ (t.text ++ rest))) =
      .error (if t.unit = "" then .missing else .unknown t.unit.toList) := by
  have huc : ∀ c ∈ t.unit.toList, unitChar c = true := by
    intro c hc
    obtain ⟨a, b⟩ := hu c hc
    have : digit c = false := by
      by_contra hd
      refine b ?_
      have hd : digit c = true := by simpa using hd
      simp only [digit, Bool.and_eq_true, decide_eq_true_eq] at hd
      have h1 : '0'.toNat ≤ c.toNat := hd.1
      have h2 : c.toNat ≤ '9'.toNat := hd.2
      rw [show '0'.toNat = 48 by decide] at h1
      rw [show '9'.toNat = 57 by decide] at h2
      have hcc : c = Char.ofNat c.toNat := (Char.ofNat_toNat c).symm
      generalize c.toNat = k at h1 h2 hcc
      rw [hcc]
      have : k = 48 ∨ k = 49 ∨ k = 50 ∨ k = 51 ∨ k = 52 ∨ k = 53 ∨ k = 54 ∨ k = 55 ∨ k = 56 ∨ k = 57 := by omega
      rcases this with e | e | e | e | e | e | e | e | e | e <;> rw [e] <;> decide
    simp [unitChar, this, a]
  have hnone : unitMap t.unit.toList = none := by
    cases e : unitMap t.unit.toList with
    | none => rfl
    | some n => exact absurd (unitMap_known e) (hx n)
  have hrest : ∀ c, rest.head? = some c → unitChar c = false := by
    intro c hc
    rcases (hr c hc).2 with rfl | hd
    · decide
    · simp [unitChar, digit_mem hd]
  -- the chunk that fails
  have hch : chunk F (t.text ++ rest) = .error (if t.unit = "" then .missing else .unknown t.unit.toList) := by
    have hnd : NoDigit (t.unit.toList ++ rest) ∧ ∀ x, t.unit.toList ++ rest ≠ '.' :: x := by
      by_cases hu0 : t.unit = ""
      · cases rest with
        | nil => rw [hu0]; exact ⟨by simp [NoDigit], by simp⟩
        | cons c r => exact absurd hu0 (hr c rfl).1
      · exact noDigit_unit _ _ huc fun hz => hu0 (String.toList_inj.1 hz)
    rw [Term.text, List.append_assoc, chunk_read F t hn _ hnd.1 hnd.2 _ _ (small_fraction hn hf _ hnd.1), if_neg (by omega)]
    obtain ⟨t1, t2⟩ := takeWhile_unit _ rest huc hrest
    unfold finish
    rw [t1, t2]
    simp only
    by_cases hu0 : t.unit = ""
    · rw [if_pos (by rw [hu0]; rfl), if_pos hu0]
    · have hne : t.unit.toList ≠ [] := fun hz => hu0 (String.toList_inj.1 hz)
      rw [if_neg hne, if_neg hu0, hnone]
  obtain ⟨c, s, e, hcu, c1, c2⟩ := IsNumber.first hn (t.unit.toList ++ rest)
  have e : t.text ++ rest = c :: s := by rw [Term.text, List.append_assoc, e]
  have hhead : ∀ x, (t.text ++ rest).head? = some x → unitChar x = false := by
    intro x hx
    rw [e, List.head?_cons, Option.some.injEq] at hx
    rw [← hx]; exact hcu
  have hrd : ∀ p ∈ ts, Reads F p.1 p.2 := fun p hp => chunk_term F p.1 p.2 (h p hp)
  have hlen := texts_length ts hrd
  have hc := chunks_terms F ts hrd (t.text ++ rest) hhead 0 (t.text ++ rest).length (by decide)
  rw [Nat.zero_add, if_pos ht, ← List.length_append] at hc
  have hfuel : ∃ k, (Spec.texts ts ++ (t.text ++ rest)).length - ts.length = k + 1 := by
    refine ⟨(Spec.texts ts ++ (t.text ++ rest)).length - ts.length - 1, ?_⟩
    rw [List.length_append, e, List.length_cons]; omega
  obtain ⟨k, hk⟩ := hfuel
  rw [hk] at hc
  have hstop : chunks F (k + 1) (t.text ++ rest) (Spec.total ts) =
      .error (if t.unit = "" then .missing else .unknown t.unit.toList) := by
    rw [e] at hch ⊢
    rw [chunks, hch]
  rw [hstop] at hc
  have hfirst : ∃ c s, Spec.texts ts ++ (t.text ++ rest) = c :: s ∧ c ≠ '-' ∧ c ≠ '+' := by
    cases ts with
    | nil => exact ⟨c, s, e, c1, c2⟩
    | cons p ts =>
      obtain ⟨c, s, e, -, h1, h2⟩ := IsNumber.first (h p List.mem_cons_self).number
        (p.1.unit.toList ++ (Spec.texts ts ++ (t.text ++ rest)))
      exact ⟨c, s, by rw [← e]; simp [Spec.texts, Term.text], h1, h2⟩
  obtain ⟨c', s', e', d1, d2⟩ := hfirst
  obtain ⟨neg, hpf⟩ := parse_first F (Spec.texts ts ++ (t.text ++ rest)) sg
    (by rw [e']; intro x hx; exact d1 (List.cons.inj hx).1) (by rw [e']; intro x hx; exact d2 (List.cons.inj hx).1)
  rw [hpf]
  have hz : Spec.texts ts ++ (t.text ++ rest) ≠ ['0'] := by
    intro hz
    rcases h0 with h0 | h0
    · have h1 := congrArg List.length hz
      rw [List.length_append, List.length_singleton] at h1
      have := List.length_pos_iff.2 h0
      omega
    · have hts : ts = [] := by
        by_contra hts
        have h1 := congrArg List.length hz
        rw [List.length_append, List.length_singleton] at h1
        have := List.length_pos_iff.2 hts
        omega
      subst hts
      have hz : t.text ++ rest = ['0'] := hz
      have htx : t.text ≠ [] := by
        obtain ⟨a, b, eab, -⟩ := IsNumber.first hn t.unit.toList
        rw [Term.text, eab]; simp
      cases htt : t.text with
      | nil => exact htx htt
      | cons a b =>
        rw [htt, List.cons_append, List.cons.injEq] at hz
        have hb : b = [] := (List.append_eq_nil_iff.1 hz.2).1
        rw [hz.1, hb] at htt
        exact h0 htt
  unfold parseAbs
  rw [if_neg hz, if_neg (by rw [e']; simp), hc]

/-- **C105** The number zero alone needs no unit, with any sign. -/
theorem C105_zero (F : FracMul) (sg : Spec.Sign) : parseDuration F (sg.text ++ ['0']) = .ok 0#64 := by
  cases sg <;> simp [Spec.Sign.text, parseDuration, parseAbs]

/-- **C105** A text without a number where one is due is refused: nothing behind the sign, a first character that is neither a
digit nor the point (nor, without a sign, a sign), or a point with no digit around it. -/
theorem C105_no_number (F : FracMul) (sg : Spec.Sign) (s : List Char)
    (h : s = [] ∨ (∃ c r, s = c :: r ∧ c ≠ '.' ∧ c ∉ "0123456789".toList ∧ (sg = .none → c ≠ '-' ∧ c ≠ '+')) ∨
      (∃ r, s = '.' :: r ∧ ∀ c, r.head? = some c → c ∉ "0123456789".toList)) :
    parseDuration F (sg.text ++ s) = .error .invalid := by
  have notDigit : ∀ c : Char, c ∉ "0123456789".toList → digit c = false := by
    intro c b
    by_contra hd
    refine b ?_
    have hd : digit c = true := by simpa using hd
    simp only [digit, Bool.and_eq_true, decide_eq_true_eq] at hd
    have h1 : '0'.toNat ≤ c.toNat := hd.1
    have h2 : c.toNat ≤ '9'.toNat := hd.2
    rw [show '0'.toNat = 48 by decide] at h1
    rw [show '9'.toNat = 57 by decide] at h2
    have hcc : c = Char.ofNat c.toNat := (Char.ofNat_toNat c).symm
    generalize c.toNat = k at h1 h2 hcc
    rw [hcc]
    have : k = 48 ∨ k = 49 ∨ k = 50 ∨ k = 51 ∨ k = 52 ∨ k = 53 ∨ k = 54 ∨ k = 55 ∨ k = 56 ∨ k = 57 := by omega
    rcases this with e | e | e | e | e | e | e | e | e | e <;> rw [e] <;> decide
  have habs : ∀ neg, parseAbs F neg s = .error .invalid := by
    intro neg
    rcases h with rfl | ⟨c, r, rfl, h1, h2, -⟩ | ⟨r, rfl, h1⟩
    · simp [parseAbs]
    · have hd := notDigit c h2
      have h0 : c ≠ '0' := by rintro rfl; exact h2 (by decide)
      rw [parseAbs, if_neg (by simp [h0]), if_neg (by simp), List.length_cons, chunks, chunk,
        if_pos (by simp [h1, hd])]
    · have hl : leadingInt ('.' :: r) 0 = some (0, '.' :: r) := leadingInt_stop (by simp [NoDigit]; decide) 0
      have hf : leadingFraction r 0 1 false = (0, 1, r) := by
        cases r with
        | nil => rfl
        | cons c r =>
          rw [leadingFraction, if_neg (by rw [notDigit c (h1 c rfl)]; decide)]
      rw [parseAbs, if_neg (by simp), if_neg (by simp), List.length_cons, chunks, chunk, if_neg (by decide), hl]
      simp [hf]
  cases sg with
  | minus => exact habs true
  | plus => exact habs false
  | none =>
    simp only [Spec.Sign.text, List.nil_append]
    have := habs false
    rcases h with rfl | ⟨c, r, rfl, h1, h2, h3⟩ | ⟨r, rfl, h1⟩
    · exact this
    · obtain ⟨h4, h5⟩ := h3 rfl
      unfold parseDuration
      split
      · rename_i e; exact absurd (List.cons.inj e).1 h4
      · rename_i e; exact absurd (List.cons.inj e).1 h5
      · exact this
    · exact this

example : parseDuration FracMul.floor "-.h".toList = .error .invalid :=
  C105_no_number _ .minus ".h".toList (.inr (.inr ⟨['h'], rfl, by simp⟩))

/-- The hypotheses of `C105_terms` are met by `-1h.5m3.25s`. -/
example : parseDuration FracMul.floor "-1h.5m3.25s".toList = .ok (BitVec.ofInt 64 (-3633250000000)) :=
  C105_terms FracMul.floor .minus
    [(⟨['1'], none, "h"⟩, 3600000000000), (⟨[], some ['5'], "m"⟩, 30000000000), (⟨['3'], some ['2', '5'], "s"⟩, 3250000000)]
    (by decide) (by
      intro p hp
      simp only [List.mem_cons, List.not_mem_nil, or_false] at hp
      rcases hp with rfl | rfl | rfl
      · exact ⟨⟨by decide, by decide, by decide⟩, 3600000000000, 3600000000000, by decide, by decide, by decide⟩
      · exact ⟨⟨by decide, by decide, by decide⟩, 60000000000, 6000000000, by decide, by decide, by decide⟩
      · exact ⟨⟨by decide, by decide, by decide⟩, 1000000000, 10000000, by decide, by decide, by decide⟩)

/-- The hypotheses of `C105_bad_unit` are met by `1h3x5s` and `1h7`. -/
example : parseDuration FracMul.floor "1h3x5s".toList = .error (.unknown ['x']) :=
  C105_bad_unit FracMul.floor .none [(⟨['1'], none, "h"⟩, 3600000000000)] (by
      intro p hp
      simp only [List.mem_cons, List.not_mem_nil, or_false] at hp
      subst hp
      exact ⟨⟨by decide, by decide, by decide⟩, 3600000000000, 3600000000000, by decide, by decide, by decide⟩)
    (by decide) ⟨['3'], none, "x"⟩ ⟨by decide, by decide, by decide⟩ (by decide) (by decide) (by decide)
    (by intro n; simp [Term.units]) ['5', 's'] (by decide) (.inl (by decide))

example : parseDuration FracMul.floor "1h7".toList = .error .missing := by decide +kernel

theorem leadingFraction_skip (r : List Char) (hr : NoDigit r) (x scale : Nat) : ∀ ds : List Char,
    (∀ c ∈ ds, digit c = true) → leadingFraction (ds ++ r) x scale true = (x, scale, r) := by
  intro ds
  induction ds with
  | nil =>
    intro _
    cases r with
    | nil => rfl
    | cons c s => rw [List.nil_append, leadingFraction, if_neg (by rw [hr c rfl]; decide)]
  | cons c ds ih =>
    intro hd
    rw [List.cons_append, leadingFraction, if_pos (hd c List.mem_cons_self), if_pos rfl]
    exact ih fun a ha => hd a (List.mem_cons_of_mem _ ha)

theorem leadingFraction_long : ∀ (ds : List Char), (∀ c ∈ ds, digit c = true) →
    ∀ x scale, x ≤ 2 ^ 63 → ∃ k ≤ ds.length,
    (∀ r, NoDigit r → leadingFraction (ds ++ r) x scale false = (decFrom x (ds.take k), scale * 10 ^ k, r)) ∧
      decFrom x (ds.take k) ≤ 2 ^ 63 ∧ (k < ds.length → 2 ^ 63 < decFrom x (ds.take (k + 1))) := by
  intro ds
  induction ds with
  | nil =>
    intro _ x scale hx
    refine ⟨0, Nat.le_refl _, ?_, hx, fun h => absurd h (Nat.lt_irrefl _)⟩
    intro r hr
    cases r with
    | nil => simp [leadingFraction, decFrom]
    | cons c s => rw [List.nil_append, leadingFraction, if_neg (by rw [hr c rfl]; decide)]; simp [decFrom]
  | cons c ds ih =>
    intro hd x scale hx
    have hds : ∀ a ∈ ds, digit a = true := fun a ha => hd a (List.mem_cons_of_mem _ ha)
    have h1 : decFrom x ((c :: ds).take 1) = x * 10 + (c.toNat - 48) := rfl
    have stop : 2 ^ 63 < x * 10 + (c.toNat - 48) →
        (∀ r, NoDigit r → leadingFraction (c :: ds ++ r) x scale false = (x, scale, r)) →
        ∃ k ≤ (c :: ds).length, (∀ r, NoDigit r → leadingFraction (c :: ds ++ r) x scale false =
          (decFrom x ((c :: ds).take k), scale * 10 ^ k, r)) ∧ decFrom x ((c :: ds).take k) ≤ 2 ^ 63 ∧
          (k < (c :: ds).length → 2 ^ 63 < decFrom x ((c :: ds).take (k + 1))) := by
      intro h e
      refine ⟨0, Nat.zero_le _, ?_, hx, fun _ => by rw [h1]; exact h⟩
      intro r hr
      rw [e r hr]; simp [decFrom]
    have e0 : ∀ r, leadingFraction (c :: ds ++ r) x scale false =
        if x > (2 ^ 63 - 1) / 10 then leadingFraction (ds ++ r) x scale true
        else if x * 10 + (c.toNat - 48) > 2 ^ 63 then leadingFraction (ds ++ r) x scale true
        else leadingFraction (ds ++ r) (x * 10 + (c.toNat - 48)) (scale * 10) false := by
      intro r
      rw [List.cons_append, leadingFraction, if_pos (hd c List.mem_cons_self), if_neg (by decide)]
    by_cases h2 : x > (2 ^ 63 - 1) / 10
    · exact stop (by omega) fun r hr => by rw [e0, if_pos h2, leadingFraction_skip r hr x scale ds hds]
    · by_cases h3 : x * 10 + (c.toNat - 48) > 2 ^ 63
      · exact stop h3 fun r hr => by rw [e0, if_neg h2, if_pos h3, leadingFraction_skip r hr x scale ds hds]
      · obtain ⟨k, hk, e, h4, h5⟩ := ih hds (x * 10 + (c.toNat - 48)) (scale * 10) (by omega)
        refine ⟨k + 1, by simpa using hk, ?_, h4, fun h => h5 (by simpa using h)⟩
        intro r hr
        rw [e0, if_neg h2, if_neg h3, e r hr, Nat.pow_succ, Nat.mul_comm (10 ^ k) 10, ← Nat.mul_assoc]
        rfl

/-- **C105** Digits behind the point that do not fit are ignored: exactly the longest prefix of the digits whose value is at
most 2^63 is read, and the power of ten is the one of that prefix, so that the number read is the written one rounded down to
as many digits. -/
theorem C105_long_fraction (ds : List Char) (hd : ∀ c ∈ ds, c ∈ "0123456789".toList) :
    ∃ k ≤ ds.length, (∀ r : List Char, (∀ c, r.head? = some c → digit c = false) →
      leadingFraction (ds ++ r) 0 1 false = (Spec.dec (ds.take k), 10 ^ k, r)) ∧
      Spec.dec (ds.take k) ≤ 2 ^ 63 ∧ (k < ds.length → 2 ^ 63 < Spec.dec (ds.take (k + 1))) := by
  have := leadingFraction_long ds (fun c hc => digit_mem (hd c hc)) 0 1 (by decide)
  simpa only [decFrom_zero, Nat.one_mul, NoDigit] using this

example : leadingFraction "92233720368547758079s".toList 0 1 false = (9223372036854775807, 10 ^ 19, ['s']) := by
  decide +kernel

end Verif.Duration
