import Verif.Props.Rand

/-!
# Properties C98 and C99: seeds of new generators, and the low bits
-/

set_option linter.unusedSectionVars false

namespace Verif.Rand

variable {w : Nat}

/-! ## C98: new generators -/

/-- **C98** The seed tells apart everything the sum of its ingredients tells apart; with the same clock readings,
different arguments give different seeds. -/
theorem C98_seed (t u i t' u' i' : BitVec 64) :
    (randSeed t u i = randSeed t' u' i' ↔ t + u + i = t' + u' + i') ∧
    (randSeed t u i = randSeed t u i' ↔ i = i') := by
  have h : ∀ x y : BitVec 64, x * 4294967291#64 + 8615693#64 = y * 4294967291#64 + 8615693#64 ↔ x = y := fun x y =>
    ⟨fun h => next_injective 4294967291#64 8615693#64 (by decide) h, fun h => by rw [h]⟩
  refine ⟨h _ _, (h _ _).trans ⟨fun e => ?_, fun e => by rw [e]⟩⟩
  exact (BitVec.add_right_inj _).1 e

theorem newRands_get (new : BitVec 64 → BitVec 64 → BitVec w → BitVec w × BitVec w) (nx : BitVec w → BitVec w)
    (sd : BitVec 64 → BitVec 64 → BitVec w → BitVec w) (hn : ∀ a b g, new a b g = (sd a b (nx g), nx g))
    (cs : List (BitVec 64 × BitVec 64)) : ∀ (g : BitVec w) (i : Nat) (h : i < cs.length),
    (newRands new cs g)[i]? = some (sd cs[i].1 cs[i].2 (nx^[i + 1] g)) := by
  induction cs with
  | nil => intro g i h; simp at h
  | cons c cs ih =>
    intro g i h
    cases i with
    | zero => simp [newRands, hn]
    | succ i =>
      have := ih (nx g) i (by simpa using h)
      rw [newRands, List.getElem?_cons_succ, hn, this, List.getElem_cons_succ, Function.iterate_succ_apply nx (i + 1)]

theorem newRands64_get (cs : List (BitVec 64 × BitVec 64)) (g : BitVec 64) (i : Nat) (h : i < cs.length) :
    (newRands newRand64 cs g)[i]? = some (randSeed cs[i].1 cs[i].2 (next64^[i + 1] g)) :=
  newRands_get newRand64 next64 randSeed (fun _ _ _ => rfl) cs g i h

theorem newRands32_get (cs : List (BitVec 64 × BitVec 64)) (g : BitVec 32) (i : Nat) (h : i < cs.length) :
    (newRands newRand32 cs g)[i]? = some ((randSeed cs[i].1 cs[i].2 ((next32^[i + 1] g).setWidth 64)).setWidth 32) :=
  newRands_get newRand32 next32 (fun a b r => (randSeed a b (r.setWidth 64)).setWidth 32) (fun _ _ _ => rfl) cs g i h

theorem iterate_inj64 (s : BitVec 64) {i j : Nat} (hi : i < 2 ^ 64) (hj : j < 2 ^ 64) (h : next64^[i] s = next64^[j] s) :
    i = j := by
  rcases Nat.le_total i j with hij | hij
  · have := (C41_period64 s _).1 (iterate_cancel C41_injective.2 hij h)
    have := Nat.eq_zero_of_dvd_of_lt this (by omega)
    omega
  · have := (C41_period64 s _).1 (iterate_cancel C41_injective.2 hij h.symm)
    have := Nat.eq_zero_of_dvd_of_lt this (by omega)
    omega

theorem iterate_inj32 (s : BitVec 32) {i j : Nat} (hi : i < 2 ^ 31) (hj : j < 2 ^ 31) (h : next32^[i] s = next32^[j] s) :
    i = j := by
  rcases Nat.le_total i j with hij | hij
  · have := (C41_period32 s _).1 (iterate_cancel C41_injective.1 hij h)
    have := Nat.eq_zero_of_dvd_of_lt this (by omega)
    omega
  · have := (C41_period32 s _).1 (iterate_cancel C41_injective.1 hij h.symm)
    have := Nat.eq_zero_of_dvd_of_lt this (by omega)
    omega

theorem setWidth_randSeed (t u i : BitVec 64) : (randSeed t u i).setWidth 32 =
    next 4294967291#32 8615693#32 ((t + u + i).setWidth 32) := by
  unfold randSeed next
  rw [BitVec.setWidth_add _ _ (by decide), BitVec.setWidth_mul _ _ (by decide)]
  rfl

theorem clock_cancel32 (t u : BitVec 64) (r r' : BitVec 32)
    (h : (randSeed t u (r.setWidth 64)).setWidth 32 = (randSeed t u (r'.setWidth 64)).setWidth 32) : r = r' := by
  rw [setWidth_randSeed, setWidth_randSeed] at h
  have h := next_injective _ _ (by decide) h
  rw [BitVec.setWidth_add (t + u) _ (by decide), BitVec.setWidth_add (t + u) _ (by decide), BitVec.add_right_inj] at h
  rwa [BitVec.setWidth_setWidth_of_le _ (by decide), BitVec.setWidth_setWidth_of_le _ (by decide), BitVec.setWidth_eq,
    BitVec.setWidth_eq] at h

/-- **C98** (partial: the clock stands still, as it does for generators created in quick succession where the counter is
coarse; see `C98_moving_clock_false`) The generators created have different seeds: the first 2^64 of 64 bits and the
first 2^31 of 32 bits. -/
theorem C98_distinct_partial (t u : BitVec 64) (n : Nat) :
    (∀ g, n < 2 ^ 64 → (newRands newRand64 (List.replicate n (t, u)) g).Nodup) ∧
    (∀ g, n < 2 ^ 31 → (newRands newRand32 (List.replicate n (t, u)) g).Nodup) := by
  have len : ∀ {w : Nat} (f : BitVec 64 → BitVec 64 → BitVec w → BitVec w × BitVec w) (cs : List (BitVec 64 × BitVec 64)) g,
      (newRands f cs g).length = cs.length := by
    intro w f cs
    induction cs with
    | nil => intro g; rfl
    | cons c cs ih => intro g; simp [newRands, ih]
  constructor
  · intro g hn
    rw [List.nodup_iff_getElem?_ne_getElem?]
    intro i j hij hj he
    rw [len, List.length_replicate] at hj
    rw [newRands64_get _ g i (by simp; omega), newRands64_get _ g j (by simpa using hj)] at he
    rw [List.getElem_replicate, List.getElem_replicate, Option.some.injEq, (C98_seed _ _ _ t u _).2] at he
    have := iterate_inj64 (next64 g) (i := i) (j := j) (by omega) (by omega)
      (by rw [← Function.iterate_succ_apply, ← Function.iterate_succ_apply]; exact he)
    omega
  · intro g hn
    rw [List.nodup_iff_getElem?_ne_getElem?]
    intro i j hij hj he
    rw [len, List.length_replicate] at hj
    rw [newRands32_get _ g i (by simp; omega), newRands32_get _ g j (by simpa using hj)] at he
    rw [List.getElem_replicate, List.getElem_replicate, Option.some.injEq] at he
    have he := clock_cancel32 t u _ _ he
    have := iterate_inj32 (next32 g) (i := i) (j := j) (by omega) (by omega)
      (by rw [← Function.iterate_succ_apply, ← Function.iterate_succ_apply]; exact he)
    omega

example : newRands newRand64 (List.replicate 3 (5#64, 7#64)) 1#64 =
    [17587738950387004903#64, 14954733224151722#64, 16096069829070525397#64] := by decide

/-- **C98** In general the property is false: whatever the state of the global generator and the first reading of the
clock, there is one reading for the second call with which both generators get the same seed. -/
theorem C98_moving_clock_false (g u t t' : BitVec 64) :
    (∃ s, newRands newRand64 [(t, u), (t', u)] g = [s, s]) ↔ t' = t + (next64 g - next64 (next64 g)) := by
  have e : newRands newRand64 [(t, u), (t', u)] g = [randSeed t u (next64 g), randSeed t' u (next64 (next64 g))] := rfl
  rw [e]
  generalize next64 (next64 g) = b
  generalize next64 g = a
  have key : randSeed t u a = randSeed t' u b ↔ t' = t + (a - b) := by
    rw [(C98_seed _ _ _ _ _ _).1]
    constructor
    · intro h
      have h : t + a + u = t' + b + u := by
        rw [BitVec.add_assoc, BitVec.add_comm a u, ← BitVec.add_assoc, h, BitVec.add_assoc, BitVec.add_comm u b,
          ← BitVec.add_assoc]
      rw [BitVec.add_left_inj] at h
      rw [BitVec.sub_eq_add_neg, ← BitVec.add_assoc, h, ← BitVec.sub_eq_add_neg, BitVec.add_sub_cancel]
    · rintro rfl
      rw [BitVec.add_assoc t (a - b) u, BitVec.add_comm (a - b) u, ← BitVec.add_assoc t u (a - b),
        BitVec.add_assoc (t + u) (a - b) b, BitVec.sub_add_cancel]
  rw [← key]
  constructor
  · rintro ⟨s, h⟩
    simp only [List.cons.injEq, and_true] at h
    rw [h.1, h.2]
  · intro h
    exact ⟨randSeed t' u b, by rw [h]⟩

/-- **C98** Whatever their seeds, two 64-bit generators give the same numbers, one some steps ahead of the other: there is
only one sequence. -/
theorem C98_one_sequence (s t : BitVec 64) : ∃ k < 2 ^ 64, ∀ n, next64^[n] t = next64^[n + k] s := by
  obtain ⟨k, hk, e⟩ := C41_visits_all64 s t
  exact ⟨k, hk, fun n => by rw [Function.iterate_add_apply, e]⟩

/-! ## C99: numbers below a power of two -/

theorem setWidth_next (k : Nat) (hk : k ≤ w) (a c s : BitVec w) :
    (next a c s).setWidth k = next (a.setWidth k) (c.setWidth k) (s.setWidth k) := by
  unfold next
  rw [BitVec.setWidth_add _ _ hk, BitVec.setWidth_mul _ _ hk]

theorem setWidth_iter (k : Nat) (hk : k ≤ w) (a c : BitVec w) (n : Nat) : ∀ s : BitVec w,
    ((next a c)^[n] s).setWidth k = (next (a.setWidth k) (c.setWidth k))^[n] (s.setWidth k) := by
  induction n with
  | zero => intro s; rfl
  | succ n ih =>
    intro s
    rw [Function.iterate_succ_apply, ih, setWidth_next k hk]
    rfl

/-- The low `k` bits come back exactly when the low `k` bits of the sum vanish. -/
theorem low_fix (k : Nat) (hk : k ≤ w) (hk0 : 0 < k) (a c s : BitVec w) (n : Nat) (ha : a.toNat % 2 = 1)
    (hc : c.toNat % 2 = 1) :
    ((next a c)^[n] s).toNat % 2 ^ k = s.toNat % 2 ^ k ↔ 2 ^ k ∣ geom a.toNat n := by
  have h2 : 2 ∣ 2 ^ k := dvd_pow_self 2 (by omega)
  have e : ∀ x y : BitVec w, x.toNat % 2 ^ k = y.toNat % 2 ^ k ↔ x.setWidth k = y.setWidth k := by
    intro x y
    rw [← BitVec.toNat_inj, BitVec.toNat_setWidth, BitVec.toNat_setWidth]
  rw [e, setWidth_iter k hk, iter_fix _ _ _ _ (by rw [BitVec.toNat_setWidth, Nat.mod_mod_of_dvd _ h2, ha])
    (by rw [BitVec.toNat_setWidth, Nat.mod_mod_of_dvd _ h2, hc]), BitVec.toNat_setWidth]
  have hg : ∀ n, geom (a.toNat % 2 ^ k) n % 2 ^ k = geom a.toNat n % 2 ^ k := by
    intro n
    induction n with
    | zero => rfl
    | succ n ih =>
      rw [geom, geom, Nat.add_mod, Nat.mul_mod, ih, Nat.mod_mod, ← Nat.mul_mod, ← Nat.add_mod]
  rw [Nat.dvd_iff_mod_eq_zero, Nat.dvd_iff_mod_eq_zero, hg]

theorem geom_dvd32 (k n : Nat) (hk : 2 ≤ k) : 2 ^ k ∣ geom 7368787 n ↔ 2 ^ (k - 1) ∣ n := by
  obtain ⟨k, rfl⟩ : ∃ j, k = j + 2 := ⟨k - 2, by omega⟩
  rw [show k + 2 - 1 = k + 1 by omega]
  rcases Nat.even_or_odd' n with ⟨m, rfl | rfl⟩
  · rw [geom_even, show (2 : Nat) ^ (k + 2) = 4 * 2 ^ k by ring, show 1 + 7368787 = 4 * 1842197 by norm_num, Nat.mul_assoc,
      Nat.mul_dvd_mul_iff_left (by omega), show (2 : Nat) ^ (k + 1) = 2 * 2 ^ k by ring, Nat.mul_dvd_mul_iff_left (by omega),
      ← geom_dvd k (7368787 * 7368787) m (by norm_num)]
    constructor
    · exact fun h => (Nat.Coprime.pow_left k (by rw [Nat.coprime_two_left, Nat.odd_iff])).dvd_of_dvd_mul_left h
    · exact fun h => Dvd.dvd.mul_left h _
  · have ho := geom_odd 7368787 (2 * m + 1) (by norm_num)
    have e1 : (2 : Nat) ∣ 2 ^ (k + 2) := dvd_pow_self 2 (by omega)
    have e2 : (2 : Nat) ∣ 2 ^ (k + 1) := dvd_pow_self 2 (by omega)
    constructor
    · intro h
      have := e1.trans h
      omega
    · intro h
      have := e2.trans h
      omega

/-- `RandMax` of a power of two is the low bits. -/
theorem below_pow (k : Nat) (hk : k < w) (r : BitVec w) :
    ∃ v, below (BitVec.ofNat w (2 ^ k)) r = .ok v ∧ v.toNat = r.toNat % 2 ^ k := by
  have hp := Nat.two_pow_pos k
  have hlt : 2 ^ k < 2 ^ w := Nat.pow_lt_pow_right (by omega) hk
  have hm : (BitVec.ofNat w (2 ^ k)).toNat = 2 ^ k := by rw [BitVec.toNat_ofNat, Nat.mod_eq_of_lt hlt]
  have h1 : (BitVec.ofNat w (2 ^ k) - 1#w).toNat = 2 ^ k - 1 := by
    have hw : 1 % 2 ^ w = 1 := Nat.mod_eq_of_lt (by omega)
    have h1 : (1#w).toNat = 1 := by rw [BitVec.toNat_ofNat, hw]
    rw [BitVec.toNat_sub_of_le, h1, hm]
    rw [BitVec.le_def, h1, hm]; omega
  obtain ⟨v, e, hv⟩ := inRange_sorted (lo := 0#w) (hi := BitVec.ofNat w (2 ^ k) - 1#w) (r := r) (by simp)
    (by rw [h1]; simp; omega)
  refine ⟨v, e, ?_⟩
  rw [hv, h1]
  simp only [BitVec.toNat_ofNat, Nat.zero_mod, Nat.add_zero, Nat.sub_zero, Nat.sub_add_cancel hp]

theorem below_eq_iff (k : Nat) (hk : k < w) (r r' : BitVec w) :
    below (BitVec.ofNat w (2 ^ k)) r = below (BitVec.ofNat w (2 ^ k)) r' ↔ r.toNat % 2 ^ k = r'.toNat % 2 ^ k := by
  obtain ⟨v, h1, h2⟩ := below_pow k hk r
  obtain ⟨v', h1', h2'⟩ := below_pow k hk r'
  rw [h1, h1', ← h2, ← h2', BitVec.toNat_inj]
  exact ⟨fun h => by injection h, fun h => by rw [h]⟩

/-- **C99** is false: numbers below 2^k repeat long before the generator does.  From every seed, the numbers of two calls
of the 64-bit generator's `RandMax(2^k)` are the same exactly when the calls are a multiple of 2^k apart; so `RandMax(2)`
alternates, and any 2^k calls in a row give every number exactly once. -/
theorem C99_pow64_false (k : Nat) (hk0 : 0 < k) (hk : k < 64) (s : BitVec 64) (m n : Nat) :
    below (BitVec.ofNat 64 (2 ^ k)) (next64^[m + n] s) = below (BitVec.ofNat 64 (2 ^ k)) (next64^[m] s) ↔ 2 ^ k ∣ n := by
  have e : next64 = next 4294955897#64 4094975977#64 := rfl
  rw [below_eq_iff k hk, Nat.add_comm m n, Function.iterate_add_apply, e, low_fix k (by omega) hk0 _ _ _ _ (by simp) (by simp),
    geom_dvd k _ _ (by simp)]

/-- **C99** The 32-bit generator's `RandMax(2^k)`, for k ≥ 2, gives the same number exactly after the multiples of
2^(k-1) calls: from one seed only half of the numbers ever occur. -/
theorem C99_pow32_false (k : Nat) (hk0 : 2 ≤ k) (hk : k < 32) (s : BitVec 32) (m n : Nat) :
    below (BitVec.ofNat 32 (2 ^ k)) (next32^[m + n] s) = below (BitVec.ofNat 32 (2 ^ k)) (next32^[m] s) ↔ 2 ^ (k - 1) ∣ n := by
  have e : next32 = next 7368787#32 2750159#32 := rfl
  rw [below_eq_iff k hk, Nat.add_comm m n, Function.iterate_add_apply, e, low_fix k (by omega) (by omega) _ _ _ _ (by simp)
    (by simp), ← geom_dvd32 k n hk0]
  simp

/-- **C99** `RandMax(2)` of the 32-bit generator alternates too. -/
theorem C99_bit32_false (s : BitVec 32) (m n : Nat) :
    below 2#32 (next32^[m + n] s) = below 2#32 (next32^[m] s) ↔ 2 ∣ n := by
  have e : next32 = next 7368787#32 2750159#32 := rfl
  have := low_fix 1 (by omega) (by omega) 7368787#32 2750159#32 (next32^[m] s) n (by simp) (by simp)
  rw [← e] at this
  rw [show 2#32 = BitVec.ofNat 32 (2 ^ 1) from rfl, below_eq_iff 1 (by omega), Nat.add_comm m n, Function.iterate_add_apply,
    this]
  have ho := geom_odd 7368787 n (by norm_num)
  simp only [Nat.pow_one]
  rw [Nat.dvd_iff_mod_eq_zero, Nat.dvd_iff_mod_eq_zero]
  simp only [BitVec.toNat_ofNat, Nat.reducePow, Nat.reduceMod]
  rw [ho]

/-- **C99** (partial: for bounds that are a power of two) Over one period every number below 2^k occurs, once. -/
theorem C99_each_once_partial (k : Nat) (hk0 : 0 < k) (hk : k < 64) (s : BitVec 64) (v : Nat) (hv : v < 2 ^ k) :
    ∃ n < 2 ^ k, (∃ x, below (BitVec.ofNat 64 (2 ^ k)) (next64^[n] s) = .ok x ∧ x.toNat = v) ∧
      ∀ m < 2 ^ k, (∃ x, below (BitVec.ofNat 64 (2 ^ k)) (next64^[m] s) = .ok x ∧ x.toNat = v) → m = n := by
  have hp := Nat.two_pow_pos k
  have inj : ∀ {i j : Nat}, i < 2 ^ k → j < 2 ^ k →
      (next64^[i] s).toNat % 2 ^ k = (next64^[j] s).toNat % 2 ^ k → i = j := by
    have key : ∀ {i j : Nat}, i ≤ j → j < 2 ^ k →
        (next64^[i] s).toNat % 2 ^ k = (next64^[j] s).toNat % 2 ^ k → i = j := by
      intro i j hij hj h
      obtain ⟨d, rfl⟩ : ∃ d, j = i + d := ⟨j - i, by omega⟩
      have h := (C99_pow64_false k hk0 hk s i d).1 ((below_eq_iff k hk _ _).2 h.symm)
      have := Nat.eq_zero_of_dvd_of_lt h (by omega)
      omega
    intro i j hi hj h
    rcases Nat.le_total i j with c | c
    · exact key c hj h
    · exact (key c hi h.symm).symm
  let f : Fin (2 ^ k) → Fin (2 ^ k) := fun n => ⟨(next64^[n.1] s).toNat % 2 ^ k, Nat.mod_lt _ hp⟩
  have hinj : Function.Injective f := fun i j h => Fin.ext (inj i.2 j.2 (by simpa [f] using h))
  obtain ⟨n, hn⟩ := Finite.surjective_of_injective hinj ⟨v, hv⟩
  have hn : (next64^[n.1] s).toNat % 2 ^ k = v := by simpa [f] using hn
  refine ⟨n.1, n.2, ?_, ?_⟩
  · obtain ⟨x, h1, h2⟩ := below_pow k hk (next64^[n.1] s)
    exact ⟨x, h1, h2.trans hn⟩
  · rintro m hm ⟨x, h1, h2⟩
    obtain ⟨y, h3, h4⟩ := below_pow k hk (next64^[m] s)
    rw [h1] at h3
    injection h3 with h3
    subst h3
    exact inj hm n.2 (by rw [hn, ← h4, h2])

example : (List.range 8).map (fun n => below 4#64 (next64^[n] 7#64)) =
    [.ok 3#64, .ok 0#64, .ok 1#64, .ok 2#64, .ok 3#64, .ok 0#64, .ok 1#64, .ok 2#64] := by decide

example := C99_pow64_false 2 (by decide) (by decide) 7#64 0 4
example := C99_pow32_false 2 (by decide) (by decide) 7#32 0 2

end Verif.Rand
