import Verif.Model.RangeU
import Mathlib.Logic.Function.Iterate
import Mathlib.Tactic.NormNum
/-!
# Properties C42 and C43: ranged counters and sequence ids
-/

set_option linter.unusedSectionVars false

namespace Verif.RangeU
variable {w : Nat}

theorem verify_false (me : R w) (x : BitVec w) : verify me x = false := by simp [verify]
theorem verifyRange_false (a b c : BitVec w) : verifyRange a b c = false := by simp [verifyRange]

/-! ## Specification: a modular counter with three numbers -/

/-- What the calls really do, on natural numbers below `M = 2^w`: value, lower and upper bound. -/
def spec (M : Nat) (s : Nat × Nat × Nat) : Op w → Nat × Nat × Nat
  | .init v lo hi => (v.toNat, lo.toNat, hi.toNat)
  | .reset => (s.2.1, s.2.1, s.2.2)
  | .resetR => (s.2.2, s.2.1, s.2.2)
  | .inc => ((s.1 + 1) % M, s.2.1, s.2.2)
  | .dec _ => ((s.1 + (M - 1)) % M, s.2.1, s.2.2)
  | .set x => (x.toNat, s.2.1, s.2.2)
  | _ => s

/-- The three numbers of an object. -/
def nums (me : R w) : Nat × Nat × Nat := (me.val.toNat, me.min.toNat, me.max.toNat)

theorem one_mod (hw : 0 < w) : 1 % 2 ^ w = 1 := Nat.mod_eq_of_lt (Nat.one_lt_two_pow (by omega))

theorem step_spec (hw : 0 < w) (b : Bool) (me me' : R w) (op : Op w) (r : BitVec w × Bool) (h : step b me op = .ok (me', r)) :
    nums me' = spec (2 ^ w) (nums me) op := by
  cases op with
  | init v lo hi => simp [step, verifyRange_false] at h; simp [← h.1, nums, spec]
  | div x =>
    simp only [step] at h
    split at h
    · cases h
    · cases h; rfl
  | mod x =>
    simp only [step] at h
    split at h
    · split at h <;> cases h; rfl
    · cases h; rfl
  | inc =>
    simp [step, set, verify_false] at h
    simp [← h.1, nums, spec, BitVec.toNat_add]
  | dec x =>
    simp [step, set, verify_false] at h
    simp only [← h.1, nums, spec, BitVec.toNat_sub, BitVec.toNat_ofNat, one_mod hw, Nat.add_comm]
  | set x => simp [step, set, verify_false] at h; simp [← h.1, nums, spec]
  | _ => cases h; rfl

/-- C42, exact behaviour: for every history of calls the object is the modular counter of the specification: `Set`
stores whatever it is given, `Inc` and `Dec` wrap around the machine word, arithmetic changes nothing. -/
theorem C42_exact (hw : 0 < w) (b : Bool) (me me' : R w) (ops : List (Op w)) (rs : List (BitVec w × Bool))
    (h : run b me ops = .ok (me', rs)) : nums me' = ops.foldl (spec (2 ^ w)) (nums me) := by
  induction ops generalizing me rs with
  | nil => cases h; rfl
  | cons op ops ih =>
    simp only [run] at h
    cases hs : step b me op with
    | panic => rw [hs] at h; cases h
    | ok p =>
      obtain ⟨m1, r⟩ := p
      rw [hs, Res.bind_ok] at h
      simp only at h
      cases hr : run b m1 ops with
      | panic => rw [hr] at h; cases h
      | ok q =>
        rw [hr, Res.bind_ok] at h
        obtain ⟨m2, rs2⟩ := q
        cases h
        rw [List.foldl_cons, ← step_spec hw b me m1 op r hs]
        exact ih m1 rs2 hr

/-- C42 is false of the code: nothing is ever checked.  For every object and every number, `Set` stores the number
and reports no error; and every triple is accepted by the constructor. -/
theorem C42_unchecked_false (me : R w) (x lo hi : BitVec w) :
    set me x = (⟨x, me.min, me.max⟩, me.val, false) ∧ new x lo hi = (some ⟨x, lo, hi⟩, false) := by
  constructor
  · simp [set, verify_false]
  · simp [new, verifyRange_false]

/-- C42 is false of the code: a counter that stands at its upper bound is incremented beyond it without error, for
every bounds except the largest machine number, where it wraps to zero. -/
theorem C42_inc_false (hw : 0 < w) (b : Bool) (lo hi : BitVec w) :
    ∃ me' r, step b ⟨hi, lo, hi⟩ .inc = .ok (me', r, false) ∧
      (hi.toNat + 1 < 2 ^ w → me'.val.toNat = hi.toNat + 1) ∧ (hi.toNat + 1 = 2 ^ w → me'.val.toNat = 0) := by
  refine ⟨⟨hi + 1#w, lo, hi⟩, hi, by simp [step, set, verify_false], fun h => ?_, fun h => ?_⟩
  · simp only [BitVec.toNat_add, BitVec.toNat_ofNat, one_mod hw]
    exact Nat.mod_eq_of_lt h
  · simp only [BitVec.toNat_add, BitVec.toNat_ofNat, one_mod hw, h]
    exact Nat.mod_self _

/-- A call that the caller has checked: the new value lies within the bounds. -/
def Careful (lo hi v : Nat) : Op w → Prop
  | .init v' lo' hi' => lo'.toNat = lo ∧ hi'.toNat = hi ∧ lo ≤ v'.toNat ∧ v'.toNat ≤ hi
  | .inc => v < hi
  | .dec _ => lo < v
  | .set x => lo ≤ x.toNat ∧ x.toNat ≤ hi
  | _ => True

/-- The history is careful all along. -/
def CarefulRun (lo hi : Nat) : Nat → List (Op w) → Prop
  | _, [] => True
  | v, op :: ops => Careful lo hi v op ∧ CarefulRun lo hi (spec (2 ^ w) (v, lo, hi) op).1 ops

/-- C42, for callers that check first: if no call asks for a value outside the bounds, the value is within the
bounds after every history, and the bounds stay.  Missing from C42: that the object itself checks, see
`C42_unchecked_false`. -/
theorem C42_careful_partial (hw : 0 < w) (b : Bool) (me me' : R w) (ops : List (Op w)) (rs : List (BitVec w × Bool))
    (h0 : me.min.toNat ≤ me.val.toNat ∧ me.val.toNat ≤ me.max.toNat)
    (hc : CarefulRun me.min.toNat me.max.toNat me.val.toNat ops) (h : run b me ops = .ok (me', rs)) :
    me'.min = me.min ∧ me'.max = me.max ∧ me.min.toNat ≤ me'.val.toNat ∧ me'.val.toNat ≤ me.max.toNat := by
  have e := C42_exact hw b me me' ops rs h
  have hlt := me.max.isLt
  have key : ∀ (ops : List (Op w)) (v : Nat), me.min.toNat ≤ v → v ≤ me.max.toNat →
      CarefulRun me.min.toNat me.max.toNat v ops →
      ∃ v', ops.foldl (spec (2 ^ w)) (v, me.min.toNat, me.max.toNat) = (v', me.min.toNat, me.max.toNat) ∧
        me.min.toNat ≤ v' ∧ v' ≤ me.max.toNat := by
    intro ops
    induction ops with
    | nil => intro v h1 h2 _; exact ⟨v, rfl, h1, h2⟩
    | cons op ops ih =>
      intro v h1 h2 hc
      obtain ⟨hc1, hc2⟩ := hc
      rw [List.foldl_cons]
      cases op with
      | init v' lo' hi' =>
        obtain ⟨e1, e2, h3, h4⟩ := hc1
        simp only [spec] at hc2 ⊢
        rw [e1, e2]
        exact ih _ h3 h4 hc2
      | reset => exact ih _ (Nat.le_refl _) (by simp only; omega) hc2
      | resetR => exact ih _ (by simp only; omega) (Nat.le_refl _) hc2
      | inc =>
        have hc1' : v < me.max.toNat := hc1
        have e : (v + 1) % 2 ^ w = v + 1 := Nat.mod_eq_of_lt (by omega)
        simp only [spec, e] at hc2 ⊢
        exact ih _ (by omega) (by omega) hc2
      | dec x =>
        have hc1' : me.min.toNat < v := hc1
        have e : (v + (2 ^ w - 1)) % 2 ^ w = v - 1 := by
          rw [show v + (2 ^ w - 1) = (v - 1) + 2 ^ w by omega, Nat.add_mod_right]
          exact Nat.mod_eq_of_lt (by omega)
        simp only [spec, e] at hc2 ⊢
        exact ih _ (by omega) (by omega) hc2
      | set x =>
        have hc1' : me.min.toNat ≤ x.toNat ∧ x.toNat ≤ me.max.toNat := hc1
        exact ih _ hc1'.1 hc1'.2 hc2
      | _ => exact ih _ h1 h2 hc2
  obtain ⟨v', e', h1, h2⟩ := key ops me.val.toNat h0.1 h0.2 hc
  have e2 : nums me' = (v', me.min.toNat, me.max.toNat) := e.trans e'
  simp only [nums, Prod.mk.injEq] at e2
  exact ⟨BitVec.eq_of_toNat_eq e2.2.1, BitVec.eq_of_toNat_eq e2.2.2, by omega, by omega⟩

/-- C42: the arithmetic queries change nothing and return the true sum, difference, product, quotient and remainder
whenever it is representable; nothing but `Mod` by zero on the 32-bit counter reports an error. -/
theorem C42_arith (b : Bool) (me : R w) (x : BitVec w) :
    (me.val.toNat + x.toNat < 2 ^ w → ∃ r, step b me (.add x) = .ok (me, r, false) ∧ r.toNat = me.val.toNat + x.toNat) ∧
    (x.toNat ≤ me.val.toNat → ∃ r, step b me (.sub x) = .ok (me, r, false) ∧ r.toNat = me.val.toNat - x.toNat) ∧
    (me.val.toNat * x.toNat < 2 ^ w → ∃ r, step b me (.mul x) = .ok (me, r, false) ∧ r.toNat = me.val.toNat * x.toNat) ∧
    (x ≠ 0#w → ∃ r, step b me (.div x) = .ok (me, r, false) ∧ r.toNat = me.val.toNat / x.toNat) ∧
    (x ≠ 0#w → ∃ r, step b me (.mod x) = .ok (me, r, false) ∧ r.toNat = me.val.toNat % x.toNat) ∧
    step b me (.div 0#w) = .panic ∧
    step true me (.mod 0#w) = .ok (me, me.min, true) ∧ step false me (.mod 0#w) = .panic := by
  refine ⟨fun h => ⟨me.val + x, by simp only [step, verify_false], ?_⟩, fun h => ⟨me.val - x, by simp only [step, verify_false], ?_⟩,
    fun h => ⟨me.val * x, by simp only [step, verify_false], ?_⟩, fun h => ⟨me.val / x, by simp only [step, verify_false, if_neg h], ?_⟩,
    fun h => ⟨me.val % x, by simp only [step, verify_false, if_neg h], ?_⟩, by simp [step], by simp [step], by simp [step]⟩
  · rw [BitVec.toNat_add]; exact Nat.mod_eq_of_lt h
  · exact BitVec.toNat_sub_of_le (by rw [BitVec.le_def]; exact h)
  · rw [BitVec.toNat_mul]; exact Nat.mod_eq_of_lt h
  · exact BitVec.toNat_udiv
  · exact BitVec.toNat_umod

/-- C42: `InRange` and `InCurrentRange` decide membership. -/
theorem C42_queries (me : R w) (x : BitVec w) :
    (inRange me x = true ↔ me.min.toNat ≤ x.toNat ∧ x.toNat ≤ me.max.toNat) ∧
    (inCurrentRange me x = true ↔ me.min.toNat ≤ x.toNat ∧ x.toNat ≤ me.val.toNat) := by
  simp [inRange, inCurrentRange, BitVec.le_def]

example : CarefulRun (w := 32) 3 5 3 [.inc, .inc, .dec 0#32, .set 5#32, .reset] := by
  simp [CarefulRun, Careful, spec]
example : run true (⟨3#32, 3#32, 5#32⟩ : R 32) [.inc, .inc, .inc, .inc] =
    .ok (⟨7#32, 3#32, 5#32⟩, [(3#32, false), (4#32, false), (5#32, false), (6#32, false)]) := by decide

example := C42_exact (w := 32) (by decide) true ⟨3#32, 3#32, 5#32⟩ ⟨5#32, 3#32, 5#32⟩ [.inc, .inc] [(3#32, false), (4#32, false)]
  (by decide)
example := C42_inc_false (w := 32) (by decide) true 3#32 5#32

example := C42_careful_partial (w := 32) (by decide) true ⟨3#32, 3#32, 5#32⟩ ⟨5#32, 3#32, 5#32⟩ [.inc, .inc] [(3#32, false), (4#32, false)]
  (by decide) (by simp [CarefulRun, Careful, spec]) (by decide)

end Verif.RangeU

namespace Verif.Seq
open Verif.RangeU

/-- What `Next` does. -/
theorem next_eq (s : S) : next s = .ok (⟨⟨s.id.val + 1#64, s.id.min, s.id.max⟩, s.option⟩, s.id.val, false) := by
  simp [next, popRecycle, step, RangeU.set, verify_false, handler]

theorem new_eq (min max : BitVec 64) (option : BitVec 32) :
    new min max option = .ok (some ⟨⟨if option &&& usageMask = nouseFst then min + 1#64 else min, min, max⟩, option⟩) := by
  simp only [new, step, verifyRange_false, if_true, Res.bind_ok]
  by_cases h : option &&& usageMask = nouseFst <;> simp [h, RangeU.set, verify_false]

/-- The number of `Next` calls in a history. -/
def nexts : List Op → Nat
  | [] => 0
  | .next :: ops => nexts ops + 1
  | _ :: ops => nexts ops

theorem run_eq (ops : List Op) (s : S) :
    run s ops = .ok (⟨⟨s.id.val + BitVec.ofNat 64 (nexts ops), s.id.min, s.id.max⟩, s.option⟩,
      (List.range (nexts ops)).map fun i => (s.id.val + BitVec.ofNat 64 i, false)) := by
  induction ops generalizing s with
  | nil => simp [run, nexts]
  | cons op ops ih =>
    cases op with
    | next =>
      simp only [run, next_eq, Res.bind_ok, ih, nexts, Res.pure_eq]
      rw [List.range_succ_eq_map]
      simp only [List.map_cons, List.map_map, Res.ok.injEq, Prod.mk.injEq, S.mk.injEq, R.mk.injEq, List.cons.injEq]
      have e : ∀ i : Nat, s.id.val + 1#64 + BitVec.ofNat 64 i = s.id.val + BitVec.ofNat 64 (i + 1) := by
        intro i
        rw [BitVec.add_assoc, Nat.add_comm i 1, BitVec.ofNat_add]
      refine ⟨⟨⟨e _, trivial, trivial⟩, trivial⟩, ⟨by simp, trivial⟩, ?_⟩
      refine List.map_congr_left (fun i _ => ?_)
      simp only [Function.comp, e, Nat.succ_eq_add_one]
    | recycle r =>
      have : (recycle s r).1 = s := by simp only [recycle]; split <;> rfl
      simp only [run, this, ih, nexts]

/-- The first id handed out: the lower bound, or the one after it when the option says exactly "do not use the first". -/
def first (min : BitVec 64) (option : BitVec 32) : Nat :=
  if option &&& usageMask = nouseFst then min.toNat + 1 else min.toNat

/-- C43, exact behaviour: for all bounds, options and histories of `Next` and `Recycle`, the `i`-th `Next` returns the
first id plus `i` modulo 2^64 without error and without panic; recycled ids are never handed out again before that. -/
theorem C43_exact (min max : BitVec 64) (option : BitVec 32) (ops : List Op) :
    ∃ s s' ids, new min max option = .ok (some s) ∧ run s ops = .ok (s', ids) ∧ ids.length = nexts ops ∧
      ∀ i (h : i < ids.length), ids[i].1.toNat = (first min option + i) % 2 ^ 64 ∧ ids[i].2 = false := by
  refine ⟨_, _, _, new_eq min max option, run_eq ops _, by simp, fun i h => ?_⟩
  simp only [List.getElem_map, List.getElem_range, and_true]
  unfold first
  split
  · simp only [BitVec.toNat_add, BitVec.toNat_ofNat, Nat.mod_add_mod, Nat.add_mod_mod]
  · simp only [BitVec.toNat_add, BitVec.toNat_ofNat, Nat.add_mod_mod]

/-- C43, within the machine range: as long as first id plus number of calls fits into 64 bits, the ids are the first
id, the next, and so on, strictly ascending (so never repeated) and at least the declared minimum.  Missing from C43:
staying below the maximum, which is false, see `C43_exceeds_max_false`. -/
theorem C43_ascending_partial (min max : BitVec 64) (option : BitVec 32) (ops : List Op)
    (h : first min option + nexts ops ≤ 2 ^ 64) :
    ∃ s s' ids, new min max option = .ok (some s) ∧ run s ops = .ok (s', ids) ∧
      ids.map (fun p => p.1.toNat) = (List.range (nexts ops)).map (first min option + ·) := by
  obtain ⟨s, s', ids, h1, h2, h3, h4⟩ := C43_exact min max option ops
  refine ⟨s, s', ids, h1, h2, List.ext_getElem (by simp [h3]) (fun i hi hi' => ?_)⟩
  simp only [List.length_map] at hi
  simp only [List.getElem_map, List.getElem_range]
  rw [(h4 i hi).1]
  exact Nat.mod_eq_of_lt (by omega)

/-- C43 is false of the code: for every declared maximum below the largest machine number, `max - min + 2` calls
suffice to get an id above the maximum, without any error. -/
theorem C43_exceeds_max_false (min max : BitVec 64) (option : BitVec 32) (hmm : min.toNat ≤ max.toNat)
    (hmax : max.toNat + 1 < 2 ^ 64) :
    ∃ s s' ids, new min max option = .ok (some s) ∧
      run s (List.replicate (max.toNat - min.toNat + 2) .next) = .ok (s', ids) ∧ ∃ p ∈ ids, max.toNat < p.1.toNat ∧ p.2 = false := by
  obtain ⟨s, s', ids, h1, h2, h3, h4⟩ := C43_exact min max option (List.replicate (max.toNat - min.toNat + 2) .next)
  have hn : ∀ n, nexts (List.replicate n .next) = n := by
    intro n
    induction n with
    | zero => rfl
    | succ n ih => simp [List.replicate_succ, nexts, ih]
  rw [hn] at h3
  have hf : first min option = min.toNat ∨ first min option = min.toNat + 1 := by unfold first; split <;> simp
  refine ⟨s, s', ids, h1, h2, ids[max.toNat + 1 - first min option]'(by omega), List.getElem_mem _, ?_, ?_⟩
  · rw [(h4 _ (by omega)).1, show first min option + (max.toNat + 1 - first min option) = max.toNat + 1 by omega,
      Nat.mod_eq_of_lt hmax]
    omega
  · exact (h4 _ (by omega)).2

/-- C43 is false of the code: asking for "do not use the first id" together with "panic on errors" (the predefined
option `DFT_OP_ID_NO_ERR`) hands out the first id. -/
theorem C43_first_used_false (min max : BitVec 64) :
    ∃ s, new min max (0x311#32) = .ok (some s) ∧ ∃ s', next s = .ok (s', min, false) := by
  refine ⟨_, new_eq _ _ _, ?_⟩
  rw [next_eq]
  exact ⟨_, by rw [if_neg (by decide)]⟩

/-- C43: `Recycle` reports an error exactly for ids outside the minimum and the current value, and never has any
other effect. -/
theorem C43_recycle (s : S) (r : BitVec 64) :
    (recycle s r).1 = s ∧ ((recycle s r).2 = false ↔ s.id.min.toNat ≤ r.toNat ∧ r.toNat ≤ (current s).toNat) := by
  have := (C42_queries s.id r).2
  unfold recycle current
  split <;> simp_all

example : ∃ s s', new 5#64 6#64 0x111#32 = .ok (some s) ∧
    run s [.next, .recycle 6#64, .next, .next] = .ok (s', [(6#64, false), (7#64, false), (8#64, false)]) :=
  ⟨⟨⟨6#64, 5#64, 6#64⟩, 0x111#32⟩, ⟨⟨9#64, 5#64, 6#64⟩, 0x111#32⟩, by decide, by decide⟩

example := C43_ascending_partial 5#64 6#64 0x111#32 [.next, .recycle 6#64, .next] (by decide)

example := C43_exceeds_max_false 5#64 6#64 0x111#32 (by decide) (by decide)

end Verif.Seq
