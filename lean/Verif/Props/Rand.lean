import Verif.Model.Rand
import Verif.Lemmas.Tracks
import Mathlib.Logic.Function.Iterate
import Mathlib.Data.Fintype.EquivFin
import Mathlib.Data.Fintype.Card
import Mathlib.Tactic.Ring
import Mathlib.Algebra.Ring.Parity
import Mathlib.Data.Nat.Prime.Basic
import Mathlib.Data.Nat.ModEq
import Mathlib.Tactic.NormNum
/-!
# Properties C39, C40, C41 and C68: the random number generators
-/

set_option linter.unusedSectionVars false

namespace Verif.Rand
open Verif.Spec

variable {w : Nat}

/-! ## C39 -/

/-- The sequential generator: its state is the seed. -/
def gen (a c : BitVec w) (s : BitVec w) : Op w → BitVec w × Res (BitVec w)
  | .rand => (s * a + c, .ok (s * a + c))
  | .range lo hi => (s * a + c, inRange lo hi (s * a + c))
  | .max m => (s * a + c, below m (s * a + c))
  | .seed => (s, .ok s)
  | .srand v => (v, .ok s)

/-- Seen from the atomic object. -/
def status : PC w → AStatus (Op w) (Res (BitVec w))
  | .idle => .idle
  | .load op | .cas op _ => .pending op
  | .done _ r => .done r
  | .seed => .pending .seed
  | .swap v => .pending (.srand v)

/-- Only the calls that draw a number run the loop. -/
def Draws : Op w → Prop
  | .seed | .srand _ => False
  | _ => True

/-- A goroutine in the loop is drawing. -/
def Good (p : PC w) : Prop :=
  match p with
  | .load op | .cas op _ => Draws op
  | _ => True

theorem setAt_same {β : Type} (f : Nat → β) (i : Nat) (v : β) : setAt f i v i = v := by simp [setAt]
theorem setAt_ne {β : Type} (f : Nat → β) (i j : Nat) (v : β) (hj : j ≠ i) : setAt f i v j = f j := by
  simp [setAt, hj]

theorem good_set {f : Nat → PC w} (h : ∀ t, Good (f t)) (t : Nat) (p : PC w) (hp : Good p) : ∀ t', Good (setAt f t p t') := by
  intro t'
  by_cases e : t' = t
  · subst e; rw [setAt_same]; exact hp
  · rw [setAt_ne _ _ _ _ e]; exact h t'

theorem status_set {s : St w} {a : AState (BitVec w) (Op w) (Res (BitVec w))} (h : ∀ t, a.th t = status (s.pc t)) (t : Nat)
    (p : PC w) (q : AStatus (Op w) (Res (BitVec w))) (hq : q = status p) :
    ∀ t', setAt a.th t q t' = status (setAt s.pc t p t') := by
  intro t'
  by_cases e : t' = t
  · subst e; simp [setAt_same, hq]
  · simp [setAt_ne _ _ _ _ e, h]

theorem status_keep {s : St w} {a : AState (BitVec w) (Op w) (Res (BitVec w))} (h : ∀ t, a.th t = status (s.pc t)) (t : Nat)
    (p : PC w) (hq : status p = status (s.pc t)) : ∀ t', a.th t' = status (setAt s.pc t p t') := by
  intro t'
  by_cases e : t' = t
  · subst e; rw [setAt_same, h, hq]
  · simp [setAt_ne _ _ _ _ e, h]

theorem status_entry (op : Op w) : status (entry op) = .pending op := by cases op <;> rfl

theorem good_entry (op : Op w) : Good (entry op) := by cases op <;> simp [entry, Good, Draws]

theorem gen_draw (a c s : BitVec w) (op : Op w) (h : Draws op) :
    gen a c s op = (next a c s, finish op (next a c s)) := by
  cases op <;> simp_all [gen, next, finish, Draws]

theorem one {a c : BitVec w} {x x' : AState (BitVec w) (Op w) (Res (BitVec w))} {e : Ev (Op w) (Res (BitVec w))}
    (h : AStep (gen a c) x (some e) x') : Exec (AStep (gen a c)) x [e] x' := .visible (.refl _) h

/-- C39: any number of goroutines sharing one generator (`Rand`, `RandRange`, `RandMax`, `Seed`, `Srand`), every
interleaving, every width, seed and constants: the values handed out are those of the sequential generator, each
call drawing exactly one new value in one indivisible step between its call and its return. -/
theorem C39_linearizable (a c s0 : BitVec w) : Linearizable (Step a c) (St.init s0) (gen a c) s0 := by
  intro τ s' h
  refine (linearizable_of_simulation (s0 := s0) (seq := gen a c)
    (fun s x => x.s = s.seed ∧ (∀ t, x.th t = status (s.pc t)) ∧ ∀ t, Good (s.pc t)) ?_ ?_ h).imp (fun _ h => h.1)
  · exact ⟨rfl, fun _ => rfl, fun _ => trivial⟩
  · rintro s x e s' ⟨hs, hth, hg⟩ hst
    cases hst with
    | call t op hp =>
      exact ⟨_, one (.call x t op (by rw [hth, hp]; rfl)), hs, status_set hth t _ _ (status_entry op).symm,
        good_set hg t _ (good_entry op)⟩
    | load t op hp =>
      exact ⟨x, .refl _, hs, status_keep hth t _ (by rw [hp]; rfl), good_set hg t _ (by have := hg t; rw [hp] at this; exact this)⟩
    | casOk t op o hp ho =>
      have hd : Draws op := by have := hg t; rw [hp] at this; exact this
      refine ⟨_, .silent (.refl _) (.effect x t op (by rw [hth, hp]; rfl)), ?_, ?_, good_set hg t _ trivial⟩
      · simp only; rw [gen_draw _ _ _ _ hd, hs, ho]
      · refine status_set hth t _ _ ?_
        rw [gen_draw _ _ _ _ hd, hs, ho]; rfl
    | casFail t op o hp ho =>
      exact ⟨x, .refl _, hs, status_keep hth t _ (by rw [hp]; rfl), good_set hg t _ (by have := hg t; rw [hp] at this; exact this)⟩
    | seed t hp =>
      refine ⟨_, .silent (.refl _) (.effect x t .seed (by rw [hth, hp]; rfl)), hs, ?_, good_set hg t _ trivial⟩
      refine status_set hth t _ _ ?_
      rw [← hs]; rfl
    | swap t v hp =>
      refine ⟨_, .silent (.refl _) (.effect x t (.srand v) (by rw [hth, hp]; rfl)), rfl, ?_, good_set hg t _ trivial⟩
      refine status_set hth t _ _ ?_
      rw [← hs]; rfl
    | ret t op r hp =>
      exact ⟨_, one (.ret x t r (by rw [hth, hp]; rfl)), hs, status_set hth t _ _ rfl, good_set hg t _ trivial⟩

/-- The values returned so far. -/
def returned : List (Ev (Op w) (Res (BitVec w))) → List (Res (BitVec w))
  | [] => []
  | .ret _ r :: τ => r :: returned τ
  | _ :: τ => returned τ

theorem returned_append (τ τ' : List (Ev (Op w) (Res (BitVec w)))) : returned (τ ++ τ') = returned τ ++ returned τ' := by
  induction τ with
  | nil => rfl
  | cons e τ ih => cases e <;> simp [returned, ih]

/-- Only `Rand` is called. -/
def OnlyRand (e : Option (Ev (Op w) (Res (BitVec w)))) : Prop := ∀ t op, e = some (.call t op) → op = .rand

/-- The result a goroutine is about to return. -/
def about : PC w → Option (Res (BitVec w))
  | .done _ r => some r
  | _ => none

/-- The loop is run for `Rand`. -/
def IsRand (p : PC w) : Prop :=
  match p with
  | .idle => True
  | .load op | .cas op _ | .done op _ => op = .rand
  | _ => False

structure CInv (a c s0 : BitVec w) (τ : List (Ev (Op w) (Res (BitVec w)))) (s : St w) : Prop where
  rand : ∀ t, IsRand (s.pc t)
  ex : ∃ n L, Tracks L (fun t => about (s.pc t)) ∧ s.seed = (next a c)^[n] s0 ∧
    (returned τ ++ L.map Prod.snd).Perm ((List.range n).map fun i => .ok ((next a c)^[i + 1] s0))

theorem isRand_set {f : Nat → PC w} (h : ∀ t, IsRand (f t)) (t : Nat) (p : PC w) (hp : IsRand p) : ∀ t', IsRand (setAt f t p t') := by
  intro t'
  by_cases e : t' = t
  · subst e; rw [setAt_same]; exact hp
  · rw [setAt_ne _ _ _ _ e]; exact h t'

theorem about_keep {L : List (Nat × Res (BitVec w))} {f : Nat → PC w} (h : Tracks L (fun t => about (f t))) (t : Nat) (p : PC w)
    (h0 : about p = about (f t)) : Tracks L (fun t' => about (setAt f t p t')) := by
  refine h.keep (fun t' => ?_)
  by_cases e : t' = t
  · subst e; simp only [setAt_same, h0]
  · simp only [setAt_ne _ _ _ _ e]

theorem cinv_step {a c s0 : BitVec w} {τ : List (Ev (Op w) (Res (BitVec w)))} {s s' : St w} {e : Option (Ev (Op w) (Res (BitVec w)))}
    (h : CInv a c s0 τ s) (hs : Step a c s e s') (hd : OnlyRand e) : CInv a c s0 (τ ++ e.toList) s' := by
  obtain ⟨hr, n, L, hL, hseed, hperm⟩ := h
  cases hs with
  | call t op hp =>
    obtain rfl := hd t op rfl
    refine ⟨isRand_set hr t _ rfl, n, L, about_keep hL t _ (by rw [hp]; rfl), hseed, ?_⟩
    simpa [returned_append, returned] using hperm
  | load t op hp =>
    have := hr t; rw [hp] at this
    exact ⟨isRand_set hr t _ this, n, L, about_keep hL t _ (by rw [hp]; rfl), hseed, by simpa using hperm⟩
  | casFail t op o hp ho =>
    have := hr t; rw [hp] at this
    exact ⟨isRand_set hr t _ this, n, L, about_keep hL t _ (by rw [hp]; rfl), hseed, by simpa using hperm⟩
  | casOk t op o hp ho =>
    have hop : op = .rand := by have := hr t; rw [hp] at this; exact this
    subst hop
    refine ⟨isRand_set hr t _ rfl, n + 1, _, hL.add t (.ok (next a c o)) (by simp only [hp]; rfl)
      (by simp only [setAt_same]; rfl) (fun t' e => by simp only [setAt_ne _ _ _ _ e]), ?_, ?_⟩
    · simp only [Function.iterate_succ', Function.comp, ← hseed, ho]
    · simp only [Option.toList, List.append_nil, List.map_cons, List.range_succ, List.map_append, List.map_nil]
      refine List.perm_middle.trans ?_
      refine (List.Perm.cons _ hperm).trans ?_
      rw [Function.iterate_succ', Function.comp, ← hseed, ho]
      exact (List.perm_append_singleton _ _).symm
  | seed t hp => have := hr t; rw [hp] at this; exact this.elim
  | swap t v hp => have := hr t; rw [hp] at this; exact this.elim
  | ret t op r hp =>
    obtain ⟨L', hL', hT⟩ := hL.rem t r (by simp only [hp]; rfl) (f' := fun t' => about (setAt s.pc t .idle t'))
      (by simp only [setAt_same]; rfl) (fun t' e => by simp only [setAt_ne _ _ _ _ e])
    refine ⟨isRand_set hr t _ trivial, n, L', hT, hseed, ?_⟩
    simp only [Option.toList, returned_append, returned, List.append_assoc, List.singleton_append]
    refine List.Perm.trans ?_ hperm
    exact List.Perm.append_left _ (Tracks.rem_perm hL').symm

/-- C39: when the goroutines only call `Rand`, the values returned so far, together with the values of calls that are
about to return, are exactly the first `n` values of the sequential generator, each handed out once, where `n` is
the number of successful updates; when nobody is inside a call there are no others. -/
theorem C39_each_once (a c s0 : BitVec w) {τ : List (Ev (Op w) (Res (BitVec w)))} {s : St w}
    (h : Exec (fun s e s' => Step a c s e s' ∧ OnlyRand e) (St.init s0) τ s) (hq : ∀ t, s.pc t = .idle) :
    ∃ n, s.seed = (next a c)^[n] s0 ∧
      (returned τ).Perm ((List.range n).map fun i => .ok ((next a c)^[i + 1] s0)) := by
  have hi : CInv a c s0 τ s := by
    refine Exec.invariant (CInv a c s0) ?_ (fun τ _ _ h hs => by simpa using cinv_step h hs.1 hs.2)
      (fun _ _ e _ h hs => cinv_step (e := some e) h hs.1 hs.2) h
    exact ⟨fun _ => trivial, 0, [], Tracks.nil (fun _ => rfl), rfl, by simp [returned]⟩
  obtain ⟨_, n, L, hL, hs, hp⟩ := hi
  have : L = [] := hL.eq_nil (fun t => by rw [hq]; rfl)
  subst this
  exact ⟨n, hs, by simpa using hp⟩

/-- Two goroutines: 1 loses the race once and retries. -/
example : ∃ s, Exec (Step 7368787#32 2750159#32) (St.init 1#32)
    [.call 0 .rand, .call 1 .rand, .ret 0 (.ok (next32 1)), .ret 1 (.ok (next32 (next32 1)))] s := by
  refine ⟨_, .visible (.silent (.silent (.silent (.visible (.silent (.silent (.silent (.visible (.visible (.refl _)
    (.call _ 0 .rand rfl)) (.call _ 1 .rand rfl)) (.load _ 0 .rand rfl)) (.load _ 1 .rand rfl))
    (.casOk _ 0 .rand 1#32 rfl rfl)) (.ret _ 0 .rand _ rfl)) (.casFail _ 1 .rand 1#32 rfl (by simp only [next, ne_eq]; decide)))
    (.load _ 1 .rand rfl)) (.casOk _ 1 .rand _ rfl rfl)) (.ret _ 1 .rand _ rfl)⟩

/-! ## C40 -/

theorem inRange_sorted {lo hi r : BitVec w} (h : lo.toNat ≤ hi.toNat) (hf : hi.toNat - lo.toNat + 1 < 2 ^ w) :
    ∃ v, inRange lo hi r = .ok v ∧ v.toNat = r.toNat % (hi.toNat - lo.toNat + 1) + lo.toNat := by
  have hlt : ¬ hi < lo := by rw [BitVec.lt_def]; omega
  have h1 : 1 % 2 ^ w = 1 := Nat.mod_eq_of_lt (by omega)
  have hw := hi.isLt
  have hsub : (hi - lo).toNat = hi.toNat - lo.toNat := by
    rw [BitVec.toNat_sub_of_le]
    rw [BitVec.le_def]; exact h
  have hd : (hi - lo + 1#w).toNat = hi.toNat - lo.toNat + 1 := by
    rw [BitVec.toNat_add, hsub, BitVec.toNat_ofNat, h1]
    exact Nat.mod_eq_of_lt hf
  have hd0 : hi - lo + 1#w ≠ 0#w := by
    intro e
    have := congrArg BitVec.toNat e
    rw [hd] at this
    simp at this
  refine ⟨r % (hi - lo + 1#w) + lo, by simp only [inRange, if_neg hlt, if_neg hd0], ?_⟩
  rw [BitVec.toNat_add, BitVec.toNat_umod, hd]
  have := Nat.mod_lt r.toNat (show 0 < hi.toNat - lo.toNat + 1 by omega)
  exact Nat.mod_eq_of_lt (by omega)

theorem inRange_swap (lo hi r : BitVec w) : inRange lo hi r = inRange hi lo r := by
  unfold inRange
  by_cases h1 : hi < lo
  · have h2 : ¬ lo < hi := by rw [BitVec.lt_def] at *; omega
    simp only [if_pos h1, if_neg h2]
  · by_cases h2 : lo < hi
    · simp only [if_neg h1, if_pos h2]
    · have : lo = hi := by
        apply BitVec.eq_of_toNat_eq
        rw [BitVec.lt_def] at *
        omega
      rw [this]

/-- C40: for every width, bounds (in either order) and seed, `RandRange` returns a value between the bounds, unless
the bounds span the whole type.  Missing from C40: that one case, in which the code panics, see
`C40_whole_type_panics`. -/
theorem C40_range_partial (a b r : BitVec w) (hf : max a.toNat b.toNat - min a.toNat b.toNat + 1 < 2 ^ w) :
    ∃ v, inRange a b r = .ok v ∧ min a.toNat b.toNat ≤ v.toNat ∧ v.toNat ≤ max a.toNat b.toNat := by
  rcases Nat.le_total a.toNat b.toNat with h | h
  · simp only [Nat.max_eq_right h, Nat.min_eq_left h] at *
    obtain ⟨v, e, hv⟩ := inRange_sorted (r := r) h hf
    have := Nat.mod_lt r.toNat (show 0 < b.toNat - a.toNat + 1 by omega)
    exact ⟨v, e, by omega, by omega⟩
  · simp only [Nat.max_eq_left h, Nat.min_eq_right h] at *
    rw [inRange_swap]
    obtain ⟨v, e, hv⟩ := inRange_sorted (r := r) h hf
    have := Nat.mod_lt r.toNat (show 0 < a.toNat - b.toNat + 1 by omega)
    exact ⟨v, e, by omega, by omega⟩

/-- C40: every value of the range is returned for some random number. -/
theorem C40_range_onto (a b v : BitVec w) (hf : max a.toNat b.toNat - min a.toNat b.toNat + 1 < 2 ^ w)
    (h1 : min a.toNat b.toNat ≤ v.toNat) (h2 : v.toNat ≤ max a.toNat b.toNat) : ∃ r, inRange a b r = .ok v := by
  have key : ∀ lo hi : BitVec w, lo.toNat ≤ hi.toNat → hi.toNat - lo.toNat + 1 < 2 ^ w → lo.toNat ≤ v.toNat →
      v.toNat ≤ hi.toNat → ∃ r, inRange lo hi r = .ok v := by
    intro lo hi h hf h1 h2
    refine ⟨v - lo, ?_⟩
    obtain ⟨u, e, hu⟩ := inRange_sorted (r := v - lo) h hf
    rw [e]
    congr 1
    apply BitVec.eq_of_toNat_eq
    rw [hu, BitVec.toNat_sub_of_le (by rw [BitVec.le_def]; exact h1), Nat.mod_eq_of_lt (by omega)]
    omega
  rcases Nat.le_total a.toNat b.toNat with h | h
  · simp only [Nat.max_eq_right h, Nat.min_eq_left h] at *
    exact key a b h hf h1 h2
  · simp only [Nat.max_eq_left h, Nat.min_eq_right h] at *
    obtain ⟨r, hr⟩ := key b a h hf h1 h2
    exact ⟨r, by rw [inRange_swap]; exact hr⟩

/-- C40 is false of the code when the bounds are the smallest and the largest number of the type: the length of the
range wraps to zero and `RandRange` panics, whatever the seed. -/
theorem C40_whole_type_panics (r : BitVec w) :
    inRange 0#w (BitVec.allOnes w) r = .panic ∧ inRange (BitVec.allOnes w) 0#w r = .panic := by
  have : inRange 0#w (BitVec.allOnes w) r = .panic := by
    have hlt : ¬ BitVec.allOnes w < 0#w := by rw [BitVec.lt_def]; simp
    have hd : BitVec.allOnes w - 0#w + 1#w = 0#w := by
      rw [BitVec.sub_zero]
      apply BitVec.eq_of_toNat_eq
      rw [BitVec.toNat_add, BitVec.toNat_allOnes, BitVec.toNat_ofNat]
      have := Nat.two_pow_pos w
      simp [Nat.sub_add_cancel this]
    simp only [inRange, if_neg hlt, hd, if_true]
  exact ⟨this, by rw [inRange_swap]; exact this⟩

/-- C40: `RandMax m` is below `m`, for every positive `m` and seed. -/
theorem C40_max (m r : BitVec w) (hm : m ≠ 0#w) : ∃ v, below m r = .ok v ∧ v.toNat < m.toNat := by
  have hm0 : 0 < m.toNat := by
    rcases Nat.eq_zero_or_pos m.toNat with h | h
    · exact absurd (BitVec.eq_of_toNat_eq (by simpa using h)) hm
    · exact h
  have hlt := m.isLt
  have hw : 1 % 2 ^ w = 1 := by
    refine Nat.mod_eq_of_lt ?_
    omega
  have h1 : (m - 1#w).toNat = m.toNat - 1 := by
    rw [BitVec.toNat_sub_of_le, BitVec.toNat_ofNat, hw]
    rw [BitVec.le_def, BitVec.toNat_ofNat, hw]; omega
  obtain ⟨v, e, hv⟩ := inRange_sorted (lo := 0#w) (hi := m - 1#w) (r := r) (by simp) (by rw [h1]; simp; omega)
  refine ⟨v, e, ?_⟩
  rw [hv, h1]
  simp only [BitVec.toNat_ofNat, Nat.zero_mod, Nat.add_zero, Nat.sub_zero]
  have := Nat.mod_lt r.toNat (show 0 < m.toNat - 1 + 1 by omega)
  omega

/-- `RandMax(0)` panics. -/
theorem C40_max_zero_panics (r : BitVec w) : below 0#w r = .panic := by
  have : (0#w - 1#w) = BitVec.allOnes w := by
    simp [BitVec.neg_one_eq_allOnes]
  rw [below, this]
  exact (C40_whole_type_panics r).1

example : inRange 10#32 5#32 (next32 12345#32) = .ok 7#32 := by decide
example : below 26#32 (next32 12345#32) = .ok 4#32 := by decide

/-! ## C41 -/

/-- `1 + a + a² + … + a^(n-1)`. -/
def geom (a : Nat) : Nat → Nat
  | 0 => 0
  | n + 1 => 1 + a * geom a n

theorem geom_even (a m : Nat) : geom a (2 * m) = (1 + a) * geom (a * a) m := by
  induction m with
  | zero => rfl
  | succ m ih =>
    rw [show 2 * (m + 1) = 2 * m + 1 + 1 by ring, geom, geom, ih, geom]
    ring

theorem geom_odd (a n : Nat) (ha : a % 2 = 1) : geom a n % 2 = n % 2 := by
  induction n with
  | zero => rfl
  | succ n ih =>
    rw [geom, Nat.add_mod, Nat.mul_mod, ha, ih]
    omega

/-- For `a ≡ 1 (mod 4)` the sum has exactly as many factors two as `n`. -/
theorem geom_dvd (k : Nat) : ∀ (a n : Nat), a % 4 = 1 → (2 ^ k ∣ geom a n ↔ 2 ^ k ∣ n) := by
  induction k with
  | zero => simp
  | succ k ih =>
    intro a n ha
    rcases Nat.even_or_odd' n with ⟨m, rfl | rfl⟩
    · have ha2 : a * a % 4 = 1 := by rw [Nat.mul_mod, ha]
      obtain ⟨q, hq⟩ : ∃ q, 1 + a = 2 * (2 * q + 1) := ⟨(a - 1) / 4, by omega⟩
      rw [geom_even, hq, Nat.pow_succ, Nat.mul_comm (2 ^ k) 2, Nat.mul_assoc, Nat.mul_dvd_mul_iff_left (by omega),
        Nat.mul_dvd_mul_iff_left (by omega), ← ih _ m ha2]
      constructor
      · exact fun h => (Nat.Coprime.pow_left k (by simp)).dvd_of_dvd_mul_left h
      · exact fun h => Dvd.dvd.mul_left h _
    · have h2 : 2 ∣ 2 ^ (k + 1) := ⟨2 ^ k, by ring⟩
      have ho := geom_odd a (2 * m + 1) (by omega)
      constructor
      · intro h
        have := h2.trans h
        omega
      · intro h
        have := h2.trans h
        omega

/-- The generator on the natural numbers, without reduction. -/
theorem iter_nat (a c x n : Nat) (ha : 0 < a) :
    (fun y => y * a + c)^[n] x = x + geom a n * ((a - 1) * x + c) := by
  induction n with
  | zero => simp [geom]
  | succ n ih =>
    rw [Function.iterate_succ', Function.comp, ih, geom]
    obtain ⟨b, rfl⟩ : ∃ b, a = b + 1 := ⟨a - 1, by omega⟩
    simp only [Nat.add_sub_cancel]
    ring

theorem iter_toNat (a c s : BitVec w) (n : Nat) :
    ((next a c)^[n] s).toNat = ((fun y => y * a.toNat + c.toNat)^[n] s.toNat) % 2 ^ w := by
  induction n with
  | zero => simp [Nat.mod_eq_of_lt s.isLt]
  | succ n ih =>
    rw [Function.iterate_succ', Function.iterate_succ', Function.comp, Function.comp, next, BitVec.toNat_add,
      BitVec.toNat_mul, ih]
    rw [Nat.add_mod, Nat.mod_mod, Nat.mul_mod, Nat.mod_mod, ← Nat.mul_mod, ← Nat.add_mod]

/-- Return to the seed, in terms of the sum. -/
theorem iter_fix (a c s : BitVec w) (n : Nat) (ha : a.toNat % 2 = 1) (hc : c.toNat % 2 = 1) :
    (next a c)^[n] s = s ↔ 2 ^ w ∣ geom a.toNat n := by
  have h1 : (next a c)^[n] s = s ↔ ((next a c)^[n] s).toNat = s.toNat := BitVec.toNat_inj.symm
  rw [h1, iter_toNat, iter_nat _ _ _ _ (by omega)]
  have hs := Nat.mod_eq_of_lt s.isLt
  have h2 : ∀ K, (s.toNat + K) % 2 ^ w = s.toNat ↔ 2 ^ w ∣ K := by
    intro K
    conv => lhs; rhs; rw [← hs]
    constructor
    · intro h
      have := (Nat.modEq_iff_dvd' (n := 2 ^ w) (Nat.le_add_right s.toNat K)).1 h.symm
      simpa using this
    · intro h
      have := (Nat.modEq_iff_dvd' (n := 2 ^ w) (Nat.le_add_right s.toNat K)).2 (by simpa using h)
      exact this.symm
  rw [h2]
  constructor
  · intro h
    refine Nat.Coprime.dvd_of_dvd_mul_right (Nat.Coprime.pow_left w ?_) h
    rw [Nat.coprime_two_left, Nat.odd_iff, Nat.add_mod, hc, Nat.mul_mod]
    have : (a.toNat - 1) % 2 = 0 := by omega
    rw [this]; simp
  · exact fun h => Dvd.dvd.mul_right h _

/-- Different seeds have different successors. -/
theorem next_injective (a c : BitVec w) (ha : a.toNat % 2 = 1) : Function.Injective (next a c) := by
  intro x y h
  have h1 : (x * a).toNat = (y * a).toNat := by
    have : x * a = y * a := by
      have := congrArg (· - c) h
      simpa [next] using this
    rw [this]
  rw [BitVec.toNat_mul, BitVec.toNat_mul] at h1
  have hco : Nat.gcd (2 ^ w) a.toNat = 1 := Nat.Coprime.pow_left w (by rw [Nat.coprime_two_left, Nat.odd_iff]; exact ha)
  have := Nat.ModEq.cancel_right_of_coprime (m := 2 ^ w) hco h1
  apply BitVec.eq_of_toNat_eq
  rw [Nat.ModEq, Nat.mod_eq_of_lt x.isLt, Nat.mod_eq_of_lt y.isLt] at this
  exact this

/-- C41: the 64-bit generator comes back to any seed exactly after the multiples of 2^64 steps. -/
theorem C41_period64 (s : BitVec 64) (n : Nat) : next64^[n] s = s ↔ 2 ^ 64 ∣ n := by
  have : next64 = next 4294955897#64 4094975977#64 := rfl
  rw [this, iter_fix _ _ _ _ (by simp) (by simp), geom_dvd 64 _ _ (by simp)]

/-- C41: the 32-bit generator comes back to any seed exactly after the multiples of 2^31 steps. -/
theorem C41_period32 (s : BitVec 32) (n : Nat) : next32^[n] s = s ↔ 2 ^ 31 ∣ n := by
  have : next32 = next 7368787#32 2750159#32 := rfl
  rw [this, iter_fix _ _ _ _ (by simp) (by simp)]
  have ha : (7368787#32).toNat = 7368787 := rfl
  rw [ha]
  rcases Nat.even_or_odd' n with ⟨m, rfl | rfl⟩
  · rw [geom_even, show (2 : Nat) ^ 32 = 4 * 2 ^ 30 by norm_num, show 1 + 7368787 = 4 * 1842197 by norm_num, Nat.mul_assoc,
      Nat.mul_dvd_mul_iff_left (by omega), show (2 : Nat) ^ 31 = 2 * 2 ^ 30 by norm_num, Nat.mul_dvd_mul_iff_left (by omega),
      ← geom_dvd 30 (7368787 * 7368787) m (by norm_num)]
    constructor
    · exact fun h => (Nat.Coprime.pow_left 30 (by rw [Nat.coprime_two_left, Nat.odd_iff])).dvd_of_dvd_mul_left h
    · exact fun h => Dvd.dvd.mul_left h _
  · have ho := geom_odd 7368787 (2 * m + 1) (by norm_num)
    constructor
    · intro h
      have : 2 ∣ geom 7368787 (2 * m + 1) := Dvd.dvd.trans (by norm_num) h
      omega
    · intro h
      have : 2 ∣ 2 * m + 1 := Dvd.dvd.trans (by norm_num) h
      omega

/-- C41: different seeds never give the same next value. -/
theorem C41_injective : Function.Injective next32 ∧ Function.Injective next64 :=
  ⟨next_injective _ _ (by simp), next_injective _ _ (by simp)⟩

theorem iterate_cancel {α : Type} {f : α → α} (hf : Function.Injective f) {i j : Nat} (hij : i ≤ j) {x : α}
    (h : f^[i] x = f^[j] x) : f^[j - i] x = x := by
  obtain ⟨d, rfl⟩ : ∃ d, j = i + d := ⟨j - i, by omega⟩
  rw [Function.iterate_add_apply] at h
  rw [Nat.add_sub_cancel_left]
  exact (hf.iterate i h).symm

/-- C41: from every seed the 64-bit generator reaches every state within 2^64 steps. -/
theorem C41_visits_all64 (s t : BitVec 64) : ∃ n, n < 2 ^ 64 ∧ next64^[n] s = t := by
  let f : Fin (2 ^ 64) → Fin (2 ^ 64) := fun n => (next64^[n.1] s).toFin
  have hinj : Function.Injective f := by
    intro i j h
    have h' : next64^[i.1] s = next64^[j.1] s := by
      apply BitVec.eq_of_toFin_eq; exact h
    rcases Nat.le_total i.1 j.1 with hij | hij
    · have := (C41_period64 s _).1 (iterate_cancel C41_injective.2 hij h')
      have := Nat.eq_zero_of_dvd_of_lt this (by have := j.isLt; omega)
      apply Fin.ext; omega
    · have := (C41_period64 s _).1 (iterate_cancel C41_injective.2 hij h'.symm)
      have := Nat.eq_zero_of_dvd_of_lt this (by have := i.isLt; omega)
      apply Fin.ext; omega
  obtain ⟨n, hn⟩ := Finite.surjective_of_injective hinj t.toFin
  exact ⟨n.1, n.isLt, BitVec.eq_of_toFin_eq hn⟩

/-- The weakest bit of both generators alternates, whatever the seed. -/
theorem C41_low_bit (s : BitVec 32) (s' : BitVec 64) :
    (next32 s).toNat % 2 ≠ s.toNat % 2 ∧ (next64 s').toNat % 2 ≠ s'.toNat % 2 := by
  have h1 : (7368787#32).toNat % 2 = 1 := by simp
  have h2 : (2750159#32).toNat % 2 = 1 := by simp
  have h3 : (4294955897#64).toNat % 2 = 1 := by simp
  have h4 : (4094975977#64).toNat % 2 = 1 := by simp
  constructor
  · rw [next32, next, BitVec.toNat_add, BitVec.toNat_mul, Nat.mod_mod_of_dvd _ (by norm_num : 2 ∣ 2 ^ 32), Nat.add_mod,
      Nat.mod_mod_of_dvd _ (by norm_num : 2 ∣ 2 ^ 32), Nat.mul_mod, h1, h2]
    omega
  · rw [next64, next, BitVec.toNat_add, BitVec.toNat_mul, Nat.mod_mod_of_dvd _ (by norm_num : 2 ∣ 2 ^ 64), Nat.add_mod,
      Nat.mod_mod_of_dvd _ (by norm_num : 2 ∣ 2 ^ 64), Nat.mul_mod, h3, h4]
    omega

example : next32^[3] 7#32 ≠ 7#32 := by decide
example : next64 5#64 = 25569755462#64 := by decide

/-! ## C68 -/

/-- The letters of the alphabet. -/
theorem upper_get (k : Nat) (hk : k < 26) : Go.get upper k = .ok (UInt8.ofNat (65 + k)) := by
  have h : ∀ k < 26, Go.get upper k = .ok (UInt8.ofNat (65 + k)) := by decide
  exact h k hk

theorem strLoop_succ (n : Nat) (s v : BitVec 32) (ch : UInt8) (p : List UInt8 × BitVec 32)
    (h1 : below 26#32 (next32 s) = .ok v) (h2 : Go.get upper v.toNat = .ok ch) (h3 : strLoop n (next32 s) = .ok p) :
    strLoop (n + 1) s = .ok (ch :: p.1, p.2) := by
  simp only [strLoop, h1, Res.bind_ok, h2, h3, Res.pure_eq]

theorem strLoop_spec (n : Nat) : ∀ (s : BitVec 32), ∃ l, strLoop n s = .ok (l, next32^[n] s) ∧ l.length = n ∧
    ∀ i < n, ∃ v, below 26#32 (next32^[i + 1] s) = .ok v ∧ v.toNat < 26 ∧ l[i]? = some (UInt8.ofNat (65 + v.toNat)) := by
  induction n with
  | zero => intro s; exact ⟨[], rfl, rfl, fun i hi => absurd hi (Nat.not_lt_zero i)⟩
  | succ n ih =>
    intro s
    obtain ⟨v, hv, hlt⟩ := C40_max (26#32) (next32 s) (by decide)
    have hlt' : v.toNat < 26 := hlt
    obtain ⟨l, h1, h2, h5⟩ := ih (next32 s)
    refine ⟨UInt8.ofNat (65 + v.toNat) :: l, ?_, by rw [List.length_cons, h2], fun i hi => ?_⟩
    · rw [strLoop_succ n s v _ _ hv (upper_get _ hlt') h1, Function.iterate_succ_apply]
    · rcases i with - | i
      · refine ⟨v, ?_, hlt', List.getElem?_cons_zero⟩
        rw [Nat.zero_add, Function.iterate_one]; exact hv
      · obtain ⟨u, hu1, hu, hu2⟩ := h5 i (Nat.lt_of_succ_lt_succ hi)
        refine ⟨u, ?_, hu, ?_⟩
        · rw [Function.iterate_succ_apply next32 (i + 1)]; exact hu1
        · rw [List.getElem?_cons_succ]; exact hu2

/-- C68: `strings.Rand` returns exactly `n` upper-case letters, for every length and generator state.  The letter at
position `i` is that of the alphabet whose number is the `i`-th draw below 26.  Missing from C68: the rule argument, which
the code ignores, see `C68_rule_ignored`. -/
theorem C68_rand_partial (rule : UInt64) (n : Nat) (s : BitVec 32) :
    ∃ l s', strRand rule n s = .ok (l, s') ∧ l.length = n ∧ (∀ ch ∈ l, 65 ≤ ch.toNat ∧ ch.toNat ≤ 90) ∧ s' = next32^[n] s ∧
      ∀ i < n, ∃ v, below 26#32 (next32^[i + 1] s) = .ok v ∧ l[i]? = some (UInt8.ofNat (65 + v.toNat)) := by
  obtain ⟨l, h1, h2, h3⟩ := strLoop_spec n s
  refine ⟨l, _, ?_, h2, ?_, rfl, fun i hi => ?_⟩
  · rw [strRand, if_neg (by omega), Int.toNat_natCast]; exact h1
  · intro ch hch
    obtain ⟨i, hi, rfl⟩ := List.getElem_of_mem hch
    obtain ⟨v, -, hv, e⟩ := h3 i (h2 ▸ hi)
    rw [List.getElem?_eq_getElem hi] at e
    rw [Option.some.inj e, UInt8.toNat_ofNat', Nat.mod_eq_of_lt (by omega)]
    omega
  · obtain ⟨v, hv, -, e⟩ := h3 i hi
    exact ⟨v, hv, e⟩

/-- C68 is false of the code as to the rule: the result does not depend on it at all. -/
theorem C68_rule_ignored (rule rule' : UInt64) (n : Int) (s : BitVec 32) : strRand rule n s = strRand rule' n s := rfl

/-- A negative length panics. -/
theorem C68_negative_panics (rule : UInt64) (n : Int) (s : BitVec 32) (h : n < 0) : strRand rule n s = .panic := by
  simp [strRand, h]

example : strRand 0 3 1#32 = .ok ([71, 76, 87], 2828410334#32) := by decide

example := C40_range_partial 10#32 5#32 (next32 12345#32) (by decide)
example := C40_range_onto 10#32 5#32 7#32 (by decide) (by decide) (by decide)

example := C40_max 26#32 (next32 12345#32) (by decide)

end Verif.Rand
