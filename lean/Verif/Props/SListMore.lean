import Verif.Props.SList
import Mathlib.Tactic.SplitIfs
import Mathlib.Data.Int.ModEq
/-!
# Properties C28, C29, C72 and C73: cycle detection, sorting, list concatenation and membership of the
singly linked list
-/

set_option linter.unusedSectionVars false

namespace Verif.SList
open Verif.Spec
variable {α : Type} [Inhabited α]

/-! ## C28

`(nodeNext h)^[k] p` is the pointer reached from `p` by `k` times `Next`. -/

theorem deref_eq (h : Mem α) (p : Ptr) : deref h p = if p = none then .panic else .ok (nodeNext h p) := by
  cases p <;> simp [deref, nodeNext]

/-- One round of the loop, in terms of positions. -/
theorem cycle_round (h : Mem α) (p : Ptr) (fuel k : Nat) (ok : Bool)
    (h0 : (nodeNext h)^[4 * k] p ≠ none) (h1 : (nodeNext h)^[4 * k + 1] p ≠ none)
    (h2 : (nodeNext h)^[2 * k] p ≠ none)
    (h3 : (nodeNext h)^[2 * k + 1] p ≠ none)
    (hne : (nodeNext h)^[4 * k + 2] p ≠ (nodeNext h)^[2 * k + 1] p) :
    cycleLoop (fuel + 1) h ((nodeNext h)^[2 * k] p) ((nodeNext h)^[4 * k] p) ok =
      if (nodeNext h)^[4 * k + 2] p = none ∨ (nodeNext h)^[4 * k + 3] p = none then .panic
      else cycleLoop fuel h ((nodeNext h)^[2 * (k + 1)] p) ((nodeNext h)^[4 * (k + 1)] p) false := by
  have s1 : nodeNext h ((nodeNext h)^[4 * k] p) = (nodeNext h)^[4 * k + 1] p :=
    (Function.iterate_succ_apply' _ _ _).symm
  have s2 : nodeNext h ((nodeNext h)^[4 * k + 1] p) = (nodeNext h)^[4 * k + 2] p :=
    (Function.iterate_succ_apply' _ _ _).symm
  have s3 : nodeNext h ((nodeNext h)^[4 * k + 2] p) = (nodeNext h)^[4 * k + 3] p :=
    (Function.iterate_succ_apply' _ _ _).symm
  have s4 : nodeNext h ((nodeNext h)^[4 * k + 3] p) = (nodeNext h)^[4 * (k + 1)] p :=
    (Function.iterate_succ_apply' _ _ _).symm
  have t1 : nodeNext h ((nodeNext h)^[2 * k] p) = (nodeNext h)^[2 * k + 1] p :=
    (Function.iterate_succ_apply' _ _ _).symm
  have t2 : nodeNext h ((nodeNext h)^[2 * k + 1] p) = (nodeNext h)^[2 * (k + 1)] p :=
    (Function.iterate_succ_apply' _ _ _).symm
  simp only [cycleLoop, deref_eq, if_neg h0, if_neg h1, if_neg h2, if_neg h3, s1, s2, t1, t2, Res.bind_ok,
    if_neg hne]
  by_cases h4 : (nodeNext h)^[4 * k + 2] p = none
  · simp [h4]
  · by_cases h5 : (nodeNext h)^[4 * k + 3] p = none
    · simp only [if_neg h4, s3, Res.bind_ok, if_pos h5, Res.bind_panic, if_pos (Or.inr h5)]
    · rw [if_neg (not_or.2 ⟨h4, h5⟩)]
      simp only [if_neg h4, s3, s4, Res.bind_ok, if_neg h5]

theorem cycle_acyclic {h : Mem α} {p : Ptr} {n : Nat} (hn : ∀ k, (nodeNext h)^[k] p = none ↔ n ≤ k)
    (fuel : Nat) : ∀ k, 4 * k ≤ n → n < 4 * (k + fuel) →
    cycleLoop fuel h ((nodeNext h)^[2 * k] p) ((nodeNext h)^[4 * k] p) false =
      if n % 4 ≤ 1 then .ok (some false) else .panic := by
  induction fuel with
  | zero => intro k h1 h2; omega
  | succ f ih =>
    intro k h1 h2
    by_cases e0 : n = 4 * k
    · have : (nodeNext h)^[4 * k] p = none := (hn _).2 (by omega)
      simp only [cycleLoop, if_pos this, Res.pure_eq]
      rw [if_pos (by omega)]
    have p0 : (nodeNext h)^[4 * k] p ≠ none := by rw [Ne, hn]; omega
    by_cases e1 : n = 4 * k + 1
    · have p1 : (nodeNext h)^[4 * k + 1] p = none := (hn _).2 (by omega)
      have s1 : nodeNext h ((nodeNext h)^[4 * k] p) = none := by
        rw [← p1]; exact (Function.iterate_succ_apply' _ _ _).symm
      simp only [cycleLoop, if_neg p0, deref_eq, Res.bind_ok, s1, if_true, Res.pure_eq]
      rw [if_pos (by omega)]
    have hne : (nodeNext h)^[4 * k + 2] p ≠ (nodeNext h)^[2 * k + 1] p := by
      intro e
      have e' : (nodeNext h)^[n - (4 * k + 2)] ((nodeNext h)^[4 * k + 2] p) =
        (nodeNext h)^[n - (4 * k + 2)] ((nodeNext h)^[2 * k + 1] p) := by rw [e]
      rw [← Function.iterate_add_apply, ← Function.iterate_add_apply] at e'
      have a1 := (hn (n - (4 * k + 2) + (4 * k + 2))).2 (by omega)
      rw [a1] at e'
      have := (hn _).1 e'.symm
      omega
    rw [cycle_round h p f k false p0 (by rw [Ne, hn]; omega) (by rw [Ne, hn]; omega) (by rw [Ne, hn]; omega) hne]
    by_cases e2 : n ≤ 4 * k + 3
    · have : (nodeNext h)^[4 * k + 2] p = none ∨ (nodeNext h)^[4 * k + 3] p = none := by
        right; rw [hn]; omega
      rw [if_pos this, if_neg (by omega)]
    · rw [if_neg (by rw [hn, hn]; omega)]
      exact ih (k + 1) (by omega) (by omega)

/-- C28 on a chain that ends after `n` nodes: `HasCycle` answers false when `n` is 0 or 1 modulo 4, and
dereferences nil (panics) for every other length. -/
theorem C28_acyclic {h : Mem α} {p : Ptr} {n : Nat} (hn : ∀ k, (nodeNext h)^[k] p = none ↔ n ≤ k)
    (fuel : Nat) (hf : n < 4 * fuel) :
    hasCycle fuel h p = if n % 4 ≤ 1 then .ok (some false) else .panic :=
  cycle_acyclic hn fuel 0 (by omega) (by omega)

/-- The chain from `p` runs through `μ` nodes into a cycle of `c` nodes. -/
def Lasso (h : Mem α) (p : Ptr) (μ c : Nat) : Prop :=
  0 < c ∧ (∀ k, (nodeNext h)^[k] p ≠ none) ∧
  ∀ i j, (nodeNext h)^[i] p = (nodeNext h)^[j] p ↔ i = j ∨ (μ ≤ i ∧ μ ≤ j ∧ i % c = j % c)

/-- C28 on a chain that runs into a cycle of odd length: `HasCycle` answers true. -/
theorem C28_odd_cycle {h : Mem α} {p : Ptr} {μ c : Nat} (hl : Lasso h p μ c) (hodd : c % 2 = 1) :
    ∃ F, ∀ fuel, F ≤ fuel → hasCycle fuel h p = .ok (some true) := by
  obtain ⟨hc, hp, he⟩ := hl
  -- the round in which both pointers meet: 2k+1 = c * (2μ+1)
  have main : ∀ d k fuel, 2 * (k + d) + 1 = c * (2 * μ + 1) → d < fuel →
      cycleLoop fuel h ((nodeNext h)^[2 * k] p) ((nodeNext h)^[4 * k] p) false = .ok (some true) := by
    intro d
    induction d with
    | zero =>
      intro k fuel hk hf
      obtain ⟨f, rfl⟩ : ∃ f, fuel = f + 1 := ⟨fuel - 1, by omega⟩
      have s1 : nodeNext h ((nodeNext h)^[4 * k] p) = (nodeNext h)^[4 * k + 1] p :=
        (Function.iterate_succ_apply' _ _ _).symm
      have s2 : nodeNext h ((nodeNext h)^[4 * k + 1] p) = (nodeNext h)^[4 * k + 2] p :=
        (Function.iterate_succ_apply' _ _ _).symm
      have t1 : nodeNext h ((nodeNext h)^[2 * k] p) = (nodeNext h)^[2 * k + 1] p :=
        (Function.iterate_succ_apply' _ _ _).symm
      have hge : μ ≤ 2 * k + 1 := by
        have : 1 * (2 * μ + 1) ≤ c * (2 * μ + 1) := Nat.mul_le_mul_right _ hc
        omega
      have heq : (nodeNext h)^[4 * k + 2] p = (nodeNext h)^[2 * k + 1] p := by
        rw [he]; right
        refine ⟨by omega, hge, ?_⟩
        have h1 : 2 * k + 1 = c * (2 * μ + 1) := by omega
        have h2 : 4 * k + 2 = c * (2 * (2 * μ + 1)) := by rw [Nat.mul_left_comm]; omega
        rw [h1, h2]; simp
      simp only [cycleLoop, if_neg (hp _), deref_eq, Res.bind_ok, s1, s2, t1, heq, if_true, Res.pure_eq]
    | succ d ih =>
      intro k fuel hk hf
      obtain ⟨f, rfl⟩ : ∃ f, fuel = f + 1 := ⟨fuel - 1, by omega⟩
      by_cases heq : (nodeNext h)^[4 * k + 2] p = (nodeNext h)^[2 * k + 1] p
      · have s1 : nodeNext h ((nodeNext h)^[4 * k] p) = (nodeNext h)^[4 * k + 1] p :=
          (Function.iterate_succ_apply' _ _ _).symm
        have s2 : nodeNext h ((nodeNext h)^[4 * k + 1] p) = (nodeNext h)^[4 * k + 2] p :=
          (Function.iterate_succ_apply' _ _ _).symm
        have t1 : nodeNext h ((nodeNext h)^[2 * k] p) = (nodeNext h)^[2 * k + 1] p :=
          (Function.iterate_succ_apply' _ _ _).symm
        simp only [cycleLoop, if_neg (hp _), deref_eq, Res.bind_ok, s1, s2, t1, heq, if_true, Res.pure_eq]
      · rw [cycle_round h p f k false (hp _) (hp _) (hp _) (hp _) heq, if_neg (by rintro (e | e) <;> exact hp _ e)]
        exact ih (k + 1) f (by omega) (by omega)
  have hcm : (c * (2 * μ + 1)) % 2 = 1 := by
    rw [Nat.mul_mod, hodd]; omega
  refine ⟨c * (2 * μ + 1) / 2 + 1, fun fuel hf => ?_⟩
  exact main (c * (2 * μ + 1) / 2) 0 fuel (by omega) (by omega)

/-- C28 on a chain that runs into a cycle of even length: `HasCycle` never returns, however long it runs. -/
theorem C28_even_cycle_diverges {h : Mem α} {p : Ptr} {μ c : Nat} (hl : Lasso h p μ c) (heven : c % 2 = 0)
    (fuel : Nat) : hasCycle fuel h p = .ok none := by
  obtain ⟨hc, hp, he⟩ := hl
  have main : ∀ fuel k, cycleLoop fuel h ((nodeNext h)^[2 * k] p) ((nodeNext h)^[4 * k] p) false = .ok none := by
    intro fuel
    induction fuel with
    | zero => intro k; rfl
    | succ f ih =>
      intro k
      have hne : (nodeNext h)^[4 * k + 2] p ≠ (nodeNext h)^[2 * k + 1] p := by
        rw [Ne, he]
        rintro (e | ⟨_, _, e⟩)
        · omega
        · have e' := congrArg (· % 2) e
          rw [Nat.mod_mod_of_dvd _ (Nat.dvd_of_mod_eq_zero heven),
            Nat.mod_mod_of_dvd _ (Nat.dvd_of_mod_eq_zero heven)] at e'
          omega
      rw [cycle_round h p f k false (hp _) (hp _) (hp _) (hp _) hne, if_neg (by rintro (e | e) <;> exact hp _ e)]
      exact ih (k + 1)
  exact main fuel 0

/-- C28, the part that holds (missing: chains of other lengths and even cycles): on acyclic chains of length
0 or 1 modulo 4 and on chains into an odd cycle, `HasCycle` terminates and is right. -/
theorem C28_hasCycle_partial {h : Mem α} {p : Ptr} :
    (∀ n, (∀ k, (nodeNext h)^[k] p = none ↔ n ≤ k) → n % 4 ≤ 1 →
      ∃ F, ∀ fuel, F ≤ fuel → hasCycle fuel h p = .ok (some false)) ∧
    (∀ μ c, Lasso h p μ c → c % 2 = 1 → ∃ F, ∀ fuel, F ≤ fuel → hasCycle fuel h p = .ok (some true)) := by
  refine ⟨fun n hn h4 => ⟨n + 1, fun fuel hf => ?_⟩, fun μ c hl ho => C28_odd_cycle hl ho⟩
  rw [C28_acyclic hn fuel (by omega), if_pos h4]

/-- Nodes `0 → 1 → … → 4 → 2`: a stem of two nodes into a cycle of three. -/
def lassoMem (μ c : Nat) : Mem Int := fun a =>
  match a with
  | .nd k => if k + 1 < μ + c then ⟨0, some (.nd (k + 1))⟩ else ⟨0, some (.nd μ)⟩
  | .hd _ => ⟨0, none⟩

/-- The hypotheses of the two cycle theorems are satisfiable for every stem and cycle length. -/
theorem lassoMem_lasso (μ c : Nat) (hc : 0 < c) : Lasso (lassoMem μ c) (some (.nd 0)) μ c := by
  have key : ∀ k, (nodeNext (lassoMem μ c))^[k] (some (.nd 0)) =
      some (.nd (if k < μ then k else μ + (k - μ) % c)) := by
    intro k
    induction k with
    | zero => by_cases h : 0 < μ <;> simp [h]; omega
    | succ k ih =>
      rw [Function.iterate_succ_apply', ih]
      by_cases h1 : k < μ
      · simp only [if_pos h1, nodeNext, lassoMem]
        rw [if_pos (by omega)]
        by_cases h2 : k + 1 < μ
        · simp [h2]
        · have : k + 1 - μ = 0 := by omega
          simp [h2, this]; omega
      · simp only [if_neg h1, nodeNext, lassoMem, if_neg (show ¬ k + 1 < μ by omega)]
        have hlt := Nat.mod_lt (k - μ) hc
        have e : k + 1 - μ = k - μ + 1 := by omega
        rw [e]
        by_cases h2 : (k - μ) % c + 1 < c
        · rw [if_pos (by omega)]
          rw [Nat.add_mod, Nat.mod_eq_of_lt (show 1 < c by omega), Nat.mod_eq_of_lt h2]; simp [Nat.add_assoc]
        · rw [if_neg (by omega)]
          have h3 : (k - μ) % c = c - 1 := by omega
          by_cases h4 : c = 1
          · subst h4; simp [Nat.mod_one]
          · rw [Nat.add_mod, Nat.mod_eq_of_lt (show 1 < c by omega), h3,
              show c - 1 + 1 = c by omega]; simp
  refine ⟨hc, fun k => by rw [key]; simp, fun i j => ?_⟩
  rw [key, key]
  simp only [Option.some.injEq, Addr.nd.injEq]
  have hi := Nat.mod_lt (i - μ) hc
  have hj := Nat.mod_lt (j - μ) hc
  have shift : ∀ a b, μ ≤ a → μ ≤ b → (((a - μ) % c = (b - μ) % c) ↔ a % c = b % c) := by
    intro a b ha hb
    obtain ⟨a', rfl⟩ := Nat.exists_eq_add_of_le ha
    obtain ⟨b', rfl⟩ := Nat.exists_eq_add_of_le hb
    simp only [Nat.add_sub_cancel_left]
    constructor
    · intro e; rw [Nat.add_mod, e, ← Nat.add_mod]
    · intro e
      exact Nat.ModEq.add_left_cancel' μ e
  split_ifs with h1 h2 h2
  · omega
  · constructor
    · intro e; omega
    · rintro (e | ⟨e, _⟩) <;> omega
  · constructor
    · intro e; omega
    · rintro (e | ⟨_, e, _⟩) <;> omega
  · rw [← shift i j (by omega) (by omega)]
    constructor
    · intro e; right; exact ⟨by omega, by omega, by omega⟩
    · rintro (e | ⟨_, _, e⟩)
      · rw [e]
      · rw [e]

example : Lasso (lassoMem 2 3) (some (.nd 0)) 2 3 := lassoMem_lasso 2 3 (by decide)
example : hasCycle 20 (lassoMem 2 3) (some (.nd 0)) = .ok (some true) := by decide
example : hasCycle 12 (lassoMem 2 2) (some (.nd 0)) = .ok none := by decide
/-- A chain of two nodes on which `HasCycle` panics. -/
example : hasCycle 50 sampleMem (some (.nd 4)) = .panic := by decide

/-! ## C29 -/

/-- C29 fails: on every list with two or more nodes `Sort` panics (`binList[-1]`). -/
theorem C29_sort_panics (less : α → α → Bool) {h : Mem α} {l : Nat} {a b : Nat} {t : List Nat}
    (hl : ∀ k, (nodeNext h)^[k] (front h l) = (a :: b :: t)[k]?.map .nd) (fuel hand uns : Nat) (bin : Nat → Nat) :
    sort less (fuel + 1) h l hand uns bin = some .panic := by
  have h0 : (h (.hd l)).next = some (.nd a) := hl 0
  have h1 : (h (.nd a)).next = some (.nd b) := by
    have := hl 1
    simpa [nodeNext, front, h0] using this
  simp only [sort, h0, h1, mergeSort]
  simp [sortLoop, empty, setNext, collectLoop]

/-- C29, the part that holds (missing: lists of two or more elements): with at most one node `Sort` does
nothing. -/
theorem C29_sort_partial (less : α → α → Bool) {h : Mem α} {l : Nat}
    (hl : nodeNext h (front h l) = none) (fuel hand uns : Nat) (bin : Nat → Nat) :
    sort less fuel h l hand uns bin = some (.ok h) := by
  unfold sort
  cases e : (h (.hd l)).next with
  | none => rfl
  | some a =>
    have : (h a).next = none := by simpa [nodeNext, front, e] using hl
    simp [this]

example : sort (fun a b : Int => decide (a < b)) 5 sampleMem 0 7 8 (· + 9) = some .panic := by
  exact C29_sort_panics _ (a := 4) (b := 2) (t := [])
    (follow (show Seg sampleMem (front sampleMem 0) [4, 2] none by decide)) 4 7 8 (· + 9)

/-! ## C72: `PushFrontList` -/

/-- C72, the part that holds (missing: `other` ends empty): `PushFrontList` puts the elements of the other list in front, in order; but the other list object is
not emptied: when it had elements, both lists afterwards consist of the same nodes, all of them. -/
theorem C72_pushFrontList_partial {h : Mem α} {l o : Nat} {xs ys : List Nat} (hlo : l ≠ o)
    (hx : Seg h (front h l) xs none) (hy : Seg h (front h o) ys none) (hnd : (ys ++ xs).Nodup)
    (fuel : Nat) (hf : ys.length ≤ fuel) :
    ∃ h', pushFrontList fuel h l o = some h' ∧
      (∀ k, (nodeNext h')^[k] (front h' l) = (ys ++ xs)[k]?.map .nd) ∧
      (∀ k, (nodeNext h')^[k] (front h' o) = (if ys = [] then [] else ys ++ xs)[k]?.map .nd) ∧
      ∀ a, (h' a).val = (h a).val := by
  cases ys with
  | nil =>
    have : (h (.hd o)).next = none := hy
    refine ⟨h, by simp [pushFrontList, this, tail], fun k => follow hx k, fun k => ?_, fun _ => rfl⟩
    exact follow hy k
  | cons y t =>
    have h0 : (h (.hd o)).next = some (.nd y) := hy.1
    have ht := tailLoop_ok t (.nd y) fuel 1 hy.2 (by simp at hf; omega)
    have hlast : lastOr (.nd y) t = lastOr (.hd o) (y :: t) := rfl
    rw [List.nodup_append] at hnd
    obtain ⟨n1, n2, n3⟩ := hnd
    have hho : ∀ j, lastOr (.nd y) t ≠ .hd j := by
      intro j
      rcases lastOr_cases (.nd y) t with ⟨e, _⟩ | ⟨z, _, e⟩ <;> rw [e] <;> simp
    have s1 := Seg.retarget (h := h) (b := .hd o) (A := y :: t) (r := none) (h (.hd l)).next hy (by simp) n1
    rw [← hlast] at s1
    have s2 : Seg (setNext h (lastOr (.nd y) t) (h (.hd l)).next) (h (.hd l)).next xs none := by
      refine Seg.frame hx (fun x hxx => ?_)
      rw [setNext_ne]
      have : lastOr (.hd o) (y :: t) ≠ .nd x := lastOr_notMem (by simp) (fun hm => n3 x hm x hxx rfl)
      rw [hlast]; exact this.symm
    have s3 := Seg.append.2 ⟨_, s1, s2⟩
    have hne : (Addr.hd o) ≠ .hd l := by simpa using Ne.symm hlo
    have e1 : (setNext h (lastOr (.nd y) t) (h (.hd l)).next (.hd o)).next = some (.nd y) := by
      rw [setNext_ne _ _ _ _ (hho o).symm, h0]
    refine ⟨_, by simp [pushFrontList, h0, tail, ht]; rfl, fun k => follow ?_ k, fun k => ?_, fun a => by simp⟩
    · refine Seg.frame ?_ (fun x _ => by rw [setNext_ne _ _ _ _ (by simp)])
      simp only [front, setNext_self]
      rw [setNext_ne _ _ _ _ (hho o).symm] at s3
      rw [setNext_ne _ _ _ _ (hho o).symm]
      exact s3
    · rw [if_neg (by simp)]
      refine follow ?_ k
      simp only [front]
      rw [setNext_ne _ _ _ _ hne]
      exact Seg.frame s3 (fun x _ => by rw [setNext_ne _ _ _ _ (by simp)])

/-- Two lists to which C72 applies. -/
def twoMem : Mem Int := fun a =>
  if a = .hd 0 then ⟨0, some (.nd 4)⟩ else if a = .nd 4 then ⟨1, none⟩
  else if a = .hd 1 then ⟨0, some (.nd 7)⟩ else if a = .nd 7 then ⟨1, some (.nd 8)⟩ else ⟨2, none⟩
example : Seg twoMem (front twoMem 0) [4] none ∧ Seg twoMem (front twoMem 1) [7, 8] none ∧
    ([7, 8] ++ [4]).Nodup := by decide

/-! ## C73: `Reachable` and `IsValidNode` -/

/-- C73 fails: `Reachable` only recognises the start node itself, never a node behind it. -/
theorem C73_reachable_only_self (p q : Ptr) : reachable p q = true ↔ p = q ∧ p ≠ none := by
  simp [reachable]

/-- C73 fails for membership: `IsValidNode` is true exactly for the first node of the list. -/
theorem C73_isValidNode_only_front {h : Mem α} {l : Nat} {xs : List Nat}
    (hl : ∀ k, (nodeNext h)^[k] (front h l) = xs[k]?.map .nd) (x : Nat) :
    isValidNode h l (some (.nd x)) = true ↔ xs.head? = some x := by
  have h0 : (h (.hd l)).next = xs[0]?.map .nd := hl 0
  cases xs with
  | nil => simp [isValidNode, reachable, h0]
  | cons a t => simp [isValidNode, reachable, h0]

/-- C73, the part that holds (missing: completeness): a node accepted by `IsValidNode` is in the list. -/
theorem C73_isValidNode_partial {h : Mem α} {l : Nat} {xs : List Nat}
    (hl : ∀ k, (nodeNext h)^[k] (front h l) = xs[k]?.map .nd) (x : Nat)
    (hv : isValidNode h l (some (.nd x)) = true) : x ∈ xs :=
  List.mem_of_head? ((C73_isValidNode_only_front hl x).1 hv)

example : isValidNode sampleMem 0 (some (.nd 4)) = true ∧ isValidNode sampleMem 0 (some (.nd 2)) = false := by
  decide

example := C73_isValidNode_only_front (h := sampleMem) (l := 0) (xs := [4, 2])
  (follow (show Seg sampleMem (front sampleMem 0) [4, 2] none by decide)) 4
example := C28_odd_cycle (lassoMem_lasso 2 3 (by decide)) (by decide)
example := C28_acyclic (h := sampleMem) (p := front sampleMem 0) (n := 2)
  (fun k => by
    rw [follow (show Seg sampleMem (front sampleMem 0) [4, 2] none by decide) k]
    simp) 1 (by decide)

example := C28_even_cycle_diverges (lassoMem_lasso 2 4 (by decide)) (by decide) 1000

end Verif.SList
