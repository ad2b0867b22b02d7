import Verif.Lemmas.DListCost
import Verif.Props.DListSort
import Mathlib.Data.Nat.Log
/-!
# C137: sorting the doubly linked list with any comparator, and how many comparisons it makes
-/

set_option linter.unusedSectionVars false

namespace Verif.DList
open Verif.Spec Verif.Cmp
variable {α : Type}

/-! ## The number of comparisons -/

theorem mergeAsks_len {ν : Type} (le : ν → ν → Bool) (P O : List ν) : (mergeAsks le P O).length ≤ P.length + O.length := by
  fun_induction mergeAsks le P O with
  | case1 => simp
  | case2 => simp
  | case3 p P o O ih1 ih2 =>
    simp only [List.length_cons] at ih1 ih2 ⊢
    split <;> omega

/-- Each element pays for the index of its bin. -/
def pot {ν : Type} : Nat → List (List ν) → Nat
  | _, [] => 0
  | i, b :: bs => i * b.length + pot (i + 1) bs

theorem carry_cost {ν : Type} (le : ν → ν → Bool) (bs : List (List ν)) : ∀ (i : Nat) (H : List ν),
    (carry le H bs).2.length + i * H.length + pot i bs ≤ pot i (carry le H bs).1 := by
  induction bs with
  | nil => intro i H; simp [carry, pot]
  | cons b bs ih =>
    intro i H
    cases b with
    | nil => simp [carry, pot]
    | cons x b =>
      have h1 := ih (i + 1) (List.merge (x :: b) H le)
      have h2 := mergeAsks_len le (x :: b) H
      rw [(List.merge_perm_append _).length_eq, List.length_append] at h1
      simp only [carry, pot, List.length_append, List.length_nil, Nat.mul_zero, Nat.zero_add]
      simp only [Nat.add_mul, Nat.mul_add, Nat.one_mul] at h1 ⊢
      omega

theorem dist_cost {ν : Type} (le : ν → ν → Bool) (l : List ν) : ∀ bs : List (List ν),
    (dist le l bs).2.length + pot 0 bs ≤ pot 0 (dist le l bs).1 := by
  induction l with
  | nil => intro bs; simp [dist]
  | cons x l ih =>
    intro bs
    have h1 := ih (carry le [x] bs).1
    have h2 := carry_cost le bs 0 [x]
    simp only [dist, List.length_append]
    omega

theorem coll_cost {ν : Type} (le : ν → ν → Bool) (bs : List (List ν)) : ∀ (i : Nat) (acc : List ν), Cnt i bs → acc.length < 2 ^ i →
    (coll le acc bs).2.length + acc.length * Nat.clog 2 acc.length + pot i bs ≤
      (acc.length + bs.flatten.length) * Nat.clog 2 (acc.length + bs.flatten.length) := by
  induction bs with
  | nil => intro i acc _ _; simp [coll, pot]
  | cons b bs ih =>
    intro i acc hc hi
    obtain ⟨h1, _, h3⟩ := hc
    have hm : (List.merge b acc le).length = b.length + acc.length := by rw [(List.merge_perm_append _).length_eq, List.length_append]
    have hb : b.length ≤ 2 ^ i := by rcases h1 with rfl | h1 <;> simp [*]
    have hr := ih (i + 1) (List.merge b acc le) h3 (by rw [hm, Nat.pow_succ]; omega)
    rw [hm] at hr
    have e1 : acc.length + (b :: bs).flatten.length = b.length + acc.length + bs.flatten.length := by simp; omega
    rw [e1]
    refine Nat.le_trans ?_ hr
    simp only [coll, pot, List.length_append]
    suffices hs : (mergeAsks le b acc).length + acc.length * Nat.clog 2 acc.length + i * b.length ≤
        (b.length + acc.length) * Nat.clog 2 (b.length + acc.length) by omega
    by_cases hb0 : b = []
    · subst hb0; simp [mergeAsks_nil_left]
    · have hbl := h1.resolve_left hb0
      by_cases ha : acc = []
      · subst ha
        simp [mergeAsks_nil_right, hbl, Nat.clog_pow, Nat.mul_comm]
      · have hpos : 0 < acc.length := List.length_pos_iff.2 ha
        have hk : Nat.clog 2 (b.length + acc.length) = i + 1 := by
          apply Nat.le_antisymm
          · exact (Nat.clog_le_iff_le_pow (by decide)).2 (by rw [Nat.pow_succ]; omega)
          · exact (Nat.lt_clog_iff_pow_lt (by decide)).2 (by omega)
        have hka : Nat.clog 2 acc.length ≤ i := (Nat.clog_le_iff_le_pow (by decide)).2 (by omega)
        have := mergeAsks_len le b acc
        have h4 : acc.length * Nat.clog 2 acc.length ≤ acc.length * i := Nat.mul_le_mul_left _ hka
        rw [hk, Nat.mul_add, Nat.mul_one, Nat.add_mul, Nat.mul_comm i]
        omega

theorem binSort_cost {ν : Type} (le : ν → ν → Bool) (l : List ν) : (binSort le l).2.length ≤ l.length * Nat.clog 2 l.length := by
  have h1 := dist_cost le l []
  have h2 := coll_cost le (dist le l []).1 0 [] (dist_cnt le l [] trivial) (by simp)
  have h3 := (dist_perm le l []).length_eq
  simp only [List.flatten_nil, List.append_nil] at h3
  rw [h3] at h2
  simp only [binSort, List.length_append, List.length_nil, Nat.zero_add, Nat.zero_mul, pot, Nat.add_zero] at h1 h2 ⊢
  omega

theorem binSort_perm {ν : Type} (le : ν → ν → Bool) (l : List ν) : (binSort le l).1.Perm l := by
  have h1 := dist_perm le l []
  have h2 := coll_perm le (dist le l []).1 []
  simp only [List.flatten_nil, List.append_nil, List.nil_append] at h1 h2
  exact h2.trans h1

/-! ## Only the answers matter -/

/-- Two comparators give the same answers to these questions. -/
def Same {ν : Type} (f g : ν → ν → Bool) (l : List (ν × ν)) : Prop := ∀ q ∈ l, f q.2 q.1 = g q.2 q.1

theorem merge_same {ν : Type} (f g : ν → ν → Bool) (P O : List ν) : Same f g (mergeAsks f P O) →
    List.merge P O f = List.merge P O g ∧ mergeAsks f P O = mergeAsks g P O := by
  fun_induction mergeAsks f P O with
  | case1 => intro _; simp [mergeAsks]
  | case2 => intro _; simp [mergeAsks]
  | case3 p P o O ih1 ih2 =>
    intro hs
    have h1 : f p o = g p o := hs (o, p) (by simp)
    cases h : f p o with
    | true =>
      rw [h] at h1
      obtain ⟨e1, e2⟩ := ih1 fun q hq => hs q (by simp [h, hq])
      simp [mergeAsks, h, ← h1, e1, e2]
    | false =>
      rw [h] at h1
      obtain ⟨e1, e2⟩ := ih2 fun q hq => hs q (by simp [h, hq])
      simp [mergeAsks, h, ← h1, e1, e2]

theorem carry_same {ν : Type} (f g : ν → ν → Bool) (bs : List (List ν)) : ∀ H : List ν, Same f g (carry f H bs).2 →
    carry f H bs = carry g H bs := by
  induction bs with
  | nil => intros; rfl
  | cons b bs ih =>
    intro H hs
    cases b with
    | nil => rfl
    | cons x b =>
      simp only [carry] at hs ⊢
      obtain ⟨e1, e2⟩ := merge_same f g (x :: b) H fun q hq => hs q (List.mem_append_left _ hq)
      have := ih _ fun q hq => hs q (List.mem_append_right _ hq)
      rw [e2, this, e1]

theorem dist_same {ν : Type} (f g : ν → ν → Bool) (l : List ν) : ∀ bs, Same f g (dist f l bs).2 → dist f l bs = dist g l bs := by
  induction l with
  | nil => intros; rfl
  | cons x l ih =>
    intro bs hs
    simp only [dist] at hs ⊢
    have e1 := carry_same f g bs [x] fun q hq => hs q (List.mem_append_left _ hq)
    have e2 := ih _ fun q hq => hs q (List.mem_append_right _ hq)
    rw [e2, e1]

theorem coll_same {ν : Type} (f g : ν → ν → Bool) (bs : List (List ν)) : ∀ acc, Same f g (coll f acc bs).2 →
    coll f acc bs = coll g acc bs := by
  induction bs with
  | nil => intros; rfl
  | cons b bs ih =>
    intro acc hs
    simp only [coll] at hs ⊢
    obtain ⟨e1, e2⟩ := merge_same f g b acc fun q hq => hs q (List.mem_append_left _ hq)
    have e3 := ih _ fun q hq => hs q (List.mem_append_right _ hq)
    rw [e2, e3, e1]

theorem binSort_same {ν : Type} (f g : ν → ν → Bool) (l : List ν) (hs : Same f g (binSort f l).2) : binSort f l = binSort g l := by
  simp only [binSort] at hs ⊢
  have e1 := dist_same f g l [] fun q hq => hs q (List.mem_append_left _ hq)
  have e2 := coll_same f g (dist f l []).1 [] fun q hq => hs q (List.mem_append_right _ hq)
  rw [e2, e1]

/-! ## The theorems -/

/-- **C137** `Sort` with its comparisons recorded does what `Sort` does. -/
theorem C137_same (lt : α → α → Bool) (fuel : Nat) (h : Mem α) (head : Ptr) :
    (∀ h' head' log, mergeSortC lt fuel h head = .ok (some ((h', head'), log)) → mergeSort lt fuel h head = .ok (some (h', head'))) ∧
    (∀ h' head', mergeSort lt fuel h head = .ok (some (h', head')) → ∃ log, mergeSortC lt fuel h head = .ok (some ((h', head'), log))) := by
  have hb := mergeSortC_bare lt fuel h head
  constructor
  · intro h' head' log e
    rw [← hb, e, bare_some]
  · intro h' head' e
    rw [e] at hb
    rcases hm : mergeSortC lt fuel h head with (_ | ⟨x, l⟩) | _
    · rw [hm] at hb; cases hb
    · rw [hm, bare_some] at hb
      cases hb
      exact ⟨l, rfl⟩
    · rw [hm] at hb; cases hb

/-- **C137** Whatever the comparator answers — it need not be an order — `Sort` of a list of fewer than 2^64 nodes returns, without
panic.  It leaves a consistent ring of exactly the old nodes, no value is changed, no other node is touched, and a list of `n`
nodes costs at most `n · ⌈log₂ n⌉` comparisons. -/
theorem C137_any_comparator (lt : α → α → Bool) (h : Mem α) (head : Ptr) (l : List Nat)
    (hh : Holds h head l) (hl64 : l.length < 2 ^ 64) (fuel : Nat) (hfuel : l.length + 64 < fuel) :
    ∃ h' head' r log, mergeSortC lt fuel h head = .ok (some ((h', head'), log)) ∧ Holds h' head' r ∧ r.Perm l ∧
      (∀ x, (h' x).val = (h x).val) ∧ (∀ y, y ∉ l → h' y = h y) ∧ log.length ≤ l.length * Nat.clog 2 l.length := by
  obtain ⟨h', head', e, r1, r2, r3⟩ := mergeSortC_spec lt h head l hh hl64 fuel hfuel
  exact ⟨h', head', _, _, e, r1, binSort_perm _ _, r2, r3, by simpa [vals] using binSort_cost _ l⟩

/-- **C137** The result depends on the answers only: a comparator that answers the same to the questions asked in one run is
asked the same questions and gives the same order. -/
theorem C137_questions (f g : α → α → Bool) (h : Mem α) (head : Ptr) (l : List Nat)
    (hh : Holds h head l) (hl64 : l.length < 2 ^ 64) (fuel : Nat) (hfuel : l.length + 64 < fuel) (h1 : Mem α) (head1 : Ptr)
    (log : List (α × α)) (hf : mergeSortC f fuel h head = .ok (some ((h1, head1), log)))
    (hsame : ∀ q ∈ log, f q.1 q.2 = g q.1 q.2) :
    ∃ h2 head2 r, mergeSortC g fuel h head = .ok (some ((h2, head2), log)) ∧ Holds h1 head1 r ∧ Holds h2 head2 r := by
  obtain ⟨h1', head1', e, r1, _, _⟩ := mergeSortC_spec f h head l hh hl64 fuel hfuel
  rw [hf] at e
  cases e
  have hs := binSort_same (mle f fun x => (h x).val) (mle g fun x => (h x).val) l (by
    intro q hq
    have := hsame ((h q.1).val, (h q.2).val) (List.mem_map.2 ⟨q, hq, rfl⟩)
    simp only [mle]
    rw [this])
  obtain ⟨h2, head2, e2, s1, _, _⟩ := mergeSortC_spec g h head l hh hl64 fuel hfuel
  rw [← hs] at e2 s1
  exact ⟨h2, head2, _, e2, r1, s1⟩

/-- Not an order, and five nodes: five comparisons (at most `5 · ⌈log₂ 5⌉ = 15`) and the list turned round. -/
example : (match mergeSortC (fun _ _ => true) 70 exSort (some 0) with
    | .ok (some ((h, hd), log)) => (log.length, hd, [4, 3, 2, 1, 0].map fun x => (h x).next)
    | _ => (0, none, [])) = (5, some 4, [some 3, some 2, some 1, some 0, some 4]) := by decide +kernel

/-- With the order on the integers: the questions, in order. -/
example : (match mergeSortC intLt 70 exSort (some 0) with
    | .ok (some (_, log)) => log
    | _ => []) = [(1, 3), (1, 2), (1, 1), (1, 3), (2, 3), (0, 1)] := by decide +kernel

example := C137_any_comparator (fun _ _ => true) exSort (some 0) [0, 1, 2, 3, 4] (by simp [Holds, Ring, Chain, Link, exSort])
  (by decide) 70 (by decide)

end Verif.DList
