import Verif.Props.RingExact
/-!
# C126: the memory of queue and deque
-/

set_option linter.unusedSectionVars false

namespace Verif.Spec
variable {α : Type} [Inhabited α]

theorem queueReal_room (r : RingState α) (op : QueueOp α) (P M : Nat) (hM : 8 ≤ M) (hP : r.items.length ≤ P)
    (hi : ∀ n, op = .init n → n ≤ M) (hr : r.room ≤ max M (2 * P + 2)) :
    (queueReal r op).1.room ≤ max M (2 * P + 2) := by
  cases op with
  | push v =>
    by_cases h0 : r.room = 0
    · simp [queueReal, ringReady, h0]; omega
    · simp only [queueReal, ringReady, h0, if_false]
      split_ifs <;> simp only <;> omega
  | pop => simp only [queueReal]; split_ifs <;> exact hr
  | init n =>
    have := hi n rfl
    simp only [queueReal, ringRoom]
    split_ifs <;> omega
  | _ => exact hr

theorem dequeReal_room (r : RingState α) (op : Option (DequeOp α)) (P M : Nat) (hM : 8 ≤ M) (hP : r.items.length ≤ P)
    (hi : ∀ n, op = some (.init n) → n ≤ M) (hr : r.room ≤ max M (2 * P + 2)) :
    (dequeReal r op).1.room ≤ max M (2 * P + 2) := by
  rcases op with _ | op
  · simp only [dequeReal]
    split_ifs <;> simp only <;> omega
  · cases op with
    | pushBack v =>
      by_cases h0 : r.room = 0
      · simp [dequeReal, ringReady, h0]; omega
      · simp only [dequeReal, ringReady, h0, if_false]
        split_ifs <;> simp only <;> omega
    | pushFront v =>
      by_cases h0 : r.room = 0
      · simp [dequeReal, ringReady, h0]; omega
      · simp only [dequeReal, ringReady, h0, if_false]
        split_ifs <;> simp only <;> omega
    | popFront => simp only [dequeReal]; split_ifs <;> exact hr
    | init n =>
      have := hi n rfl
      simp only [dequeReal, ringRoom]
      split_ifs <;> omega
    | _ => exact hr

end Verif.Spec

namespace Verif.Queue
open Verif.Spec
variable {α : Type} [Inhabited α]

/-- **C126** (queue).  Whatever calls are made, the buffer never has more slots than `Init` asked for (8 without `Init`) or
twice the largest number of elements ever present, plus two. -/
theorem C126_queue (ops : List (QueueOp α)) (P M : Nat) (hM : 8 ≤ M) (hI : ∀ n : Int, .init n ∈ ops → n ≤ M)
    (hP : ∀ k s os, run (zero : Queue α) (ops.take k) = .ok (s, os) → size s ≤ P) :
    ∃ s os, run (zero : Queue α) ops = .ok (s, os) ∧ cap s ≤ max M (2 * P + 2) := by
  have key : ∀ (s : Queue α) (r : RingState α), Matches s r → r.room ≤ max M (2 * P + 2) →
      (∀ k s' os, run s (ops.take k) = .ok (s', os) → size s' ≤ P) →
      ∃ s' os, run s ops = .ok (s', os) ∧ cap s' ≤ max M (2 * P + 2) := by
    clear hP
    induction ops with
    | nil => exact fun s r h hr _ => ⟨s, [], rfl, by rw [h.room]; exact hr⟩
    | cons op ops ih =>
      intro s r h hr hP
      obtain ⟨s1, e1, h1⟩ := matches_step h op
      have h0 := hP 0 s [] rfl
      rw [h.items.size_eq] at h0
      obtain ⟨s2, os, e2, h2⟩ := ih (fun n hn => hI n (List.mem_cons_of_mem _ hn)) s1 _ h1
        (queueReal_room r op P M hM h0 (fun n e => hI n (e ▸ List.mem_cons_self)) hr)
        (fun k s' os e => hP (k + 1) s' ((queueReal r op).2 :: os) (by simp [run, e1, e]))
      exact ⟨s2, (queueReal r op).2 :: os, by simp [run, e1, e2], h2⟩
  exact key zero ⟨[], 0, 0⟩ ⟨holds_zero, rfl, rfl⟩ (by simp) hP

/-- Eight pushes into a queue of eight slots: sixteen slots, the bound being 2·8 + 2. -/
example : (match run (zero : Queue Int) ((List.range 8).map fun (i : Nat) => .push (i : Int)) with
    | .ok (s, _) => some (cap s, size s) | .panic => none) = some (16, 8) := by decide

end Verif.Queue

namespace Verif.Deque
open Verif.Spec
variable {α : Type} [Inhabited α]

/-- **C126** (deque).  The same for the deque, with `Shrink` among the calls. -/
theorem C126_deque (ops : List (Option (DequeOp α))) (P M : Nat) (hM : 8 ≤ M) (hI : ∀ n : Int, some (.init n) ∈ ops → n ≤ M)
    (hP : ∀ k s os, runS (zero : Deque α) (ops.take k) = .ok (s, os) → size s ≤ P) :
    ∃ s os, runS (zero : Deque α) ops = .ok (s, os) ∧ cap s ≤ max M (2 * P + 2) := by
  have key : ∀ (s : Deque α) (r : RingState α), Matches s r → r.room ≤ max M (2 * P + 2) →
      (∀ k s' os, runS s (ops.take k) = .ok (s', os) → size s' ≤ P) →
      ∃ s' os, runS s ops = .ok (s', os) ∧ cap s' ≤ max M (2 * P + 2) := by
    clear hP
    induction ops with
    | nil => exact fun s r h hr _ => ⟨s, [], rfl, by rw [h.room]; exact hr⟩
    | cons op ops ih =>
      intro s r h hr hP
      obtain ⟨s1, e1, h1⟩ := matches_step h op
      have h0 := hP 0 s [] rfl
      rw [h.items.size_eq] at h0
      obtain ⟨s2, os, e2, h2⟩ := ih (fun n hn => hI n (List.mem_cons_of_mem _ hn)) s1 _ h1
        (dequeReal_room r op P M hM h0 (fun n e => hI n (e ▸ List.mem_cons_self)) hr)
        (fun k s' os e => hP (k + 1) s' ((dequeReal r op).2 :: os) (by simp [runS, e1, e]))
      exact ⟨s2, (dequeReal r op).2 :: os, by simp [runS, e1, e2], h2⟩
  exact key zero ⟨[], 0, 0⟩ ⟨holds_zero, rfl, rfl⟩ (by simp) hP

/-- **C126** (deque).  Calling `Shrink` until nothing changes brings the buffer down to eight slots or less than three times the
elements that are left (a buffer that wraps around may lose some, see C124). -/
theorem C126_shrink (s : Deque α) (l : List α) (h : Holds s l) : ∃ k s' os,
    runS s (List.replicate k none) = .ok (s', os) ∧ size s' ≤ l.length ∧ (cap s' ≤ 8 ∨ cap s' < 3 * size s') := by
  generalize hc : cap s = c
  induction c using Nat.strongRecOn generalizing s l with
  | ind c ih =>
    have hsz := h.size_eq
    by_cases hd : cap s ≤ 8 ∨ cap s < 3 * l.length
    · exact ⟨0, s, [], rfl, by omega, by omega⟩
    · have hm : Matches s ⟨l, s.head, cap s⟩ := ⟨h, rfl, rfl⟩
      obtain ⟨s1, e1, h1⟩ := matches_step hm none
      have hg : cap s > 8 ∧ cap s ≥ 3 * l.length := by omega
      have h2 := h1.items
      have h3 := h1.room
      simp only [dequeReal, hg, and_self, if_true] at h2 h3
      have hroom : cap s1 = cap s / 2 := by rw [h3]; split_ifs <;> rfl
      have hlen : ∃ l', Holds s1 l' ∧ l'.length ≤ l.length := by
        refine ⟨_, h2, ?_⟩
        split_ifs
        · exact Nat.le_refl _
        · simp [folded]; omega
      obtain ⟨l', hl', hll⟩ := hlen
      obtain ⟨k, s', os, e, hs, hb⟩ := ih (cap s1) (by omega) s1 l' hl' rfl
      refine ⟨k + 1, s', (dequeReal ⟨l, s.head, cap s⟩ none).2 :: os, ?_, by omega, hb⟩
      simp [List.replicate_succ, runS, e1, e]

example : (match runS (zero : Deque Int) [some (.init 40), some (.pushBack 1), none, none, none, none] with
    | .ok (s, _) => some (cap s, size s) | .panic => none) = some (5, 1) := by decide

/-- A deque made for 20 elements gets one and is shrunk: at most one element at any time. -/
example := C126_deque [some (.init 20), some (.pushBack (5 : Int)), none] 1 20 (by decide)
  (by intro n h; simp at h; omega)
  (by
    intro k s os h
    have hk : k = 0 ∨ k = 1 ∨ k = 2 ∨ 3 ≤ k := by omega
    rcases hk with rfl | rfl | rfl | hk
    · cases h; decide
    · cases h; decide
    · cases h; decide
    · rw [List.take_of_length_le (by simpa using hk)] at h
      cases h; decide)

end Verif.Deque
