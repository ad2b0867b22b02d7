import Verif.Model.RingCost
import Verif.Props.RingMemory
/-!
# C127: the number of elements moved by queue and deque
-/

set_option linter.unusedSectionVars false

namespace Verif.Spec

/-- The outcome of a call without the count. -/
def uncounted {σ ο : Type} : Res (σ × ο × Nat) → Res (σ × ο)
  | .ok (s, o, _) => .ok (s, o)
  | .panic => .panic

/-- The pushes among the calls on a queue. -/
def queuePushes {α : Type} : List (QueueOp α) → Nat
  | [] => 0
  | .push _ :: ops => queuePushes ops + 1
  | _ :: ops => queuePushes ops

/-- The pushes among the calls on a deque. -/
def dequePushes {α : Type} : List (Option (DequeOp α)) → Nat
  | [] => 0
  | some (.pushFront _) :: ops => dequePushes ops + 1
  | some (.pushBack _) :: ops => dequePushes ops + 1
  | _ :: ops => dequePushes ops

variable {α : Type} [Inhabited α]

/-- The elements one call on a queue moves: all of them when the buffer is full and starts at slot 0. -/
def queueMoves (r : RingState α) : QueueOp α → Nat
  | .push _ => let r := ringReady r; if r.items.length + 1 = r.room ∧ r.start = 0 then r.room else 0
  | _ => 0

/-- The elements one call on a deque moves (`none` is `Shrink`): those from the first one to the end of the buffer, and of the
others as many as are laid over them. -/
def dequeMoves (r : RingState α) : Option (DequeOp α) → Nat
  | some (.pushBack _) =>
    let r := ringReady r
    if r.items.length + 1 = r.room then min r.room (2 * (r.room - r.start)) else 0
  | some (.pushFront _) =>
    let r := ringReady r
    if r.items.length + 1 = r.room then min r.room (2 * (r.room - slotBefore r)) else 0
  | none =>
    if r.room > 8 ∧ r.room ≥ 3 * r.items.length then
      if r.start + r.items.length < r.room then r.items.length else min r.items.length (2 * (r.room - r.start))
    else 0
  | _ => 0

end Verif.Spec

namespace Verif.Queue
open Verif.Spec
variable {α : Type} [Inhabited α]

theorem pushC_same (s : Queue α) (v : α) : uncounted (pushC s v) = push s v := by
  unfold pushC push
  generalize (if s.d = [] then init s (-1) else s) = s
  by_cases hlt : s.tail < s.d.length
  · simp only [Go.set, if_pos hlt, Res.bind_ok]
    split_ifs <;> rfl
  · simp only [Go.set, if_neg hlt]; rfl

theorem stepC_same (s : Queue α) (op : QueueOp α) : uncounted (stepC s op) = step s op := by
  cases op with
  | push v =>
    have := pushC_same s v
    simp only [stepC, step]
    rw [← this]
    rcases pushC s v with ⟨s', b, n⟩ | _ <;> rfl
  | _ => simp only [stepC]; generalize step s _ = x; rcases x with ⟨s', o⟩ | _ <;> rfl

/-- **C127** (queue).  Counting changes nothing else. -/
theorem C127_queue_same (ops : List (QueueOp α)) (s : Queue α) : uncounted (runC s ops) = run s ops := by
  induction ops generalizing s with
  | nil => rfl
  | cons op ops ih =>
    simp only [runC, run]
    rw [← stepC_same]
    rcases stepC s op with ⟨s', o, n⟩ | _
    · simp only [Res.bind_ok, uncounted]
      rw [← ih]
      rcases runC s' ops with ⟨s'', os, m⟩ | _ <;> rfl
    · rfl

theorem pushC_count {s s' : Queue α} {v : α} {b : Bool} {n : Nat} (e : pushC s v = .ok (s', b, n)) :
    n = 0 ∨ (cap s' = 2 * cap (if s.d = [] then init s (-1) else s) ∧ n ≤ cap (if s.d = [] then init s (-1) else s)) := by
  revert e
  unfold pushC
  generalize (if s.d = [] then init s (-1) else s) = s
  by_cases h1 : s.tail < s.d.length
  rotate_left
  · simp [Go.set, h1]
  simp only [Go.set, if_pos h1, Res.bind_ok]
  split_ifs with h2 h3
  · simp only [Res.pure_eq, Res.ok.injEq, Prod.mk.injEq]
    rintro ⟨rfl, -, rfl⟩
    right
    have hh : s.head = 0 := h3.symm
    have hpos : 0 < (s.d.set s.tail v).length * 2 := by simp; omega
    simp only [regrowC, newBuf, cap, Go.copy, if_pos hpos, hh]
    simp
    omega
  · simp; intros; left; omega
  · simp; intros; left; omega

theorem ready_cap {s : Queue α} {r : RingState α} (h : Matches s r) :
    cap (if s.d = [] then init s (-1) else s) = (ringReady r).room := by
  have hr := h.room
  by_cases h0 : s.d = []
  · have : r.room = 0 := by rw [← hr]; exact nil_iff_room.mp h0
    rw [if_pos h0]
    simp [ringReady, this, init, h0, newBuf, clear, cap]
  · have : r.room ≠ 0 := by rw [← hr]; exact fun e => h0 (nil_iff_room.mpr e)
    simp [h0, ringReady, this, hr]

/-- **C127** (queue).  Whatever calls are made, growing moves at most two elements per push, over the whole history. -/
theorem C127_queue (ops : List (QueueOp α)) : ∃ s os n, runC (zero : Queue α) ops = .ok (s, os, n) ∧ n ≤ 2 * queuePushes ops := by
  have key : ∀ (s : Queue α) (r : RingState α) (m p : Nat), Matches s r → r.items.length ≤ p →
      (m = 0 ∨ (r.room ≠ 0 ∧ m ≤ r.room ∧ r.room ≤ 2 * p)) →
      ∃ s' os n, runC s ops = .ok (s', os, n) ∧ m + n ≤ 2 * (p + queuePushes ops) := by
    induction ops with
    | nil => exact fun s r m p _ _ hm => ⟨s, [], 0, rfl, by simp only [queuePushes]; omega⟩
    | cons op ops ih =>
      intro s r m p h hp hm
      obtain ⟨s1, e1, h1⟩ := matches_step h op
      have e2 := stepC_same s op
      rw [e1] at e2
      obtain ⟨k, ek⟩ : ∃ k, stepC s op = .ok (s1, (queueReal r op).2, k) := by
        rcases hx : stepC s op with ⟨s', o, n⟩ | _
        · rw [hx] at e2
          simp only [uncounted, Res.ok.injEq, Prod.mk.injEq] at e2
          exact ⟨n, by rw [e2.1, e2.2]⟩
        · rw [hx] at e2; simp [uncounted] at e2
      have fin : ∀ q, (queueReal r op).1.items.length ≤ q → q + queuePushes ops ≤ p + queuePushes (op :: ops) →
          (m + k = 0 ∨ ((queueReal r op).1.room ≠ 0 ∧ m + k ≤ (queueReal r op).1.room ∧ (queueReal r op).1.room ≤ 2 * q)) →
          ∃ s' os n, runC s (op :: ops) = .ok (s', os, n) ∧ m + n ≤ 2 * (p + queuePushes (op :: ops)) := by
        intro q hq hqq hmm
        obtain ⟨s', os, n, e3, h3⟩ := ih s1 _ (m + k) q h1 hq hmm
        exact ⟨s', (queueReal r op).2 :: os, k + n, by simp [runC, ek, e3], by omega⟩
      have hidle : (∀ v, op ≠ .push v) → k = 0 := by
        intro hne
        cases op with
        | push v => exact absurd rfl (hne v)
        | _ => simp only [stepC, e1, Res.bind_ok, Res.pure_eq, Res.ok.injEq, Prod.mk.injEq] at ek; omega
      cases op with
      | push v =>
        have hcnt : k = 0 ∨ (cap s1 = 2 * (ringReady r).room ∧ k ≤ (ringReady r).room) := by
          simp only [stepC] at ek
          rcases hx : pushC s v with ⟨s', b, n⟩ | _
          · rw [hx] at ek
            simp only [Res.bind_ok, Res.pure_eq, Res.ok.injEq, Prod.mk.injEq] at ek
            obtain ⟨rfl, -, rfl⟩ := ek
            have := pushC_count hx
            rwa [ready_cap h] at this
          · rw [hx] at ek; simp at ek
        rw [h1.room] at hcnt
        refine fin (p + 1) ?_ (by simp only [queuePushes]; omega) ?_
        · by_cases h0 : r.room = 0
          · simp [queueReal, ringReady, h0]
          · simp only [queueReal, ringReady, h0, if_false]
            split_ifs <;> simp <;> omega
        · by_cases h0 : r.room = 0
          · simp [queueReal, ringReady, h0] at hcnt ⊢
            omega
          · simp only [queueReal, ringReady, h0, if_false] at hcnt ⊢
            split_ifs at hcnt ⊢ <;> simp only at hcnt ⊢ <;> omega
      | pop =>
        rw [hidle (by simp), Nat.add_zero] at fin
        refine fin p ?_ (by simp only [queuePushes]; omega) ?_ <;> simp only [queueReal] <;> split_ifs
        · exact hp
        · simp; omega
        · exact hm
        · exact hm
      | init i =>
        rw [hidle (by simp), Nat.add_zero] at fin
        refine fin p (by simp [queueReal]) (by simp only [queuePushes]; omega) ?_
        simp only [queueReal, ringRoom]
        rcases hm with hm | hm
        · exact .inl hm
        · rw [if_neg hm.1]; exact .inr hm
      | clear =>
        rw [hidle (by simp), Nat.add_zero] at fin
        exact fin p (by simp [queueReal]) (by simp only [queuePushes]; omega) hm
      | _ =>
        rw [hidle (by simp), Nat.add_zero] at fin
        exact fin p hp (by simp only [queuePushes]; omega) hm
  obtain ⟨s, os, n, e, h⟩ := key zero ⟨[], 0, 0⟩ 0 0 ⟨holds_zero, rfl, rfl⟩ (by simp) (.inl rfl)
  exact ⟨s, os, n, e, by omega⟩

theorem pushC_exact {s s' : Queue α} {l : List α} {v : α} {b : Bool} {n : Nat} (hr : Ring.Rel s.head s.tail s.d l)
    (hd : s.d ≠ []) (e : pushC s v = .ok (s', b, n)) : n = if l.length + 1 = cap s ∧ s.head = 0 then cap s else 0 := by
  revert e
  unfold pushC
  rw [if_neg hd]
  have ht := hr.tail_lt
  have h1 := hr.1
  have h3 := hr.2.1
  have h2 := hr.2.2.1
  unfold Ring.wrap at h2
  simp only [Go.set, if_pos ht, Res.bind_ok]
  split_ifs with c1 c2 c3 c3 c3
  · simp only [Res.pure_eq, Res.ok.injEq, Prod.mk.injEq]
    rintro ⟨-, -, rfl⟩
    have hpos : 0 < (s.d.set s.tail v).length * 2 := by simp; omega
    simp only [regrowC, newBuf, cap, Go.copy, if_pos hpos, c3.2]
    simp
    omega
  · exfalso
    simp only [cap, List.length_set] at c1 c3
    split at h2 <;> omega
  · exfalso; omega
  · simp; omega
  · exfalso
    simp only [cap, List.length_set] at c1 c3
    split at h2 <;> omega
  · simp; omega

/-- One call, exactly. -/
theorem stepC_exact {s : Queue α} {r : RingState α} (h : Matches s r) (op : QueueOp α) :
    ∃ s', stepC s op = .ok (s', (queueReal r op).2, queueMoves r op) ∧ Matches s' (queueReal r op).1 := by
  obtain ⟨s1, e1, h1⟩ := matches_step h op
  have e2 := stepC_same s op
  rw [e1] at e2
  cases op with
  | push v =>
    rcases hx : pushC s v with ⟨s', b, n⟩ | _
    · simp only [stepC, hx, Res.bind_ok, Res.pure_eq, uncounted, Res.ok.injEq, Prod.mk.injEq] at e2
      obtain ⟨rfl, e2⟩ := e2
      refine ⟨s', ?_, h1⟩
      have hn : n = queueMoves r (.push v) := by
        by_cases h0 : s.d = []
        · have hr : r.room = 0 := by rw [← h.room]; exact nil_iff_room.mp h0
          have hh := h.items
          rcases hh with hh | hh
          · obtain ⟨hd, tl, d⟩ := s
            obtain ⟨rfl, rfl, rfl, -⟩ := hh
            simp [pushC, init, newBuf, clear, Go.set, cap, List.replicate] at hx
            simp [queueMoves, ringReady, hr, hx.2.2.symm]
          · have := hh.tail_lt
            rw [h0] at this
            simp at this
        · have hr : r.room ≠ 0 := by rw [← h.room]; exact fun e => h0 (nil_iff_room.mpr e)
          have := pushC_exact (h.items.rel h0) h0 hx
          rw [h.room, h.start] at this
          simp only [queueMoves, ringReady, hr, if_false]
          exact this
      simp only [stepC, hx, Res.bind_ok, Res.pure_eq, ← hn, ← e2]
    · rw [stepC, hx] at e2; simp [uncounted] at e2
  | _ => exact ⟨s1, by simp only [stepC, e1, Res.bind_ok, Res.pure_eq, queueMoves], h1⟩

/-- The moves of a history, call by call. -/
def totalMoves (r : RingState α) : List (QueueOp α) → Nat
  | [] => 0
  | op :: ops => queueMoves r op + totalMoves (queueReal r op).1 ops

/-- **C127** (queue).  The elements moved, exactly, for every history. -/
theorem C127_queue_exact (ops : List (QueueOp α)) :
    ∃ s os, runC (zero : Queue α) ops = .ok (s, os, totalMoves ⟨[], 0, 0⟩ ops) := by
  have key : ∀ (s : Queue α) (r : RingState α), Matches s r → ∃ s' os, runC s ops = .ok (s', os, totalMoves r ops) := by
    induction ops with
    | nil => exact fun s r _ => ⟨s, [], rfl⟩
    | cons op ops ih =>
      intro s r h
      obtain ⟨s1, e1, h1⟩ := stepC_exact h op
      obtain ⟨s2, os, e2⟩ := ih s1 _ h1
      exact ⟨s2, (queueReal r op).2 :: os, by simp only [runC, e1, Res.bind_ok, e2, Res.pure_eq, totalMoves]⟩
  exact key zero ⟨[], 0, 0⟩ ⟨holds_zero, rfl, rfl⟩

/-- Sixteen pushes grow the buffer twice: 8 + 16 elements are moved. -/
example : (match runC (zero : Queue Int) ((List.range 16).map fun (i : Nat) => .push (i : Int)) with
    | .ok (_, _, n) => some n | .panic => none) = some 24 := by decide

end Verif.Queue

namespace Verif.Deque
open Verif.Spec
variable {α : Type} [Inhabited α]

theorem pushFrontC_same (s : Deque α) (v : α) : uncounted (pushFrontC s v) = pushFront s v := by
  unfold pushFrontC pushFront
  generalize (if s.d = [] then init s (-1) else s) = s
  by_cases hlt : prev s s.head < s.d.length
  · simp only [Go.set, if_pos hlt, Res.bind_ok]
    split_ifs <;> rfl
  · simp only [Go.set, if_neg hlt]; rfl

theorem pushBackC_same (s : Deque α) (v : α) : uncounted (pushBackC s v) = pushBack s v := by
  unfold pushBackC pushBack
  generalize (if s.d = [] then init s (-1) else s) = s
  by_cases hlt : s.tail < s.d.length
  · simp only [Go.set, if_pos hlt, Res.bind_ok]
    split_ifs <;> rfl
  · simp only [Go.set, if_neg hlt]; rfl

theorem shrinkC_same (s : Deque α) : ((shrinkC s).1, (shrinkC s).2.1) = shrink s := by
  unfold shrinkC shrink
  split_ifs <;> rfl

theorem stepC_same (s : Deque α) (op : Option (DequeOp α)) : uncounted (stepC s op) = stepS s op := by
  rcases op with _ | op
  · simp only [stepC, stepS, uncounted, ← shrinkC_same]; rfl
  · cases op with
    | pushFront v =>
      have := pushFrontC_same s v
      simp only [stepC, stepS, step]
      rw [← this]
      rcases pushFrontC s v with ⟨s', b, n⟩ | _ <;> rfl
    | pushBack v =>
      have := pushBackC_same s v
      simp only [stepC, stepS, step]
      rw [← this]
      rcases pushBackC s v with ⟨s', b, n⟩ | _ <;> rfl
    | _ => simp only [stepC, stepS]; generalize step s _ = x; rcases x with ⟨s', o⟩ | _ <;> rfl

/-- **C127** (deque).  Counting changes nothing else. -/
theorem C127_deque_same (ops : List (Option (DequeOp α))) (s : Deque α) : uncounted (runC s ops) = runS s ops := by
  induction ops generalizing s with
  | nil => rfl
  | cons op ops ih =>
    simp only [runC, runS]
    rw [← stepC_same]
    rcases stepC s op with ⟨s', o, n⟩ | _
    · simp only [Res.bind_ok, uncounted]
      rw [← ih]
      rcases runC s' ops with ⟨s'', os, m⟩ | _ <;> rfl
    · rfl

theorem regrowC_count (s : Deque α) (n : Nat) (hn : 0 < n) :
    cap (regrowC s n).1 = n ∧ (regrowC s n).2 ≤ cap s - s.head + s.tail ∧ (regrowC s n).2 ≤ 2 * (cap s - s.head) := by
  simp only [regrowC, newBuf, cap, Go.copy, hn, if_true]
  simp
  omega

theorem pushBackC_count {s s' : Deque α} {v : α} {b : Bool} {n : Nat} (e : pushBackC s v = .ok (s', b, n)) :
    n = 0 ∨ (cap s' = 2 * cap (if s.d = [] then init s (-1) else s) ∧ n ≤ cap (if s.d = [] then init s (-1) else s)) := by
  revert e
  unfold pushBackC
  generalize (if s.d = [] then init s (-1) else s) = s
  by_cases h1 : s.tail < s.d.length
  rotate_left
  · simp [Go.set, h1]
  simp only [Go.set, if_pos h1, Res.bind_ok]
  split_ifs with h2
  · simp only [Res.pure_eq, Res.ok.injEq, Prod.mk.injEq]
    rintro ⟨rfl, -, rfl⟩
    right
    obtain ⟨c1, c2, c3⟩ := regrowC_count
      (⟨s.head, next ⟨s.head, s.tail, s.d.set s.tail v⟩ s.tail, s.d.set s.tail v⟩ : Deque α)
      (cap (⟨s.head, next ⟨s.head, s.tail, s.d.set s.tail v⟩ s.tail, s.d.set s.tail v⟩ : Deque α) * 2)
      (by simp [cap]; omega)
    refine ⟨by rw [c1]; simp [cap]; omega, ?_⟩
    refine Nat.le_trans c2 ?_
    have : s.head ≤ s.d.length := by rw [← h2]; simp only [next, cap, List.length_set]; split_ifs <;> omega
    simp only [cap, List.length_set] at *
    omega
  · simp; intros; left; omega

theorem pushFrontC_count {s s' : Deque α} {v : α} {b : Bool} {n : Nat} (e : pushFrontC s v = .ok (s', b, n)) :
    n = 0 ∨ (cap s' = 2 * cap (if s.d = [] then init s (-1) else s) ∧ n ≤ cap (if s.d = [] then init s (-1) else s)) := by
  revert e
  unfold pushFrontC
  generalize (if s.d = [] then init s (-1) else s) = s
  by_cases h1 : prev s s.head < s.d.length
  rotate_left
  · simp [Go.set, h1]
  simp only [Go.set, if_pos h1, Res.bind_ok]
  split_ifs with h2
  · simp only [Res.pure_eq, Res.ok.injEq, Prod.mk.injEq]
    rintro ⟨rfl, -, rfl⟩
    right
    obtain ⟨c1, c2, c3⟩ := regrowC_count
      (⟨prev s s.head, s.tail, s.d.set (prev s s.head) v⟩ : Deque α)
      (cap (⟨prev s s.head, s.tail, s.d.set (prev s s.head) v⟩ : Deque α) * 2)
      (by simp [cap]; omega)
    refine ⟨by rw [c1]; simp [cap]; omega, ?_⟩
    refine Nat.le_trans c2 ?_
    simp only [cap, List.length_set] at *
    omega
  · simp; intros; left; omega

theorem shrinkC_count (s : Deque α) (l : List α) (h : Holds s l) :
    (cap s > 8 ∧ cap s ≥ 3 * l.length → (shrinkC s).2.2 ≤ l.length) ∧
    (¬ (cap s > 8 ∧ cap s ≥ 3 * l.length) → (shrinkC s).2.2 = 0) := by
  have hsz := h.size_eq
  unfold shrinkC
  rw [hsz]
  refine ⟨fun hc => ?_, fun hc => by rw [if_neg hc]⟩
  rw [if_pos hc]
  simp only [size] at hsz
  split_ifs with hw
  · simp only [if_pos hw] at hsz
    simp; omega
  · rw [if_neg hw] at hsz
    obtain ⟨-, c2, c3⟩ := regrowC_count s (cap s / 2) (by omega)
    simp only
    omega

theorem ready_cap {s : Deque α} {r : RingState α} (h : Matches s r) :
    cap (if s.d = [] then init s (-1) else s) = (ringReady r).room := by
  have hr := h.room
  by_cases h0 : s.d = []
  · have : r.room = 0 := by rw [← hr]; exact nil_iff_room.mp h0
    rw [if_pos h0]
    simp [ringReady, this, init, h0, newBuf, clear, cap]
  · have : r.room ≠ 0 := by rw [← hr]; exact fun e => h0 (nil_iff_room.mpr e)
    simp [h0, ringReady, this, hr]

theorem folded_length (h : Nat) (l : List α) : (folded h l).length ≤ l.length := by
  simp [folded]; omega

/-- What the calls so far have paid in advance. -/
def credit (M : Nat) (r : RingState α) : Nat :=
  if r.room = 0 then M else 2 * (3 * r.items.length - 2 * r.room) + r.room

theorem counted_step {s : Deque α} {r : RingState α} (h : Matches s r) (op : Option (DequeOp α)) :
    ∃ s' k, stepC s op = .ok (s', (dequeReal r op).2, k) ∧ Matches s' (dequeReal r op).1 := by
  obtain ⟨s1, e1, h1⟩ := matches_step h op
  have e2 := stepC_same s op
  rw [e1] at e2
  rcases hx : stepC s op with ⟨s', o, n⟩ | _
  · rw [hx] at e2
    simp only [uncounted, Res.ok.injEq, Prod.mk.injEq] at e2
    exact ⟨s1, n, by rw [e2.1, e2.2], h1⟩
  · rw [hx] at e2; simp [uncounted] at e2

theorem count_idle {s s' : Deque α} {op : DequeOp α} {o : Out α} {k : Nat} (e : stepC s (some op) = .ok (s', o, k))
    (hf : ∀ v, op ≠ .pushFront v) (hb : ∀ v, op ≠ .pushBack v) : k = 0 := by
  cases op with
  | pushFront v => exact absurd rfl (hf v)
  | pushBack v => exact absurd rfl (hb v)
  | _ =>
    revert e
    simp only [stepC]
    generalize step s _ = x
    rcases x with ⟨s', o⟩ | _ <;> simp <;> omega

theorem count_push {s s' : Deque α} {r : RingState α} (h : Matches s r) {op : DequeOp α} {o : Out α} {k : Nat}
    (e : stepC s (some op) = .ok (s', o, k)) (hp : (∃ v, op = .pushFront v) ∨ ∃ v, op = .pushBack v) :
    k = 0 ∨ (cap s' = 2 * (ringReady r).room ∧ k ≤ (ringReady r).room) := by
  rcases hp with ⟨v, rfl⟩ | ⟨v, rfl⟩
  · simp only [stepC] at e
    rcases hx : pushFrontC s v with ⟨s', b, n⟩ | _
    · rw [hx] at e
      simp only [Res.bind_ok, Res.pure_eq, Res.ok.injEq, Prod.mk.injEq] at e
      obtain ⟨rfl, -, rfl⟩ := e
      have := pushFrontC_count hx
      rwa [ready_cap h] at this
    · rw [hx] at e; simp at e
  · simp only [stepC] at e
    rcases hx : pushBackC s v with ⟨s', b, n⟩ | _
    · rw [hx] at e
      simp only [Res.bind_ok, Res.pure_eq, Res.ok.injEq, Prod.mk.injEq] at e
      obtain ⟨rfl, -, rfl⟩ := e
      have := pushBackC_count hx
      rwa [ready_cap h] at this
    · rw [hx] at e; simp at e

theorem push_shape (r : RingState α) {op : DequeOp α} (hp : (∃ v, op = .pushFront v) ∨ ∃ v, op = .pushBack v) :
    (dequeReal r (some op)).1.items.length ≤ (ringReady r).items.length + 1 ∧
    ((dequeReal r (some op)).1.room = (ringReady r).room ∨
      ((ringReady r).items.length + 1 = (ringReady r).room ∧ (dequeReal r (some op)).1.room = 2 * (ringReady r).room)) := by
  constructor
  · rcases hp with ⟨v, rfl⟩ | ⟨v, rfl⟩
    · simp only [dequeReal]; split_ifs
      · exact Nat.le_trans (folded_length _ _) (by simp)
      · simp
    · simp only [dequeReal]; split_ifs
      · exact Nat.le_trans (folded_length _ _) (by simp)
      · simp
  · rcases hp with ⟨v, rfl⟩ | ⟨v, rfl⟩ <;> simp only [dequeReal] <;> split_ifs with hg
    · exact .inr ⟨hg, Nat.mul_comm _ _⟩
    · exact .inl rfl
    · exact .inr ⟨hg, Nat.mul_comm _ _⟩
    · exact .inl rfl

theorem credit_step {s s' : Deque α} {r : RingState α} (h : Matches s r) (op : Option (DequeOp α)) {k : Nat} (M : Nat)
    (hM : 8 ≤ M) (hI : ∀ n, op = some (.init n) → n ≤ M) (e : stepC s op = .ok (s', (dequeReal r op).2, k))
    (h' : Matches s' (dequeReal r op).1) :
    k + credit M (dequeReal r op).1 ≤ credit M r + 6 * dequePushes [op] := by
  rcases op with _ | op
  · have hk : k = (shrinkC s).2.2 := by
      simp only [stepC, Res.ok.injEq, Prod.mk.injEq] at e; omega
    obtain ⟨c1, c2⟩ := shrinkC_count s r.items h.items
    rw [← hk, h.room] at c1 c2
    by_cases hc : r.room > 8 ∧ r.room ≥ 3 * r.items.length
    · have := c1 hc
      have hfl := folded_length (r.room - r.start) r.items
      have hr : (dequeReal r none).1.room = r.room / 2 := by
        simp only [dequeReal, if_pos hc]; split_ifs <;> rfl
      have hl : (dequeReal r none).1.items.length ≤ r.items.length := by
        simp only [dequeReal, if_pos hc]; split_ifs
        · exact Nat.le_refl _
        · exact hfl
      simp only [credit, dequePushes, hr]
      rw [if_neg (by omega), if_neg (by omega)]
      omega
    · rw [c2 hc]
      simp [dequeReal, if_neg hc]
  · by_cases hp : (∃ v, op = .pushFront v) ∨ ∃ v, op = .pushBack v
    · have hcnt := count_push h e hp
      rw [h'.room] at hcnt
      have hpush : dequePushes [some op] = 1 := by rcases hp with ⟨v, rfl⟩ | ⟨v, rfl⟩ <;> rfl
      rw [hpush]
      obtain ⟨hlen, hroom⟩ := push_shape r hp
      generalize (dequeReal r (some op)).1 = r' at *
      simp only [credit]
      by_cases h0 : r.room = 0
      · have hrr : ringReady r = ⟨[], 0, 8⟩ := by simp [ringReady, h0]
        rw [hrr] at hlen hroom hcnt
        simp at hlen hroom hcnt
        rw [if_pos h0, if_neg (by omega)]
        omega
      · have hrr : ringReady r = r := by simp [ringReady, h0]
        rw [hrr] at hlen hroom hcnt
        rw [if_neg h0, if_neg (by omega)]
        omega
    · have hk : k = 0 := count_idle e (fun v hv => hp (.inl ⟨v, hv⟩)) (fun v hv => hp (.inr ⟨v, hv⟩))
      subst hk
      cases op with
      | pushFront v => exact absurd (.inl ⟨v, rfl⟩) hp
      | pushBack v => exact absurd (.inr ⟨v, rfl⟩) hp
      | popFront => simp only [dequeReal, credit]; split_ifs <;> simp <;> omega
      | popBack =>
        simp only [dequeReal, credit, List.length_dropLast]
        by_cases h0 : r.room = 0
        · simp [h0]
        · simp only [if_neg h0]; omega
      | clear =>
        simp only [dequeReal, credit]
        by_cases h0 : r.room = 0
        · simp [h0]
        · simp only [h0, if_false, List.length_nil]; omega
      | init n =>
        have := hI n rfl
        simp only [dequeReal, credit, ringRoom]
        split_ifs <;> simp <;> omega
      | _ => simp [dequeReal]

theorem dequePushes_cons (op : Option (DequeOp α)) (ops : List (Option (DequeOp α))) :
    dequePushes (op :: ops) = dequePushes [op] + dequePushes ops := by
  rcases op with _ | op
  · simp [dequePushes]
  · cases op <;> simp [dequePushes] <;> omega

/-- **C127** (deque).  Whatever calls are made, `Shrink` among them, growing and shrinking move at most six elements per push over
the whole history, besides once as many as `Init` asked for (8 without `Init`). -/
theorem C127_deque (ops : List (Option (DequeOp α))) (M : Nat) (hM : 8 ≤ M) (hI : ∀ n : Int, some (.init n) ∈ ops → n ≤ M) :
    ∃ s os n, runC (zero : Deque α) ops = .ok (s, os, n) ∧ n ≤ 6 * dequePushes ops + M := by
  have key : ∀ (s : Deque α) (r : RingState α), Matches s r →
      ∃ s' os n, runC s ops = .ok (s', os, n) ∧ n ≤ 6 * dequePushes ops + credit M r := by
    induction ops with
    | nil => exact fun s r _ => ⟨s, [], 0, rfl, by omega⟩
    | cons op ops ih =>
      intro s r h
      obtain ⟨s1, k, e1, h1⟩ := counted_step h op
      have hc := credit_step h op M hM (fun n e => hI n (e ▸ List.mem_cons_self)) e1 h1
      obtain ⟨s2, os, n, e2, h2⟩ := ih (fun n hn => hI n (List.mem_cons_of_mem _ hn)) s1 _ h1
      refine ⟨s2, (dequeReal r op).2 :: os, k + n, by simp [runC, e1, e2], ?_⟩
      rw [dequePushes_cons]
      omega
  have := key zero ⟨[], 0, 0⟩ ⟨holds_zero, rfl, rfl⟩
  simpa [credit] using this

/-- **C127** (deque).  Without `Shrink`, growing moves at most two elements per push, over the whole history. -/
theorem C127_deque_grow (ops : List (Option (DequeOp α))) (hops : none ∉ ops) :
    ∃ s os n, runC (zero : Deque α) ops = .ok (s, os, n) ∧ n ≤ 2 * dequePushes ops := by
  have key : ∀ (s : Deque α) (r : RingState α) (m p : Nat), Matches s r → r.items.length ≤ p →
      (m = 0 ∨ (r.room ≠ 0 ∧ m ≤ r.room ∧ r.room ≤ 2 * p)) →
      ∃ s' os n, runC s ops = .ok (s', os, n) ∧ m + n ≤ 2 * (p + dequePushes ops) := by
    induction ops with
    | nil => exact fun s r m p _ _ hm => ⟨s, [], 0, rfl, by simp only [dequePushes]; omega⟩
    | cons op ops ih =>
      intro s r m p h hp hm
      obtain ⟨s1, k, ek, h1⟩ := counted_step h op
      obtain ⟨op, rfl⟩ : ∃ o, op = some o := by
        rcases op with _ | o
        · simp at hops
        · exact ⟨o, rfl⟩
      have fin : ∀ q, (dequeReal r (some op)).1.items.length ≤ q → q + dequePushes ops ≤ p + dequePushes (some op :: ops) →
          (m + k = 0 ∨ ((dequeReal r (some op)).1.room ≠ 0 ∧ m + k ≤ (dequeReal r (some op)).1.room ∧
            (dequeReal r (some op)).1.room ≤ 2 * q)) →
          ∃ s' os n, runC s (some op :: ops) = .ok (s', os, n) ∧ m + n ≤ 2 * (p + dequePushes (some op :: ops)) := by
        intro q hq hqq hmm
        obtain ⟨s', os, n, e3, h3⟩ := ih (fun hn => hops (List.mem_cons_of_mem _ hn)) s1 _ (m + k) q h1 hq hmm
        exact ⟨s', (dequeReal r (some op)).2 :: os, k + n, by simp [runC, ek, e3], by omega⟩
      by_cases hpu : (∃ v, op = .pushFront v) ∨ ∃ v, op = .pushBack v
      · have hcnt := count_push h ek hpu
        rw [h1.room] at hcnt
        obtain ⟨hlen, hroom⟩ := push_shape r hpu
        refine fin (p + 1) ?_ (by rcases hpu with ⟨v, rfl⟩ | ⟨v, rfl⟩ <;> simp only [dequePushes] <;> omega) ?_
        · by_cases h0 : r.room = 0
          · rw [show ringReady r = ⟨[], 0, 8⟩ by simp [ringReady, h0]] at hlen; simp at hlen; omega
          · rw [show ringReady r = r by simp [ringReady, h0]] at hlen; omega
        · by_cases h0 : r.room = 0
          · rw [show ringReady r = ⟨[], 0, 8⟩ by simp [ringReady, h0]] at hroom hcnt
            simp at hroom hcnt
            omega
          · rw [show ringReady r = r by simp [ringReady, h0]] at hroom hcnt
            omega
      · have hk : k = 0 := count_idle ek (fun v hv => hpu (.inl ⟨v, hv⟩)) (fun v hv => hpu (.inr ⟨v, hv⟩))
        subst hk
        rw [Nat.add_zero] at fin
        have hsame : dequePushes (some op :: ops) = dequePushes ops := by
          cases op with
          | pushFront v => exact absurd (.inl ⟨v, rfl⟩) hpu
          | pushBack v => exact absurd (.inr ⟨v, rfl⟩) hpu
          | _ => rfl
        cases op with
        | pushFront v => exact absurd (.inl ⟨v, rfl⟩) hpu
        | pushBack v => exact absurd (.inr ⟨v, rfl⟩) hpu
        | popFront =>
          refine fin p ?_ (by omega) ?_ <;> simp only [dequeReal] <;> split_ifs
          · exact hp
          · simp; omega
          · exact hm
          · exact hm
        | popBack => exact fin p (by simp only [dequeReal, List.length_dropLast]; omega) (by omega) hm
        | init i =>
          refine fin p (by simp [dequeReal]) (by omega) ?_
          simp only [dequeReal, ringRoom]
          rcases hm with hm | hm
          · exact .inl hm
          · rw [if_neg hm.1]; exact .inr hm
        | clear => exact fin p (by simp [dequeReal]) (by omega) hm
        | _ => exact fin p hp (by omega) hm
  obtain ⟨s, os, n, e, h⟩ := key zero ⟨[], 0, 0⟩ 0 0 ⟨holds_zero, rfl, rfl⟩ (by simp) (.inl rfl)
  exact ⟨s, os, n, e, by omega⟩

theorem pushBackC_exact {s s' : Deque α} {l : List α} {v : α} {b : Bool} {n : Nat} (hr : Ring.Rel s.head s.tail s.d l)
    (hd : s.d ≠ []) (e : pushBackC s v = .ok (s', b, n)) :
    n = if l.length + 1 = cap s then min (cap s) (2 * (cap s - s.head)) else 0 := by
  revert e
  unfold pushBackC
  rw [if_neg hd]
  have ht := hr.tail_lt
  have h1 := hr.1
  have h3 := hr.2.1
  have h2 := hr.2.2.1
  unfold Ring.wrap at h2
  simp only [Go.set, if_pos ht, Res.bind_ok]
  split_ifs with c1 c2 c2
  · simp only [Res.pure_eq, Res.ok.injEq, Prod.mk.injEq]
    rintro ⟨-, -, rfl⟩
    have hpos : 0 < (s.d.set s.tail v).length * 2 := by simp; omega
    simp only [regrowC, newBuf, cap, Go.copy, if_pos hpos, c1]
    simp
    omega
  · exfalso
    simp only [next, cap, List.length_set] at c1 c2
    split at h2 <;> split at c1 <;> omega
  · exfalso
    simp only [next, cap, List.length_set] at c1 c2
    split at h2 <;> split at c1 <;> omega
  · simp; omega

theorem pushFrontC_exact {s s' : Deque α} {l : List α} {v : α} {b : Bool} {n : Nat} (hr : Ring.Rel s.head s.tail s.d l)
    (hd : s.d ≠ []) (e : pushFrontC s v = .ok (s', b, n)) :
    n = if l.length + 1 = cap s then min (cap s) (2 * (cap s - prev s s.head)) else 0 := by
  revert e
  unfold pushFrontC
  rw [if_neg hd]
  have ht := hr.tail_lt
  have h1 := hr.1
  have h3 := hr.2.1
  have h2 := hr.2.2.1
  unfold Ring.wrap at h2
  have hp : prev s s.head < s.d.length := by unfold prev cap; split <;> omega
  simp only [Go.set, if_pos hp, Res.bind_ok]
  split_ifs with c1 c2 c2
  · simp only [Res.pure_eq, Res.ok.injEq, Prod.mk.injEq]
    rintro ⟨-, -, rfl⟩
    have hpos : 0 < (s.d.set (prev s s.head) v).length * 2 := by simp; omega
    simp only [regrowC, newBuf, cap, Go.copy, if_pos hpos, ← c1]
    simp
    omega
  · exfalso
    simp only [prev, cap] at c1 c2
    split at h2 <;> split at c1 <;> omega
  · exfalso
    simp only [prev, cap] at c1 c2
    split at h2 <;> split at c1 <;> omega
  · simp; omega

theorem shrinkC_exact {s : Deque α} {r : RingState α} (h : Matches s r) : (shrinkC s).2.2 = dequeMoves r none := by
  have hsz := h.items.size_eq
  unfold shrinkC
  simp only [dequeMoves, hsz, h.room]
  split_ifs with hc hw hu hu
  · simp only [size, if_pos hw] at hsz
    have := h.room
    have hpos : 0 < r.room / 2 := by omega
    simp only [newBuf, if_pos hpos]
    have hst := h.start
    simp only [cap] at this
    simp
    omega
  · exfalso
    simp only [size, if_pos hw] at hsz
    rcases h.items with hh | hr
    · have := h.room; rw [cap, hh.2.2.1] at this; simp at this; omega
    · have h2 := hr.2.2.1
      have h1 := hr.1
      have h3 := hr.2.1
      have := h.start
      have := h.room
      unfold cap at this
      unfold Ring.wrap at h2; split at h2 <;> omega
  · exfalso
    have := h.start
    have h4 := h.room
    simp only [size, if_neg hw] at hsz
    unfold cap at *
    omega
  · rcases h.items with hh | hr
    · have := h.room; rw [cap, hh.2.2.1] at this; simp at this; omega
    · have h2 := hr.2.2.1
      have h1 := hr.1
      have h3 := hr.2.1
      have := h.start
      have h4 := h.room
      have hpos : 0 < r.room / 2 := by omega
      simp only [regrowC, newBuf, cap, Go.copy, if_pos hpos] at *
      unfold Ring.wrap at h2
      simp
      split at h2 <;> omega
  · rfl

/-- One call, exactly. -/
theorem stepC_exact {s : Deque α} {r : RingState α} (h : Matches s r) (op : Option (DequeOp α)) :
    ∃ s', stepC s op = .ok (s', (dequeReal r op).2, dequeMoves r op) ∧ Matches s' (dequeReal r op).1 := by
  obtain ⟨s1, k, e1, h1⟩ := counted_step h op
  refine ⟨s1, ?_, h1⟩
  suffices hk : k = dequeMoves r op by rw [e1, hk]
  rcases op with _ | op
  · rw [← shrinkC_exact h]
    simp only [stepC, Res.ok.injEq, Prod.mk.injEq] at e1; omega
  · have hnil : s.d = [] → r.room = 0 ∧ s = ⟨0, 0, []⟩ := by
      intro h0
      refine ⟨by rw [← h.room]; exact nil_iff_room.mp h0, ?_⟩
      rcases h.items with hh | hh
      · obtain ⟨hd, tl, d⟩ := s
        obtain ⟨rfl, rfl, rfl, -⟩ := hh
        rfl
      · have := hh.tail_lt
        rw [h0] at this
        simp at this
    have hrel : s.d ≠ [] → r.room ≠ 0 ∧ Ring.Rel s.head s.tail s.d r.items := by
      intro h0
      refine ⟨by rw [← h.room]; exact fun e => h0 (nil_iff_room.mpr e), ?_⟩
      rcases h.items with hh | hh
      · exact absurd hh.2.2.1 h0
      · exact hh
    cases op with
    | pushFront v =>
      rcases hx : pushFrontC s v with ⟨s', b, n⟩ | _
      · simp only [stepC, hx, Res.bind_ok, Res.pure_eq, Res.ok.injEq, Prod.mk.injEq] at e1
        rw [← e1.2.2]
        by_cases h0 : s.d = []
        · obtain ⟨hr, rfl⟩ := hnil h0
          simp [pushFrontC, init, newBuf, clear, Go.set, cap, List.replicate, prev] at hx
          simp [dequeMoves, ringReady, hr, hx.2.2.symm]
        · obtain ⟨hr, hrel⟩ := hrel h0
          have := pushFrontC_exact hrel h0 hx
          simp only [prev, h.room, h.start] at this
          simp only [dequeMoves, ringReady, hr, if_false, slotBefore]
          exact this
      · rw [stepC, hx] at e1; simp at e1
    | pushBack v =>
      rcases hx : pushBackC s v with ⟨s', b, n⟩ | _
      · simp only [stepC, hx, Res.bind_ok, Res.pure_eq, Res.ok.injEq, Prod.mk.injEq] at e1
        rw [← e1.2.2]
        by_cases h0 : s.d = []
        · obtain ⟨hr, rfl⟩ := hnil h0
          simp [pushBackC, init, newBuf, clear, Go.set, cap, List.replicate, next] at hx
          simp [dequeMoves, ringReady, hr, hx.2.2.symm]
        · obtain ⟨hr, hrel⟩ := hrel h0
          have := pushBackC_exact hrel h0 hx
          rw [h.room, h.start] at this
          simp only [dequeMoves, ringReady, hr, if_false]
          exact this
      · rw [stepC, hx] at e1; simp at e1
    | _ => exact count_idle e1 (by simp) (by simp)

/-- The moves of a history, call by call. -/
def totalMoves (r : RingState α) : List (Option (DequeOp α)) → Nat
  | [] => 0
  | op :: ops => dequeMoves r op + totalMoves (dequeReal r op).1 ops

/-- **C127** (deque).  The elements moved, exactly, for every history. -/
theorem C127_deque_exact (ops : List (Option (DequeOp α))) :
    ∃ s os, runC (zero : Deque α) ops = .ok (s, os, totalMoves ⟨[], 0, 0⟩ ops) := by
  have key : ∀ (s : Deque α) (r : RingState α), Matches s r → ∃ s' os, runC s ops = .ok (s', os, totalMoves r ops) := by
    induction ops with
    | nil => exact fun s r _ => ⟨s, [], rfl⟩
    | cons op ops ih =>
      intro s r h
      obtain ⟨s1, e1, h1⟩ := stepC_exact h op
      obtain ⟨s2, os, e2⟩ := ih s1 _ h1
      exact ⟨s2, (dequeReal r op).2 :: os, by simp only [runC, e1, Res.bind_ok, e2, Res.pure_eq, totalMoves]⟩
  exact key zero ⟨[], 0, 0⟩ ⟨holds_zero, rfl, rfl⟩

/-- Sixteen pushes at the back move 24 elements. -/
example : (match runC (zero : Deque Int) ((List.range 16).map fun (i : Nat) => some (.pushBack (i : Int))) with
    | .ok (_, _, n) => some n | .panic => none) = some 24 := by decide

/-- Shrinking again and again: 40 slots with five elements, twice halved. -/
example : (match runC (zero : Deque Int) (some (.init 40) :: (List.range 5).map (fun (i : Nat) => some (.pushBack (i : Int))) ++
    [none, none, none, none]) with
    | .ok (s, _, n) => some (cap s, n) | .panic => none) = some (10, 10) := by decide

example := C127_deque [some (.init 40), some (.pushBack (5 : Int)), some (.pushFront 6), none] 40 (by decide)
  (by intro n h; simp at h; omega)

example := C127_deque_grow [some (.pushBack (5 : Int)), some (.pushFront 6), some .popBack] (by simp)

end Verif.Deque
