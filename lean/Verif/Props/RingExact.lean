import Verif.Spec.Ring
import Verif.Props.Queue
import Verif.Props.Deque
import Mathlib.Tactic.SplitIfs
/-!
# C124: queue and deque exactly, defects included
-/

set_option linter.unusedSectionVars false

namespace Verif.Queue
open Verif.Spec Verif.Ring
variable {α : Type} [Inhabited α]

/-- The queue `s` is described by the table `r`. -/
structure Matches (s : Queue α) (r : RingState α) : Prop where
  items : Holds s r.items
  start : s.head = r.start
  room : cap s = r.room

theorem nil_iff_room {s : Queue α} : s.d = [] ↔ cap s = 0 := by simp [cap]

theorem push_shape {s : Queue α} {l : List α} (h : Holds s l) (v : α) {s' : Queue α} (e : push s v = .ok (s', true)) :
    s'.head = s.head ∧
      cap s' = if s.d = [] then 8 else if l.length + 1 = cap s ∧ s.head = 0 then cap s * 2 else cap s := by
  obtain ⟨hd, tl, d⟩ := s
  by_cases hd0 : d = []
  · subst hd0
    simp [Holds, Rel] at h
    obtain ⟨rfl, rfl, rfl⟩ := h
    simp [push, init, newBuf, clear, Go.set, cap, List.replicate] at e
    subst e
    simp [cap]
  · have hr : Rel hd tl d l := h.rel hd0
    have ht := hr.tail_lt
    have h1 := hr.1
    have h3 := hr.2.1
    by_cases hwrap : tl + 1 ≥ d.length
    · by_cases hz : hd = 0
      · subst hz
        have hlen : l.length + 1 = d.length := by
          have h2 := hr.2.2.1; unfold wrap at h2; split at h2 <;> omega
        have e1 := regrow_zero (d.set tl v) (by simpa using hd0)
        simp [cap] at e1
        simp [push, hd0, Go.set, ht, cap, e1, hwrap] at e
        subst e
        simp [cap, hd0, hlen]; omega
      · have hroom : l.length + 1 < d.length := by
          have h2 := hr.2.2.1; unfold wrap at h2; split at h2 <;> omega
        simp [push, hd0, Go.set, ht, cap, hwrap, Ne.symm hz] at e
        subst e
        simp [cap, hd0, hz]
    · have hlt : ¬ (d.length ≤ tl + 1) := by omega
      simp [push, hd0, Go.set, ht, cap, hlt] at e
      subst e
      refine ⟨rfl, ?_⟩
      have : ¬ (l.length + 1 = d.length ∧ hd = 0) := by
        rintro ⟨a, rfl⟩
        have h2 := hr.2.2.1; unfold wrap at h2; split at h2 <;> omega
      simp [cap, hd0, this]

theorem matches_step {s : Queue α} {r : RingState α} (h : Matches s r) (op : QueueOp α) :
    ∃ s', step s op = .ok (s', (queueReal r op).2) ∧ Matches s' (queueReal r op).1 := by
  obtain ⟨hi, hs, hc⟩ := h
  cases op with
  | front => exact ⟨s, hi.front_eq, hi, hs, hc⟩
  | back => exact ⟨s, hi.back_eq, hi, hs, hc⟩
  | size => exact ⟨s, by simp [step, hi.size_eq, queueReal], hi, hs, hc⟩
  | empty =>
    refine ⟨s, ?_, hi, hs, hc⟩
    simp only [step, empty, hi.size_eq, queueReal]
    cases r.items <;> simp
  | clear => exact ⟨clear s, rfl, holds_clear hi, rfl, hc⟩
  | init n =>
    obtain ⟨a, _, b, c⟩ := holds_init hi n
    refine ⟨init s n, rfl, a, b, ?_⟩
    simp only [queueReal, ringRoom, c, nil_iff_room, hc]
  | pop =>
    obtain ⟨s', a, b, c, _, d, e⟩ := hi.pop_eq
    by_cases hl : r.items = []
    · rw [d hl] at a
      exact ⟨s, by simpa [queueReal, hl, outOpt] using a, by simpa [queueReal, hl] using ⟨hi, hs, hc⟩⟩
    · refine ⟨s', by simpa [queueReal, hl] using a, ?_⟩
      simp only [queueReal, if_neg hl]
      exact ⟨b, by rw [e hl]; simp only [slotAfter, hs, hc], by rw [c, hc]⟩
  | push v =>
    obtain ⟨s', e, h1, h2⟩ := push_holds hi v
    obtain ⟨g1, g2⟩ := push_shape hi v e
    refine ⟨s', ?_, ?_⟩
    · simp only [step, e, Res.bind_ok, Res.pure_eq, queueReal]
      split_ifs <;> rfl
    · by_cases hd : s.d = []
      · have hr0 : r.room = 0 := by rw [← hc]; exact nil_iff_room.1 hd
        have hl : r.items = [] ∧ s.head = 0 := by
          rcases hi with h | h
          · exact ⟨h.2.2.2, h.1⟩
          · have := h.1; simp [hd] at this
        simp only [queueReal, ringReady, hr0, if_true, List.length_nil, Nat.zero_add, Nat.reduceEqDiff, if_false]
        have := (h1 (by rw [hl.1, hl.2]; simp)).1
        rw [hl.1] at this
        exact ⟨this, by rw [g1, hl.2], by rw [g2, if_pos hd]⟩
      · have hr0 : r.room ≠ 0 := by rw [← hc]; exact fun h => hd (nil_iff_room.2 h)
        rw [if_neg hd] at g2
        simp only [queueReal, ringReady, hr0, if_false]
        by_cases hf : r.items.length + 1 = r.room
        · rw [if_pos hf]
          by_cases hz : r.start = 0
          · rw [if_pos hz]
            refine ⟨(h1 (by rw [hs]; simp [hz])).1, by rw [g1, hs, hz], ?_⟩
            rw [g2, if_pos ⟨by rw [hc, hf], by rw [hs, hz]⟩, hc]
          · rw [if_neg hz]
            refine ⟨(h2 ⟨by rw [hc, hf], by rw [hs]; exact hz⟩).1, by rw [g1, hs], ?_⟩
            rw [g2, if_neg (by rw [hs]; exact fun h => hz h.2), hc]
        · rw [if_neg hf]
          refine ⟨(h1 (by rw [hc]; exact fun h => hf h.1)).1, by rw [g1, hs], ?_⟩
          rw [g2, if_neg (by rw [hc]; exact fun h => hf h.1), hc]

/-- **C124** (queue).  No call on a queue ever panics, and for every history of calls the results are those of the table
`queueReal`: a FIFO, except that the push that fills the buffer while the first element is not in slot 0 drops everything. -/
theorem C124_queue (ops : List (QueueOp α)) :
    ∃ s', run (zero : Queue α) ops = .ok (s', (runSpec queueReal ⟨[], 0, 0⟩ ops).2) ∧
      Matches s' (runSpec queueReal ⟨[], 0, 0⟩ ops).1 := by
  have key : ∀ (s : Queue α) (r : RingState α), Matches s r →
      ∃ s', run s ops = .ok (s', (runSpec queueReal r ops).2) ∧ Matches s' (runSpec queueReal r ops).1 := by
    induction ops with
    | nil => exact fun s r h => ⟨s, rfl, h⟩
    | cons op ops ih =>
      intro s r h
      obtain ⟨s1, e1, h1⟩ := matches_step h op
      obtain ⟨s2, e2, h2⟩ := ih s1 _ h1
      exact ⟨s2, by simp [run, e1, e2, runSpec], by simpa [runSpec] using h2⟩
  exact key zero _ ⟨holds_zero, rfl, rfl⟩

/-- After the loss the queue goes on as an empty one of the same capacity. -/
example : outputs (run (zero : Queue Int) [.init 2, .push 1, .pop, .push 2, .push 3, .size, .push 4, .front]) =
    some [.unit, .bool true, .val 1 true, .bool true, .bool true, .nat 0, .bool true, .val 4 true] := by decide

/-! ## The queue after `Shrink` -/

theorem run_append' (s : Queue α) (xs ys : List (QueueOp α)) :
    run s (xs ++ ys) = (do
      let (s', os) ← run s xs
      let (s'', os') ← run s' ys
      return (s'', os ++ os')) := by
  induction xs generalizing s with
  | nil => cases h : run s ys <;> simp [run, h]
  | cons x xs ih =>
    simp only [List.cons_append, run]
    cases h : step s x with
    | panic => simp
    | ok p =>
      simp [ih]
      cases h2 : run p.1 xs with
      | panic => simp
      | ok q =>
        simp
        cases h3 : run q.1 ys <;> simp

/-- **C06, what goes wrong.**  After `Shrink` has acted on a queue of two or more elements that does not wrap around, `Pop`
returns the first half of the elements again and again, for ever; at any time the queue says it is not empty, the next `Push`
and `Back` panic, and only `Clear` makes it usable again, with half as many slots as there were elements. -/
theorem C06_pop_forever (s : Queue α) (l : List α) (h : Holds s l) (hw : s.head ≤ s.tail) (hl : 2 ≤ l.length)
    (hc : cap s > 8 ∧ cap s ≥ 3 * l.length) : ∃ s', shrink s = .ok (s', false) ∧ ∀ n, ∃ s'',
      run s' (List.replicate n .pop) = .ok (s'', (List.range n).map fun i => outOpt l[i % (l.length / 2)]?) ∧
      step s'' .empty = .ok (s'', .bool false) ∧ (∀ v, step s'' (.push v) = .panic) ∧ step s'' .back = .panic ∧
      Matches (clear s'') ⟨[], 0, l.length / 2⟩ := by
  have hsz := h.size_eq
  have hd : s.d ≠ [] := by intro hx; simp [cap, hx] at hc
  have hr := h.rel hd
  have ht := hr.tail_lt
  obtain ⟨e1, e2⟩ := Verif.Deque.Rel.slice hr hw
  have hpos : 0 < l.length / 2 := by omega
  have hlen : (l.take (l.length / 2)).length = l.length / 2 := by simp; omega
  refine ⟨⟨0, l.length, l.take (l.length / 2)⟩, ?_, fun n => ?_⟩
  · unfold shrink
    rw [hsz, if_pos hc, if_pos hw, if_pos (by simp only [cap]; omega)]
    rw [e2] at e1
    simp only [newBuf, gt_iff_lt, hpos, if_true, e2, e1]
    congr 3
    simp only [Go.copy, List.length_replicate, List.drop_replicate]
    rw [show l.length / 2 - l.length = 0 by omega]
    simp
  · have key : run (⟨0, l.length, l.take (l.length / 2)⟩ : Queue α) (List.replicate n .pop) =
        .ok (⟨n % (l.length / 2), l.length, l.take (l.length / 2)⟩, (List.range n).map fun i => outOpt l[i % (l.length / 2)]?) := by
      induction n with
      | zero => simp [run]
      | succ n ih =>
        have hk : n % (l.length / 2) < l.length / 2 := Nat.mod_lt _ hpos
        have hg : (l.take (l.length / 2))[n % (l.length / 2)]? = some (l[n % (l.length / 2)]'(by omega)) := by
          rw [List.getElem?_take_of_lt hk, List.getElem?_eq_getElem]
        have hstep : step (⟨n % (l.length / 2), l.length, l.take (l.length / 2)⟩ : Queue α) .pop =
            .ok (⟨(n + 1) % (l.length / 2), l.length, l.take (l.length / 2)⟩, outOpt l[n % (l.length / 2)]?) := by
          have hne : n % (l.length / 2) ≠ l.length := by omega
          have e : (n + 1) % (l.length / 2) = if n % (l.length / 2) + 1 ≥ l.length / 2 ∧ n % (l.length / 2) + 1 ≠ l.length
              then 0 else n % (l.length / 2) + 1 := by
            rw [Nat.add_mod_eq_ite]
            by_cases h1 : l.length / 2 = 1
            · simp [h1, Nat.mod_one]; omega
            · rw [Nat.mod_eq_of_lt (show 1 < l.length / 2 by omega)]
              split_ifs <;> omega
          rw [e]
          simp only [step, pop, hne, ne_eq, not_false_eq_true, if_true, Go.get, hg, Res.bind_ok, Res.pure_eq, cap, hlen]
          rw [List.getElem?_eq_getElem (show n % (l.length / 2) < l.length by omega)]
          rfl
        rw [List.replicate_succ', run_append', ih]
        simp only [Res.bind_ok, run, hstep, Res.pure_eq, List.range_succ, List.map_append, List.map_cons, List.map_nil]
    have hk : n % (l.length / 2) < l.length / 2 := Nat.mod_lt _ hpos
    have hne : n % (l.length / 2) ≠ l.length := by omega
    have hd' : l.take (l.length / 2) ≠ [] := by
      intro hx; rw [hx] at hlen; simp at hlen; omega
    refine ⟨_, key, ?_, fun v => ?_, ?_, ?_, rfl, hlen⟩
    · simp only [step, empty, size, ge_iff_le, if_pos (show n % (l.length / 2) ≤ l.length by omega)]
      congr 3
      simp; omega
    · have : ¬ l.length < (l.take (l.length / 2)).length := by omega
      simp only [step, push, hd', Go.set, if_false, this, Res.bind_panic]
    · have h0 : l.length ≠ 0 := by omega
      have : (l.take (l.length / 2))[l.length - 1]? = none := List.getElem?_eq_none (by omega)
      simp [step, back, hne, Go.get, h0, this]
    · refine Or.inr ?_
      have := Rel.ofPrefix ([] : List α) (l.take (l.length / 2)) hd'
      simpa [clear] using this

/-- Nine slots with three elements: `Pop` returns 7 for ever. -/
example : shrink (⟨1, 4, [0, 7, 8, 9, 0, 0, 0, 0, 0]⟩ : Queue Int) = .ok (⟨0, 3, [7]⟩, false) ∧
    outputs (run (⟨0, 3, [7]⟩ : Queue Int) [.pop, .pop, .pop, .pop, .size]) =
      some [.val 7 true, .val 7 true, .val 7 true, .val 7 true, .nat 3] := by decide

end Verif.Queue

namespace Verif.Deque
open Verif.Spec Verif.Ring
variable {α : Type} [Inhabited α]

/-- The deque `s` is described by the table `r`. -/
structure Matches (s : Deque α) (r : RingState α) : Prop where
  items : Holds s r.items
  start : s.head = r.start
  room : cap s = r.room

theorem nil_iff_room {s : Deque α} : s.d = [] ↔ cap s = 0 := by simp [cap]

theorem folded_eq (h : Nat) (l : List α) : folded h l = mangle h l := rfl

theorem popFront_shape {s : Deque α} {l : List α} (h : Holds s l) {s' : Deque α} {o : Out α}
    (e : step s .popFront = .ok (s', o)) : s'.head = if l = [] then s.head else next s s.head := by
  by_cases hl : l = []
  · have := h.empty_iff.mpr hl
    simp [step, popFront, this] at e
    rw [if_pos hl, ← e.1]
  · have hne : ¬ s.head = s.tail := fun hc => hl (h.empty_iff.mp hc)
    rw [if_neg hl]
    cases hg : Go.get s.d s.head with
    | panic => simp [step, popFront, hne, hg] at e
    | ok v =>
      simp [step, popFront, hne, hg] at e
      rw [← e.1]

theorem wrapped_iff {s : Deque α} {l : List α} (h : Holds s l) (hd : s.d ≠ []) :
    s.head ≤ s.tail ↔ s.head + l.length < cap s := by
  rcases h with h | h
  · exact absurd h.2.2.1 hd
  · obtain ⟨h1, h2, h3, -⟩ := h
    unfold wrap at h3
    simp only [cap]
    split at h3 <;> omega

theorem shrink_head {s : Deque α} {l : List α} (h : Holds s l) (hc : cap s > 8 ∧ cap s ≥ 3 * l.length) :
    (shrink s).1.head = 0 := by
  have hsz := h.size_eq
  unfold shrink
  rw [hsz, if_pos hc]
  split <;> rfl

theorem matches_step {s : Deque α} {r : RingState α} (h : Matches s r) (op : Option (DequeOp α)) :
    ∃ s', stepS s op = .ok (s', (dequeReal r op).2) ∧ Matches s' (dequeReal r op).1 := by
  obtain ⟨hi, hs, hc⟩ := h
  have hp : ∀ i, prev s i = if i = 0 then r.room - 1 else i - 1 := fun i => by simp only [prev, hc]
  rcases op with _ | op
  · -- Shrink
    obtain ⟨h1, h2, h3⟩ := C04_shrink_result s r.items hi
    refine ⟨(shrink s).1, ?_, ?_⟩
    · simp only [stepS, h1, dequeReal, Res.pure_eq]
      split_ifs <;> rfl
    · simp only [dequeReal]
      by_cases hg : r.room > 8 ∧ r.room ≥ 3 * r.items.length
      · have hg' : cap s > 8 ∧ cap s ≥ 3 * r.items.length := by rw [hc]; exact hg
        have hd : s.d ≠ [] := by intro hx; have := nil_iff_room.1 hx; omega
        have hw := wrapped_iff hi hd
        rw [hs, hc] at hw
        rw [if_pos hg]
        by_cases hf : r.start + r.items.length < r.room
        · rw [if_pos hf]
          exact ⟨(C04_shrink_partial s r.items hi (by rw [hs]; exact hw.2 hf)).1, shrink_head hi hg', by rw [h2 hg', hc]⟩
        · rw [if_neg hf]
          have : s.tail < s.head := by
            rcases Nat.lt_or_ge s.tail s.head with h | h
            · exact h
            · rw [hs] at h; exact absurd (hw.1 h) hf
          have := (C04_shrink_wrapped s r.items hi this hg').1
          rw [hc, hs] at this
          exact ⟨this, shrink_head hi hg', by rw [h2 hg', hc]⟩
      · rw [if_neg hg, h3 (by rw [hc]; exact hg)]
        exact ⟨hi, hs, hc⟩
  cases op with
  | front => exact ⟨s, hi.front_eq, hi, hs, hc⟩
  | back => exact ⟨s, hi.back_eq, hi, hs, hc⟩
  | size => exact ⟨s, by simp [stepS, step, hi.size_eq, dequeReal], hi, hs, hc⟩
  | empty =>
    refine ⟨s, ?_, hi, hs, hc⟩
    simp only [stepS, step, empty, hi.size_eq, dequeReal]
    cases r.items <;> simp
  | clear => exact ⟨clear s, rfl, holds_clear hi, rfl, hc⟩
  | init n =>
    obtain ⟨a, _, b, c⟩ := holds_init hi n
    refine ⟨init s n, rfl, a, b, ?_⟩
    simp only [dequeReal, ringRoom, c, nil_iff_room, hc]
  | popFront =>
    obtain ⟨s', a, b, c⟩ := hi.popFront_eq
    have e := popFront_shape hi a
    by_cases hl : r.items = []
    · rw [if_pos hl] at e
      refine ⟨s', by simpa [stepS, dequeReal, hl, outOpt] using a, ?_⟩
      simp only [dequeReal, if_pos hl]
      exact ⟨by simpa [hl] using b, by rw [e, hs], by rw [c, hc]⟩
    · rw [if_neg hl] at e
      refine ⟨s', by simpa [stepS, dequeReal, hl] using a, ?_⟩
      simp only [dequeReal, if_neg hl]
      exact ⟨b, by rw [e]; simp only [next, slotAfter, hs, hc], by rw [c, hc]⟩
  | popBack =>
    obtain ⟨s', a, b, c, d⟩ := hi.popBack_eq
    exact ⟨s', a, b, by rw [d, hs]; rfl, by rw [c, hc]; rfl⟩
  | pushBack v =>
    obtain ⟨s', e, h1, h2, h3⟩ := pushBack_holds hi v
    refine ⟨s', ?_, ?_⟩
    · simp only [stepS, step, e, Res.bind_ok, Res.pure_eq, dequeReal]
      split_ifs <;> rfl
    · by_cases hd : s.d = []
      · have hr0 : r.room = 0 := by rw [← hc]; exact nil_iff_room.1 hd
        obtain ⟨a, b, c, -⟩ := h1 hd
        rw [(hi.nil_of_noBuf hd).1] at a
        simp only [dequeReal, ringReady, hr0, if_true, List.length_nil, Nat.zero_add, Nat.reduceEqDiff, if_false]
        exact ⟨a, b, c⟩
      · have hr0 : r.room ≠ 0 := by rw [← hc]; exact fun h => hd (nil_iff_room.2 h)
        simp only [dequeReal, ringReady, hr0, if_false]
        by_cases hf : r.items.length + 1 = r.room
        · rw [if_pos hf]
          obtain ⟨a, b, c⟩ := h3 hd (by rw [hc, hf])
          rw [hc, hs] at c
          exact ⟨c, a, by rw [b, hc]⟩
        · rw [if_neg hf]
          have hlt : r.items.length + 1 < cap s := by
            rcases hi with h | h
            · exact absurd h.2.2.1 hd
            · have := h.2.1; simp only [cap] at hc ⊢; omega
          obtain ⟨a, b, c⟩ := h2 hd hlt
          exact ⟨a, by rw [b, hs], by rw [c, hc]⟩
  | pushFront v =>
    obtain ⟨s', e, h1, h2, h3⟩ := pushFront_holds hi v
    refine ⟨s', ?_, ?_⟩
    · simp only [stepS, step, e, Res.bind_ok, Res.pure_eq, dequeReal]
      split_ifs <;> rfl
    · by_cases hd : s.d = []
      · have hr0 : r.room = 0 := by rw [← hc]; exact nil_iff_room.1 hd
        obtain ⟨a, b, c, -⟩ := h1 hd
        rw [(hi.nil_of_noBuf hd).1] at a
        simp only [dequeReal, ringReady, hr0, if_true, List.length_nil, Nat.zero_add, Nat.reduceEqDiff, if_false]
        exact ⟨a, b, c⟩
      · have hr0 : r.room ≠ 0 := by rw [← hc]; exact fun h => hd (nil_iff_room.2 h)
        simp only [dequeReal, ringReady, hr0, if_false]
        by_cases hf : r.items.length + 1 = r.room
        · rw [if_pos hf]
          obtain ⟨a, b, c⟩ := h3 hd (by rw [hc, hf])
          rw [hc, hp, hs] at c
          exact ⟨c, a, by rw [b, hc]⟩
        · rw [if_neg hf]
          have hlt : r.items.length + 1 < cap s := by
            rcases hi with h | h
            · exact absurd h.2.2.1 hd
            · have := h.2.1; simp only [cap] at hc ⊢; omega
          obtain ⟨a, b, c, -⟩ := h2 hd hlt
          exact ⟨a, by rw [b, hp, hs]; rfl, by rw [c, hc]⟩

/-- **C124** (deque).  No call on a deque ever panics, and for every history of calls, `Shrink` included, the results are those
of the table `dequeReal`: a double-ended sequence, except that a buffer that grows or shrinks folds the elements behind its
end over the first ones. -/
theorem C124_deque (ops : List (Option (DequeOp α))) :
    ∃ s', runS (zero : Deque α) ops = .ok (s', (runSpec dequeReal ⟨[], 0, 0⟩ ops).2) ∧
      Matches s' (runSpec dequeReal ⟨[], 0, 0⟩ ops).1 := by
  have key : ∀ (s : Deque α) (r : RingState α), Matches s r →
      ∃ s', runS s ops = .ok (s', (runSpec dequeReal r ops).2) ∧ Matches s' (runSpec dequeReal r ops).1 := by
    induction ops with
    | nil => exact fun s r h => ⟨s, rfl, h⟩
    | cons op ops ih =>
      intro s r h
      obtain ⟨s1, e1, h1⟩ := matches_step h op
      obtain ⟨s2, e2, h2⟩ := ih s1 _ h1
      exact ⟨s2, by simp [runS, e1, e2, runSpec], by simpa [runSpec] using h2⟩
  exact key zero _ ⟨holds_zero, rfl, rfl⟩

/-- With two slots `1, 2` become `2, 0` when the first is not in slot 0. -/
example : outputs (runS (zero : Deque Int) [some (.init 2), some (.pushFront 1), some (.pushBack 2), some .popFront,
    some .popFront, none]) = some [.unit, .bool true, .bool true, .val 2 true, .val 0 true, .bool false] := by decide

end Verif.Deque
