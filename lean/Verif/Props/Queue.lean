import Verif.Lemmas.Queue
import Verif.Lemmas.Deque
/-!
# C05, C06 — the queue

`Holds s l` (Lemmas/Queue) says that the ring buffer `s` stores the sequence `l`, oldest first.
-/

set_option linter.unusedSectionVars false

namespace Verif.Queue
open Verif.Spec Verif.Ring
variable {α : Type} [Inhabited α]

/-- The values returned by a history, or `none` when some call panics. -/
def outputs (r : Res (Queue α × List (Out α))) : Option (List (Out α)) :=
  match r with
  | .ok (_, os) => some os
  | .panic => none

/-- **C05 is false.**  With two slots: `Push 1; Pop; Push 2; Push 3` and the queue says it is empty. -/
theorem C05_queue_fifo_false :
    ¬ ∀ ops : List (QueueOp Int), outputs (run zero ops) = some (runSpec queueStep [] ops).2 := by
  intro h
  have := h [.init 2, .push 1, .pop, .push 2, .push 3, .size]
  revert this; decide

/-- Along the whole history no push fills a buffer whose data does not start at index 0. -/
def FillsAtZero (s : Queue α) : List (QueueOp α) → Prop
  | [] => True
  | op :: ops => PushSafe s op ∧ ∀ s' o, step s op = .ok (s', o) → FillsAtZero s' ops

/-- **C05, partial.**  Missing: histories in which a push fills a buffer whose data does not start at
index 0.  All others behave exactly as a FIFO and never panic. -/
theorem C05_queue_fifo_partial (s : Queue α) (l : List α) (h : Holds s l)
    (ops : List (QueueOp α)) (hs : FillsAtZero s ops) :
    ∃ s', run s ops = .ok (s', (runSpec queueStep l ops).2) ∧ Holds s' (runSpec queueStep l ops).1 := by
  induction ops generalizing s l with
  | nil => exact ⟨s, rfl, h⟩
  | cons op ops ih =>
    obtain ⟨s1, e1, h1⟩ := step_refines h op hs.1
    obtain ⟨s2, e2, h2⟩ := ih s1 _ h1 (hs.2 s1 _ e1)
    exact ⟨s2, by simp [run, e1, e2, runSpec], by simpa [runSpec] using h2⟩

theorem holds_zero : Holds (zero : Queue α) [] := Or.inl ⟨rfl, rfl, rfl, rfl⟩

/-- Instance of the hypotheses of `C05_queue_fifo_partial`: a history with a growth and with pops. -/
example : FillsAtZero (init zero 2 : Queue Int) [.push 1, .push 2, .push 3, .pop, .pop, .push 4] := by
  refine ⟨by simp [PushSafe, init, zero, newBuf, clear], fun s o h => ?_⟩
  simp [step, push, init, zero, newBuf, clear, Go.set, cap, List.replicate] at h
  obtain ⟨rfl, _⟩ := h
  refine ⟨by simp [PushSafe], fun s o h => ?_⟩
  simp [step, push, Go.set, cap, regrow, newBuf, Go.copy, List.replicate] at h
  obtain ⟨rfl, _⟩ := h
  refine ⟨by simp [PushSafe], fun s o h => ?_⟩
  simp [step, push, Go.set, cap] at h
  obtain ⟨rfl, _⟩ := h
  refine ⟨trivial, fun s o h => ?_⟩
  simp [step, pop, Go.get, cap] at h
  obtain ⟨rfl, _⟩ := h
  refine ⟨trivial, fun s o h => ?_⟩
  simp [step, pop, Go.get, cap] at h
  obtain ⟨rfl, _⟩ := h
  exact ⟨by simp [PushSafe, size, cap], fun _ _ _ => trivial⟩

/-- **C05, what goes wrong (every state).**  A push that fills a buffer whose data does not start at
index 0 returns true and leaves the queue empty: everything stored, including the new value, is gone. -/
theorem C05_push_loses_all (s : Queue α) (l : List α) (h : Holds s l) (v : α)
    (hfull : l.length + 1 = cap s) (hh : s.head ≠ 0) :
    ∃ s', step s (.push v) = .ok (s', .bool true) ∧ Holds s' [] ∧
      step s' .size = .ok (s', .nat 0) ∧ step s' .pop = .ok (s', .val default false) := by
  obtain ⟨s', e, _, h2⟩ := push_holds h v
  have hH := (h2 ⟨hfull, hh⟩).1
  refine ⟨s', by simp [step, e], hH, by simp [step, hH.size_eq], ?_⟩
  obtain ⟨s2, e2, _, _, _, h3, _⟩ := hH.pop_eq
  rw [h3 rfl] at e2
  exact e2

/-- Instance of its hypotheses. -/
example : Holds (⟨1, 0, [0, 7, 8]⟩ : Queue Int) [7, 8] := Or.inr ⟨by decide, by decide, by decide, by decide⟩

private theorem run_append (s : Queue α) (xs ys : List (QueueOp α)) :
    run s (xs ++ ys) = (do
      let (s', os) ← run s xs
      let (s'', os') ← run s' ys
      return (s'', os ++ os')) := by
  induction xs generalizing s with
  | nil => cases h : run s ys <;> simp [run, h]
  | cons x xs ih =>
    simp only [List.cons_append, run]
    cases h : step s x with
    | panic => simp
    | ok p =>
      simp [ih]
      cases h2 : run p.1 xs with
      | panic => simp
      | ok q =>
        simp
        cases h3 : run q.1 ys <;> simp

private theorem ne_nil_of_cap {s s' : Queue α} (h : s.d ≠ []) (hc : cap s ≤ cap s') : s'.d ≠ [] := by
  intro hx
  have := List.length_pos_iff.mpr h
  simp [cap, hx] at hc
  exact h hc

private theorem pushes_below (vs : List α) : ∀ (s : Queue α) (l : List α), Holds s l → s.d ≠ [] →
    l.length + vs.length < cap s →
    ∃ s', run s (vs.map .push) = .ok (s', vs.map fun _ => .bool true) ∧ Holds s' (l ++ vs) ∧
      s'.head = s.head ∧ cap s' = cap s := by
  induction vs with
  | nil => intro s l h _ _; exact ⟨s, rfl, by simpa using h, rfl, rfl⟩
  | cons v vs ih =>
    intro s l h hd hl
    simp at hl
    obtain ⟨s1, e1, h1, _⟩ := push_holds h v
    obtain ⟨a, b, c⟩ := h1 (by omega)
    have c := c hd (by omega)
    obtain ⟨s2, e2, h2, h3, h4⟩ := ih s1 _ a (ne_nil_of_cap hd (by omega)) (by simp; omega)
    exact ⟨s2, by simp [run, step, e1, e2], by simpa using h2, by omega, by omega⟩

/-- **C05, every capacity is affected.**  For every `n ≥ 2`: create with capacity `n`, push `n-1`
values, pop one, push two more.  All calls succeed, `n` elements should be stored, `Size()` is 0. -/
theorem C05_loss_at_every_capacity (n : Nat) (hn : 2 ≤ n) (vs : List α) (hv : vs.length = n - 1)
    (x y : α) :
    ∃ s' os, run zero (.init n :: (vs.map .push ++ [.pop, .push x, .push y, .size])) =
      .ok (s', os ++ [.nat 0]) ∧ (runSpec queueStep [] (vs.map .push ++ [.pop, .push x, .push y])).1.length = n := by
  obtain ⟨h0, hd0, hh0, hc0⟩ := holds_init (holds_zero (α := α)) (n : Int)
  have hcap : cap (init (zero : Queue α) n) = n := by rw [hc0]; simp [zero]; omega
  obtain ⟨s1, e1, h1, hh1, c1⟩ := pushes_below vs _ _ h0 hd0 (by simp; omega)
  simp at h1
  have hvs : vs ≠ [] := by intro hc; simp [hc] at hv; omega
  obtain ⟨s2, e2, h2, c2, t2, _, hh2⟩ := h1.pop_eq
  have hh2 := hh2 hvs
  have hlt : ¬ (s1.head + 1 ≥ cap s1) := by omega
  rw [if_neg hlt] at hh2
  obtain ⟨s3, e3, h3, _⟩ := push_holds h2 x
  have hl2 : vs.tail.length = n - 2 := by simp; omega
  obtain ⟨a3, b3, c3⟩ := h3 (by omega)
  have c3 := c3 (ne_nil_of_cap hd0 (by omega)) (by omega)
  obtain ⟨s4, e4, a4, b4, _⟩ := C05_push_loses_all s3 _ a3 y (by simp; omega) (by omega)
  refine ⟨s4, .unit :: (vs.map (fun _ => .bool true) ++ [outOpt vs.head?, .bool true, .bool true]), ?_, ?_⟩
  · have hi : step zero (QueueOp.init n) = .ok (init (zero : Queue α) n, .unit) := rfl
    have e3' : step s2 (.push x) = .ok (s3, .bool true) := by simp [step, e3]
    simp [run, hi, run_append, e1, e2, e3', e4, b4]
  · have hp : ∀ (vs : List α) (l : List α) (rest : List (QueueOp α)),
        (runSpec queueStep l (vs.map .push ++ rest)).1 = (runSpec queueStep (l ++ vs) rest).1 := by
      intro vs
      induction vs with
      | nil => intro l rest; simp
      | cons v vs ih => intro l rest; simp [runSpec, queueStep, ih]
    rw [hp]; simp [runSpec, queueStep]; omega

/-- Instance: capacity 8 (the default). -/
example : ∃ s' os, run (zero : Queue Int) (.init 8 :: ([1,2,3,4,5,6,7].map .push ++ [.pop, .push 8, .push 9, .size])) =
      .ok (s', os ++ [.nat 0]) :=
  let ⟨s, os, h, _⟩ := C05_loss_at_every_capacity 8 (by decide) [1,2,3,4,5,6,7] (by decide) 8 9
  ⟨s, os, h⟩

/-- No prefix of the history leaves `c` or more elements stored (in the mathematical sequence). -/
def StaysBelow (c : Nat) (l : List α) (ops : List (QueueOp α)) : Prop :=
  ∀ k, (runSpec queueStep l (ops.take k)).1.length < c

/-- **C05, below capacity.**  A queue created with capacity `c` is an exact FIFO for every history
that never stores `c` or more elements. -/
theorem C05_below_capacity (c : Nat) (hc : 0 < c) (ops : List (QueueOp α))
    (hb : StaysBelow c [] ops) :
    ∃ s', run (init zero c) ops = .ok (s', (runSpec queueStep [] ops).2) ∧
      Holds s' (runSpec queueStep [] ops).1 := by
  have key : ∀ (ops : List (QueueOp α)) (s : Queue α) (l : List α), Holds s l → s.d ≠ [] → cap s = c →
      StaysBelow c l ops →
      ∃ s', run s ops = .ok (s', (runSpec queueStep l ops).2) ∧
        Holds s' (runSpec queueStep l ops).1 := by
    intro ops
    induction ops with
    | nil => intro s l h hd hcap _; exact ⟨s, rfl, h⟩
    | cons op ops ih =>
      intro s l h hd hcap hb
      have hl1 : (queueStep l op).1.length < c := by
        have := hb 1; simpa [runSpec] using this
      have hb' : StaysBelow c (queueStep l op).1 ops := by
        intro k; have := hb (k + 1); simpa [runSpec] using this
      have hstep : ∃ s1, step s op = .ok (s1, (queueStep l op).2) ∧ Holds s1 (queueStep l op).1 ∧
          cap s1 = cap s := by
        cases op with
        | front => exact ⟨s, h.front_eq, h, rfl⟩
        | back => exact ⟨s, h.back_eq, h, rfl⟩
        | pop => obtain ⟨s', a, b, c, _⟩ := h.pop_eq; exact ⟨s', a, b, c⟩
        | size => exact ⟨s, by simp [step, h.size_eq, queueStep], h, rfl⟩
        | empty => refine ⟨s, ?_, h, rfl⟩; cases l <;> simp [step, empty, h.size_eq, queueStep]
        | clear => exact ⟨clear s, rfl, holds_clear h, rfl⟩
        | init n =>
          obtain ⟨a, _, _, d⟩ := holds_init h n
          exact ⟨init s n, rfl, a, by rw [d]; simp [hd]⟩
        | push v =>
          obtain ⟨s', e, h2, _⟩ := push_holds h v
          simp [queueStep] at hl1
          obtain ⟨a, _, b⟩ := h2 (by omega)
          exact ⟨s', by simp [step, e, queueStep], a, b hd (by omega)⟩
      obtain ⟨s1, e1, h1, c1⟩ := hstep
      obtain ⟨s2, e2, h2⟩ := ih s1 _ h1 (ne_nil_of_cap hd (by omega)) (by omega) hb'
      exact ⟨s2, by simp [run, e1, e2, runSpec], by simpa [runSpec] using h2⟩
  obtain ⟨h0, hd0, _, hc0⟩ := holds_init (holds_zero (α := α)) (c : Int)
  exact key ops _ _ h0 hd0 (by rw [hc0]; simp [zero]; omega) hb

/-- Instance: the indices wrap around a 3-slot buffer several times. -/
example : run (init (zero : Queue Int) 3) [.push 1, .push 2, .pop, .push 3, .pop, .push 4, .back, .pop, .pop, .empty]
    = .ok (⟨1, 1, [4, 2, 3]⟩, [.bool true, .bool true, .val 1 true, .bool true, .val 2 true, .bool true,
      .val 4 true, .val 3 true, .val 4 true, .bool true]) := by decide

/-- **C05, batch use.**  Filling first and draining afterwards is exact for any number of pushes
(any number of growths) followed by any calls other than `Push`. -/
theorem C05_fill_then_drain (vs : List α) (ops : List (QueueOp α)) (hp : ∀ op ∈ ops, ∀ v, op ≠ .push v) :
    ∃ s', run zero (vs.map .push ++ ops) = .ok (s', (runSpec queueStep [] (vs.map .push ++ ops)).2) ∧
      Holds s' (runSpec queueStep [] (vs.map .push ++ ops)).1 := by
  have key : ∀ (vs : List α) (s : Queue α) (l : List α), Holds s l → s.head = 0 →
      ∃ s', run s (vs.map .push ++ ops) = .ok (s', (runSpec queueStep l (vs.map .push ++ ops)).2) ∧
        Holds s' (runSpec queueStep l (vs.map .push ++ ops)).1 := by
    intro vs
    induction vs with
    | nil =>
      intro s l h hh
      have : ∀ (ops : List (QueueOp α)) (s : Queue α), (∀ op ∈ ops, ∀ v, op ≠ .push v) → FillsAtZero s ops := by
        intro ops
        induction ops with
        | nil => intro _ _; trivial
        | cons op ops ih =>
          intro s ho
          refine ⟨?_, fun s' o _ => ih s' (fun o ho' => ho o (by simp [ho']))⟩
          cases op <;> simp [PushSafe]
          exact absurd rfl (ho _ List.mem_cons_self _)
      exact C05_queue_fifo_partial s l h _ (this ops s hp)
    | cons v vs ih =>
      intro s l h hh
      obtain ⟨s1, e1, h1, _⟩ := push_holds h v
      obtain ⟨a, b, _⟩ := h1 (by omega)
      obtain ⟨s2, e2, h2⟩ := ih s1 _ a (by omega)
      exact ⟨s2, by simp [run, step, e1, e2, runSpec, queueStep], by simpa [runSpec, queueStep] using h2⟩
  exact key vs _ _ holds_zero rfl

example : ∃ s', run (zero : Queue Int) ((List.range 9).map (fun n => .push (n : Int)) ++ [.pop, .pop, .back, .size])
    = .ok (s', List.replicate 9 (.bool true) ++ [.val 0 true, .val 1 true, .val 8 true, .nat 7]) := by
  obtain ⟨s', h, _⟩ := C05_fill_then_drain (α := Int) ((List.range 9).map (fun n : Nat => (n : Int)))
    [.pop, .pop, .back, .size] (by simp)
  refine ⟨s', ?_⟩
  rw [List.map_map] at h
  rw [show (fun n : Nat => QueueOp.push (n : Int)) = QueueOp.push ∘ (fun n : Nat => (n : Int)) from rfl, h]
  congr 1

/-! ## C06 -/

/-- **C06, partial.**  Missing: queues storing two or more elements whose buffer is actually shrunk.
With at most one element, or when the buffer is not oversized, `Shrink` keeps the contents. -/
theorem C06_shrink_partial (s : Queue α) (l : List α) (h : Holds s l)
    (hc : l.length ≤ 1 ∨ ¬ (cap s > 8 ∧ cap s ≥ 3 * l.length)) :
    ∃ s', shrink s = .ok (s', false) ∧ Holds s' l := by
  have hsz := h.size_eq
  unfold shrink
  rw [hsz]
  split
  case isFalse => exact ⟨s, rfl, h⟩
  case isTrue hbig =>
    have hl : l.length ≤ 1 := by
      rcases hc with hc | hc
      · exact hc
      · exact absurd hbig hc
    have hd : s.d ≠ [] := by intro hx; simp [cap, hx] at hbig
    have hr := h.rel hd
    have ht := hr.tail_lt
    have hz : l.length / 2 = 0 := by omega
    rw [hz]
    by_cases hw : s.tail ≥ s.head
    · rw [if_pos hw, if_pos (by simp only [cap]; omega)]
      refine ⟨_, rfl, ?_⟩
      obtain ⟨e1, e2⟩ := Verif.Deque.Rel.slice hr hw
      simp only [newBuf, gt_iff_lt, Nat.lt_irrefl, if_false]
      rw [e1, e2]
      right
      have : Go.copy s.d l = l ++ s.d.drop l.length := by
        simp only [Go.copy]
        rw [List.take_of_length_le (by have := hr.2.1; omega)]
      simp only [this]
      apply Rel.ofPrefix
      intro hx
      have := congrArg List.length hx
      have := hr.2.1
      simp at *; omega
    · rw [if_neg hw]
      refine ⟨_, rfl, ?_⟩
      have e := Verif.Deque.Rel.slice_wrapped hr (by omega)
      have hlen : s.d.length - s.head + s.tail = l.length := by
        rw [← e]; have := hr.1; simp; omega
      have h1 := hr.1
      have ht0 : s.tail = 0 := by omega
      have hh1 : s.head = s.d.length - 1 := by omega
      rw [ht0] at e
      simp at e
      simp only [regrow, newBuf, gt_iff_lt, Nat.lt_irrefl, if_false, ht0, List.take_zero, e]
      right
      have hl1 : l.length = 1 := by omega
      have hm : min s.d.length 1 = 1 := by simp only [cap] at hbig; omega
      have htk : List.take s.d.length l = l := List.take_of_length_le (by omega)
      have htk1 : List.take 1 (l ++ List.drop 1 s.d) = l := by
        rw [← hl1]; simp
      have hdr : List.drop 1 (l ++ List.drop 1 s.d) = List.drop 1 s.d := by
        rw [← hl1]; simp
      simp only [Go.copy, hl1, hm, htk, htk1, hdr]
      simp
      have := Rel.ofPrefix l (List.drop 1 s.d) (by
        intro hx
        have := congrArg List.length hx
        simp only [cap] at hbig
        simp at this; omega)
      rw [hl1] at this
      simpa using this

private theorem push_panics (s : Queue α) (hd : 0 < s.d.length) (h : s.d.length ≤ s.tail) (v : α) :
    step s (.push v) = .panic := by
  have hd' : s.d ≠ [] := List.length_pos_iff.mp hd
  have : ¬ s.tail < s.d.length := by omega
  simp [step, push, hd', Go.set, this]

/-- **C06 is false**, in every state where `Shrink` acts on two or more elements: afterwards either
the reported size has changed, or the very next `Push` panics. -/
theorem C06_shrink_breaks (s : Queue α) (l : List α) (h : Holds s l) (hl : 2 ≤ l.length)
    (hc : cap s > 8 ∧ cap s ≥ 3 * l.length) :
    ∃ s', shrink s = .ok (s', false) ∧
      (size s' ≠ l.length ∨ ∀ v, step s' (.push v) = .panic) := by
  have hsz := h.size_eq
  have hd : s.d ≠ [] := by intro hx; simp [cap, hx] at hc
  have hr := h.rel hd
  have ht := hr.tail_lt
  have h1 := hr.1
  unfold shrink
  rw [hsz, if_pos hc]
  by_cases hw : s.tail ≥ s.head
  · rw [if_pos hw, if_pos (by simp only [cap]; omega)]
    obtain ⟨e1, e2⟩ := Verif.Deque.Rel.slice hr hw
    refine ⟨_, rfl, Or.inr ?_⟩
    intro v
    have hpos : 0 < l.length / 2 := by omega
    have hlen : (Go.copy (List.replicate (l.length / 2) (default : α)) l).length = l.length / 2 := by
      simp only [Go.copy, List.length_append, List.length_take, List.length_drop, List.length_replicate]
      omega
    simp only [newBuf, gt_iff_lt, hpos, if_true]
    rw [e1, e2]
    exact push_panics _ (by simp only [hlen]; omega) (by simp only [hlen]; omega) v
  · rw [if_neg hw]
    have e := Verif.Deque.Rel.slice_wrapped hr (by omega)
    have hlen : s.d.length - s.head + s.tail = l.length := by
      rw [← e]; simp; omega
    refine ⟨_, rfl, ?_⟩
    have hpos : 0 < l.length / 2 := by omega
    have hne : l.length / 2 ≠ 0 := by omega
    simp only [regrow, newBuf, gt_iff_lt, hpos, if_true, List.length_replicate, List.length_drop,
      List.length_take]
    have hm : min s.tail s.d.length = s.tail := by omega
    rw [hm]
    simp only [size]
    rw [if_pos (Nat.zero_le _), Nat.sub_zero]
    by_cases heq : min (l.length / 2) (s.d.length - s.head) + min (min (l.length / 2) (s.d.length - s.head)) s.tail = l.length
    · right
      intro v
      have hn1 : min (l.length / 2) (s.d.length - s.head) = l.length / 2 := by omega
      rw [heq, hn1]
      have hlen2 : ∀ d1 : List α, (Go.copy (List.take (l.length / 2) (Go.copy (List.replicate (l.length / 2) (default : α)) d1))
          (List.take s.tail s.d) ++ List.drop (l.length / 2) (Go.copy (List.replicate (l.length / 2) (default : α)) d1)).length
          = l.length / 2 := by
        intro d1; simp [Go.copy]; omega
      exact push_panics _ (by simp only [hlen2]; omega) (by simp only [hlen2]; omega) v
    · exact Or.inl heq

/-- Instances of the hypotheses of the two theorems, and the concrete effect. -/
example : Holds (⟨1, 4, [0, 7, 8, 9, 0, 0, 0, 0, 0]⟩ : Queue Int) [7, 8, 9] :=
  Or.inr ⟨by decide, by decide, by decide, by decide⟩
example : shrink (⟨1, 4, [0, 7, 8, 9, 0, 0, 0, 0, 0]⟩ : Queue Int) = .ok (⟨0, 3, [7]⟩, false) := by decide
example : Holds (⟨8, 0, [0, 0, 0, 0, 0, 0, 0, 0, 5]⟩ : Queue Int) [5] ∧
    shrink (⟨8, 0, [0, 0, 0, 0, 0, 0, 0, 0, 5]⟩ : Queue Int) = .ok (⟨0, 1, [5, 0, 0, 0, 0, 0, 0, 0, 5]⟩, false) :=
  ⟨Or.inr ⟨by decide, by decide, by decide, by decide⟩, by decide⟩

/-- A stored element moves to the front when the rest of the array is free, and a queue too full to shrink is left. -/
example := C06_shrink_partial (⟨8, 0, [0, 0, 0, 0, 0, 0, 0, 0, 5]⟩ : Queue Int) [5]
  (Or.inr ⟨by decide, by decide, by decide, by decide⟩) (.inl (by decide))
example := C06_shrink_partial (⟨1, 0, [0, 7, 8]⟩ : Queue Int) [7, 8]
  (Or.inr ⟨by decide, by decide, by decide, by decide⟩) (.inr (by decide))

end Verif.Queue
