import Mathlib.Tactic.SplitIfs
import Verif.Lemmas.Deque
/-!
# C02, C03, C04 — the double-ended queue

`Holds s l` (Lemmas/Deque) says that the ring buffer `s` stores the sequence `l`, front first:
element `i` of `l` is in slot `(head + i) mod cap`, and at least one slot is free.
-/

set_option linter.unusedSectionVars false

namespace Verif.Deque
open Verif.Spec Verif.Ring
variable {α : Type} [Inhabited α]

/-- The values returned by a history, or `none` when some call panics. -/
def outputs (r : Res (Deque α × List (Out α))) : Option (List (Out α)) :=
  match r with
  | .ok (_, os) => some os
  | .panic => none

/-- **C02 is false.**  A deque created with two slots and used as a plain FIFO returns a wrong value:
after `PushBack 1; PopFront; PushBack 2; PushBack 3` the next `PopFront` must return 2. -/
theorem C02_deque_sequence_false :
    ¬ ∀ ops : List (DequeOp Int), outputs (run zero ops) = some (runSpec dequeStep [] ops).2 := by
  intro h
  have := h [.init 2, .pushBack 1, .popFront, .pushBack 2, .pushBack 3, .popFront]
  revert this; decide

/-- The buffer only ever grows while its data starts at index 0, along the whole history. -/
def GrowsAtZero (s : Deque α) : List (DequeOp α) → Prop
  | [] => True
  | op :: ops => GrowSafe s op ∧ ∀ s' o, step s op = .ok (s', o) → GrowsAtZero s' ops

/-- **C02, partial.**  Missing: histories in which a push fills a buffer whose data does not start at
index 0.  For all others every returned value is that of a mathematical double-ended sequence, and
no call panics. -/
theorem C02_deque_sequence_partial (s : Deque α) (l : List α) (h : Holds s l)
    (ops : List (DequeOp α)) (hs : GrowsAtZero s ops) :
    ∃ s', run s ops = .ok (s', (runSpec dequeStep l ops).2) ∧ Holds s' (runSpec dequeStep l ops).1 := by
  induction ops generalizing s l with
  | nil => exact ⟨s, rfl, h⟩
  | cons op ops ih =>
    obtain ⟨s1, e1, h1⟩ := step_refines h op hs.1
    obtain ⟨s2, e2, h2⟩ := ih s1 _ h1 (hs.2 s1 _ e1)
    exact ⟨s2, by simp [run, e1, e2, runSpec], by simpa [runSpec] using h2⟩

/-- The two starting points: the zero value and a deque made by `Init`. -/
theorem holds_zero : Holds (zero : Deque α) [] := Or.inl ⟨rfl, rfl, rfl, rfl⟩
theorem holds_new (n : Int) : Holds (init (zero : Deque α) n) [] := (holds_init holds_zero n).1

/-- Instance of the hypotheses of `C02_deque_sequence_partial`: a growth, then use at both ends. -/
example : GrowsAtZero (init zero 2 : Deque Int) [.pushBack 1, .pushBack 2, .pushFront 3, .popBack] := by
  refine ⟨by simp [GrowSafe, init, zero, newBuf, clear], fun s o h => ?_⟩
  simp [step, pushBack, init, zero, newBuf, clear, Go.set, cap, next, List.replicate] at h
  obtain ⟨rfl, _⟩ := h
  refine ⟨by simp [GrowSafe], fun s o h => ?_⟩
  simp [step, pushBack, Go.set, cap, next, regrow, newBuf, Go.copy, List.replicate] at h
  obtain ⟨rfl, _⟩ := h
  refine ⟨by simp [GrowSafe, size, cap], fun s o h => ?_⟩
  exact ⟨trivial, fun _ _ _ => trivial⟩

/-- **C02, what goes wrong (every capacity, every contents).**  A push that fills a buffer whose data
does not start at index 0 makes the zero value the last element, whatever was pushed. -/
theorem C02_growth_corrupts (s : Deque α) (l : List α) (h : Holds s l) (v : α)
    (hfull : l.length + 1 = cap s) (hh : s.head ≠ 0) :
    ∃ s', step s (.pushBack v) = .ok (s', .bool true) ∧
      step s' .back = .ok (s', .val default true) := by
  obtain ⟨s', e, _, _, h3⟩ := pushBack_holds h v
  have hd : s.d ≠ [] := by intro hc; simp [cap, hc] at hfull
  obtain ⟨_, _, h6⟩ := h3 hd hfull
  refine ⟨s', by simp [step, e], ?_⟩
  have hlt : s.head < cap s := by
    rcases h with h | h
    · exact absurd h.1 hh
    · exact h.1
  rw [h6.back_eq, mangle_getLast? (by omega) (by simp; omega)]
  rfl

/-- Concrete instance of the hypotheses of `C02_growth_corrupts`. -/
example : Holds (⟨1, 2, [9, 5, 0, 0]⟩ : Deque Int) [5] :=
  Or.inr ⟨by decide, by decide, by decide, by decide⟩
example : step (⟨1, 0, [9, 5, 6, 7]⟩ : Deque Int) (.pushBack 8)
    = .ok (⟨0, 4, [8, 6, 7, 0, 0, 0, 0, 0]⟩, .bool true) := by decide

private theorem ne_nil_of_cap {s s' : Deque α} (h : s.d ≠ []) (hc : cap s ≤ cap s') : s'.d ≠ [] := by
  intro hx
  have := List.length_pos_iff.mpr h
  simp [cap, hx] at hc
  exact h hc

/-- Pushing a list of values at the front one after the other. -/
private theorem pushFronts (vs : List α) :
    ∀ (s : Deque α) (l : List α), Holds s l → s.d ≠ [] → l.length + vs.length < cap s →
    ∃ s' os, run s (vs.map .pushFront) = .ok (s', os) ∧ Holds s' (vs.reverse ++ l) ∧
      cap s' = cap s ∧ s'.tail = s.tail ∧ s'.d ≠ [] := by
  induction vs with
  | nil => intro s l h hd hl; exact ⟨s, [], rfl, by simpa using h, rfl, rfl, hd⟩
  | cons v vs ih =>
    intro s l h hd hl
    simp at hl
    obtain ⟨s1, e1, _, h2, _⟩ := pushFront_holds h v
    obtain ⟨a, b, c, d⟩ := h2 hd (by omega)
    have hd1 : s1.d ≠ [] := ne_nil_of_cap hd (by omega)
    obtain ⟨s2, os, e2, h3, h4, h5, h6⟩ := ih s1 (v :: l) a hd1 (by simp; omega)
    refine ⟨s2, .bool true :: os, by simp [run, step, e1, e2], by simpa using h3, by omega, by omega, h6⟩

private theorem run_append (s : Deque α) (xs ys : List (DequeOp α)) :
    run s (xs ++ ys) = (do
      let (s', os) ← run s xs
      let (s'', os') ← run s' ys
      return (s'', os ++ os')) := by
  induction xs generalizing s with
  | nil => cases h : run s ys <;> simp [run, h]
  | cons x xs ih =>
    simp only [List.cons_append, run]
    cases h : step s x with
    | panic => simp
    | ok p =>
      simp [ih]
      cases h2 : run p.1 xs with
      | panic => simp
      | ok q =>
        simp
        cases h3 : run q.1 ys <;> simp

/-- **C02, front-only use.**  For every capacity `n ≥ 1`, after `Init(n)` and `2n` calls of
`PushFront` with any values, `Back()` returns the zero value instead of the value pushed first. -/
theorem C02_front_only_corrupts (n : Nat) (hn : 1 ≤ n) (vs : List α) (hv : vs.length = 2 * n) :
    ∃ s' os, run zero ((DequeOp.init n :: vs.map .pushFront)) = .ok (s', os) ∧
      step s' .back = .ok (s', .val default true) := by
  obtain ⟨h0, hd0, hh0, hc0⟩ := holds_init (holds_zero (α := α)) (n : Int)
  have hcap : cap (init (zero : Deque α) n) = n := by
    rw [hc0]; simp [zero]; omega
  -- split vs = a ++ [x] ++ b ++ [y]
  obtain ⟨a, x, b, y, rfl, ha, hb⟩ : ∃ a x b y, vs = a ++ ([x] ++ (b ++ [y])) ∧ a.length = n - 1 ∧
      b.length = n - 1 := by
    refine ⟨vs.take (n-1), vs[n-1], (vs.drop n).dropLast, (vs.drop n).getLast (by
      intro hc; have := congrArg List.length hc; simp at this; omega), ?_, by simp; omega,
      by simp; omega⟩
    rw [List.dropLast_concat_getLast]
    conv => lhs; rw [← List.take_append_drop (n-1) vs]
    congr 1
    rw [List.drop_eq_getElem_cons (by omega)]
    rw [Nat.sub_add_cancel hn]; rfl
  obtain ⟨s1, os1, e1, h1, c1, t1, d1⟩ := pushFronts a _ _ h0 hd0 (by simp; omega)
  have htail1 : s1.tail = 0 := by
    rw [t1]
    simp [init, zero, newBuf, clear]
  -- n-th push
  obtain ⟨s2, e2, _, _, h23⟩ := pushFront_holds h1 x
  obtain ⟨h2h, h2c, h2H⟩ := h23 d1 (by simp; omega)
  have hp1 : prev s1 s1.head = 0 := by
    rcases h1 with hh | hh
    · exact absurd hh.2.2.1 d1
    · obtain ⟨q1, q2, q3, _⟩ := hh
      rw [htail1] at q3
      simp at q3 q2
      simp only [prev, cap] at *
      unfold wrap at q3
      split at q3 <;> split <;> omega
  rw [hp1] at h2H
  have e2' : cap s1 - 0 = (x :: (a.reverse ++ [])).length := by simp; omega
  rw [e2', mangle_full] at h2H
  have d2 : s2.d ≠ [] := ne_nil_of_cap d1 (by omega)
  have htail2 : s2.tail = n := by
    rcases h2H with hh | hh
    · exact absurd hh.2.2.1 d2
    · obtain ⟨q1, q2, q3, _⟩ := hh
      rw [h2h] at q3
      simp at q3 q2
      rw [q3]; simp only [cap] at *; unfold wrap; split <;> omega
  obtain ⟨s3, os3, e3, h3, c3, t3, d3⟩ := pushFronts b _ _ h2H d2 (by simp; omega)
  obtain ⟨s4, e4, _, _, h43⟩ := pushFront_holds h3 y
  obtain ⟨h4h, h4c, h4H⟩ := h43 d3 (by simp; omega)
  have hp3 : prev s3 s3.head = n := by
    rcases h3 with hh | hh
    · exact absurd hh.2.2.1 d3
    · obtain ⟨q1, q2, q3, _⟩ := hh
      rw [t3, htail2] at q3
      simp at q3 q2
      simp only [prev, cap] at *
      unfold wrap at q3
      split at q3 <;> split <;> omega
  refine ⟨s4, .unit :: (os1 ++ (.bool true :: (os3 ++ [.bool true]))), ?_, ?_⟩
  · have hi : step zero (DequeOp.init n) = .ok (init (zero : Deque α) n, .unit) := rfl
    simp only [run, hi, Res.bind_ok, List.map_append, run_append, e1]
    simp [run, step, e2, e3, e4]
  · rw [h4H.back_eq, mangle_getLast? (by omega) (by simp; omega)]
    rfl

/-- Instance: 16 `PushFront`s on a deque of capacity 8. -/
example : ∃ s' os, run (zero : Deque Int)
    (DequeOp.init 8 :: [1,2,3,4,5,6,7,8,9,10,11,12,13,14,15,16].map .pushFront) = .ok (s', os) ∧
      step s' .back = .ok (s', .val 0 true) :=
  C02_front_only_corrupts 8 (by decide) _ (by decide)

/-! ## C03 -/

/-- No prefix of the history leaves `c` or more elements stored (in the mathematical sequence). -/
def StaysBelow (c : Nat) (l : List α) (ops : List (DequeOp α)) : Prop :=
  ∀ k, (runSpec dequeStep l (ops.take k)).1.length < c

/-- **C03 (a).**  A deque created with capacity `c` is an exact double-ended sequence for every
history that never stores `c` or more elements. -/
theorem C03_below_capacity (c : Nat) (hc : 0 < c) (ops : List (DequeOp α))
    (hb : StaysBelow c [] ops) :
    ∃ s', run (init zero c) ops = .ok (s', (runSpec dequeStep [] ops).2) ∧
      Holds s' (runSpec dequeStep [] ops).1 ∧ cap s' = c := by
  have key : ∀ (ops : List (DequeOp α)) (s : Deque α) (l : List α), Holds s l → s.d ≠ [] → cap s = c →
      StaysBelow c l ops →
      ∃ s', run s ops = .ok (s', (runSpec dequeStep l ops).2) ∧
        Holds s' (runSpec dequeStep l ops).1 ∧ cap s' = c := by
    intro ops
    induction ops with
    | nil => intro s l h hd hcap _; exact ⟨s, rfl, h, hcap⟩
    | cons op ops ih =>
      intro s l h hd hcap hb
      have hl : l.length < c := by simpa [runSpec] using hb 0
      have hl1 : (dequeStep l op).1.length < c := by
        have := hb 1; simpa [runSpec] using this
      have hb' : StaysBelow c (dequeStep l op).1 ops := by
        intro k; have := hb (k + 1); simpa [runSpec] using this
      have hstep : ∃ s1, step s op = .ok (s1, (dequeStep l op).2) ∧ Holds s1 (dequeStep l op).1 ∧
          cap s1 = cap s := by
        cases op with
        | front => exact ⟨s, h.front_eq, h, rfl⟩
        | back => exact ⟨s, h.back_eq, h, rfl⟩
        | popFront => exact h.popFront_eq
        | popBack => obtain ⟨s', a, b, c, _⟩ := h.popBack_eq; exact ⟨s', a, b, c⟩
        | size => exact ⟨s, by simp [step, h.size_eq, dequeStep], h, rfl⟩
        | empty => refine ⟨s, ?_, h, rfl⟩; cases l <;> simp [step, empty, h.size_eq, dequeStep]
        | clear => exact ⟨clear s, rfl, holds_clear h, rfl⟩
        | init n =>
          obtain ⟨a, _, _, d⟩ := holds_init h n
          exact ⟨init s n, rfl, a, by rw [d]; simp [hd]⟩
        | pushBack v =>
          obtain ⟨s', e, _, h2, _⟩ := pushBack_holds h v
          simp [dequeStep] at hl1
          obtain ⟨a, _, b⟩ := h2 hd (by omega)
          exact ⟨s', by simp [step, e, dequeStep], a, b⟩
        | pushFront v =>
          obtain ⟨s', e, _, h2, _⟩ := pushFront_holds h v
          simp [dequeStep] at hl1
          obtain ⟨a, _, b, _⟩ := h2 hd (by omega)
          exact ⟨s', by simp [step, e, dequeStep], a, b⟩
      obtain ⟨s1, e1, h1, c1⟩ := hstep
      have hd1 : s1.d ≠ [] := ne_nil_of_cap hd (by omega)
      obtain ⟨s2, e2, h2, c2⟩ := ih s1 _ h1 hd1 (by omega) hb'
      exact ⟨s2, by simp [run, e1, e2, runSpec], by simpa [runSpec] using h2, c2⟩
  obtain ⟨h0, hd0, _, hc0⟩ := holds_init (holds_zero (α := α)) (c : Int)
  exact key ops _ _ h0 hd0 (by rw [hc0]; simp [zero]; omega) hb

/-- Instance: both ends used, wrapping around the buffer, never 4 elements stored. -/
example : run (init (zero : Deque Int) 4) [.pushFront 1, .pushBack 2, .pushFront 3, .back, .popBack, .popFront,
    .pushFront 4, .pushFront 5, .popBack, .front, .size]
    = .ok (⟨1, 3, [2, 5, 4, 1]⟩, [.bool true, .bool true, .bool true, .val 2 true, .val 2 true, .val 3 true,
      .bool true, .bool true, .val 1 true, .val 5 true, .nat 2]) := by decide
example : StaysBelow 4 ([] : List Int) [.pushFront 1, .pushBack 2, .pushFront 3, .popBack] := by
  intro k
  match k with
  | 0 => decide
  | 1 => decide
  | 2 => decide
  | 3 => decide
  | k + 4 => simp [runSpec, dequeStep]

/-- Calls that only push and pop at the back (plus observers, `Clear`, `Init`). -/
def BackOnly : DequeOp α → Prop
  | .pushFront _ | .popFront => False
  | _ => True

/-- **C03 (b).**  Used at the back only, the deque is exact through any number of growths. -/
theorem C03_back_only (ops : List (DequeOp α)) (hb : ∀ op ∈ ops, BackOnly op) :
    ∃ s', run zero ops = .ok (s', (runSpec dequeStep [] ops).2) ∧
      Holds s' (runSpec dequeStep [] ops).1 := by
  have key : ∀ (ops : List (DequeOp α)) (s : Deque α) (l : List α), Holds s l → s.head = 0 →
      (∀ op ∈ ops, BackOnly op) →
      ∃ s', run s ops = .ok (s', (runSpec dequeStep l ops).2) ∧
        Holds s' (runSpec dequeStep l ops).1 := by
    intro ops
    induction ops with
    | nil => intro s l h _ _; exact ⟨s, rfl, h⟩
    | cons op ops ih =>
      intro s l h hh hb
      have hop := hb op (by simp)
      have hs : GrowSafe s op := by
        cases op <;> simp [GrowSafe, BackOnly] at *
        intro _; exact hh
      obtain ⟨s1, e1, h1⟩ := step_refines h op hs
      have hh1 : s1.head = 0 := by
        cases op with
        | pushFront v => exact absurd hop (by simp [BackOnly])
        | popFront => exact absurd hop (by simp [BackOnly])
        | front => rw [h.front_eq] at e1; cases e1; exact hh
        | back => rw [h.back_eq] at e1; cases e1; exact hh
        | size => simp [step] at e1; rw [← e1.1]; exact hh
        | empty => simp [step] at e1; rw [← e1.1]; exact hh
        | clear => simp [step] at e1; rw [← e1.1]; rfl
        | init n => simp [step] at e1; rw [← e1.1]; rfl
        | popBack =>
          obtain ⟨s', a, _, _, d⟩ := h.popBack_eq
          rw [a] at e1; cases e1; omega
        | pushBack v =>
          obtain ⟨s', e, p1, p2, p3⟩ := pushBack_holds h v
          simp [step, e] at e1
          rw [← e1.1]
          by_cases hd : s.d = []
          · exact (p1 hd).2.1
          · by_cases hr : l.length + 1 < cap s
            · rw [(p2 hd hr).2.1]; exact hh
            · refine (p3 hd ?_).1
              rcases h with h | h
              · exact absurd h.2.2.1 hd
              · have := h.2.1; simp only [cap] at *; omega
      obtain ⟨s2, e2, h2⟩ := ih s1 _ h1 hh1 (fun o ho => hb o (by simp [ho]))
      exact ⟨s2, by simp [run, e1, e2, runSpec], by simpa [runSpec] using h2⟩
  exact key ops _ _ holds_zero rfl hb

/-- Instance: 20 pushes at the back grow the buffer twice; the last value comes back. -/
example : ∃ s', run (zero : Deque Int) ((List.range 20).map (fun n => .pushBack (n : Int)) ++ [.popBack])
    = .ok (s', List.replicate 20 (.bool true) ++ [.val 19 true]) := by
  obtain ⟨s', h, _⟩ := C03_back_only (α := Int)
    ((List.range 20).map (fun n => .pushBack (n : Int)) ++ [.popBack])
    (by intro op h; simp at h; rcases h with ⟨n, _, rfl⟩ | rfl <;> trivial)
  refine ⟨s', ?_⟩
  rw [h]; congr 1

/-! ## C04 -/

/-- **C04, partial.**  Missing: buffers whose data wraps around the end (`tail < head`).  Otherwise
`Shrink` keeps the stored sequence, and either changes nothing or halves the buffer. -/
theorem C04_shrink_partial (s : Deque α) (l : List α) (h : Holds s l) (hw : s.head ≤ s.tail) :
    Holds (shrink s).1 l ∧ (cap (shrink s).1 = cap s ∨ cap (shrink s).1 = cap s / 2) := by
  unfold shrink
  rw [if_pos (show s.tail ≥ s.head from hw)]
  split
  case isFalse => exact ⟨h, Or.inl rfl⟩
  case isTrue hc =>
    have hsz := h.size_eq
    rcases h with h | h
    · simp [cap, h.2.2.1] at hc
    · obtain ⟨e1, e2⟩ := Rel.slice h hw
      have hpos : 0 < cap s / 2 := by omega
      simp only [newBuf, gt_iff_lt, hpos, if_true]
      constructor
      · right
        simp only
        rw [e1, e2]
        have : Go.copy (List.replicate (cap s / 2) (default : α)) l
            = l ++ List.replicate (cap s / 2 - l.length) default := by
          simp only [Go.copy, List.length_replicate, List.drop_replicate]
          rw [List.take_of_length_le (by omega)]
        rw [this]
        apply Rel.ofPrefix
        intro hx
        have := congrArg List.length hx
        simp at this; omega
      · right
        simp only [cap, Go.copy]
        simp
        simp only [cap] at *
        omega

/-- **C04 is false** for wrapped buffers: the deque stores 1, 2, ..., afterwards 2, 0. -/
theorem C04_shrink_false :
    ¬ ∀ (s : Deque Int) (l : List Int), Holds s l → Holds (shrink s).1 l := by
  intro h
  have h1 : Holds (⟨8, 1, [2, 0, 0, 0, 0, 0, 0, 0, 1]⟩ : Deque Int) [1, 2] :=
    Or.inr ⟨by decide, by decide, by decide, by decide⟩
  have h2 := h _ _ h1
  have h3 := h2.front_eq
  revert h3; decide

/-- **C04, wrapped buffers exactly.**  Shrinking a wrapped buffer replaces the sequence by the mangled
one: the part at the end of the buffer is overwritten by the part at its start, and zero values
appear at the back. -/
theorem C04_shrink_wrapped (s : Deque α) (l : List α) (h : Holds s l) (hw : s.tail < s.head)
    (hc : cap s > 8 ∧ cap s ≥ 3 * l.length) :
    Holds (shrink s).1 (mangle (cap s - s.head) l) ∧
      step (shrink s).1 .back = .ok ((shrink s).1,
        if s.tail = 0 then outOpt l.getLast? else .val default true) := by
  have hsz := h.size_eq
  rcases h with h | h
  · omega
  have e := Rel.slice_wrapped h hw
  have hlen : l.length = cap s - s.head + s.tail := by
    rw [← e]; have := h.1; simp [cap]; omega
  have : shrink s = (regrow s (cap s / 2), false) := by
    unfold shrink
    rw [if_pos (by omega), if_neg (by omega)]
  rw [this]
  obtain ⟨hd, tl, d⟩ := s
  simp only at *
  obtain ⟨t, rest, e1, _, e3⟩ := regrow_rel_gen hd tl (cap (⟨hd, tl, d⟩ : Deque α) / 2) d h.1 (by omega)
    (by simp only [cap] at *; omega)
  rw [e] at e3
  have hH : Holds (regrow ⟨hd, tl, d⟩ (cap (⟨hd, tl, d⟩ : Deque α) / 2)) (mangle (d.length - hd) l) := by
    rw [e1]; exact Or.inr e3
  refine ⟨hH, ?_⟩
  rw [hH.back_eq]
  have := h.1
  by_cases h0 : tl = 0
  · rw [if_pos h0]
    have : d.length - hd = l.length := by simp only [cap] at *; omega
    rw [this, mangle_full]
  · rw [if_neg h0, mangle_getLast? (by omega) (by simp only [cap] at *; omega)]
    rfl

/-- Instance of the hypotheses of `C04_shrink_wrapped`. -/
example : Holds (⟨8, 1, [2, 0, 0, 0, 0, 0, 0, 0, 1]⟩ : Deque Int) [1, 2] ∧ 1 < 8 :=
  ⟨Or.inr ⟨by decide, by decide, by decide, by decide⟩, by decide⟩
/-- Instance of the hypotheses of `C04_shrink_partial` with an actual shrink. -/
example : Holds (⟨1, 3, [0, 7, 8, 0, 0, 0, 0, 0, 0, 0]⟩ : Deque Int) [7, 8] ∧
    shrink (⟨1, 3, [0, 7, 8, 0, 0, 0, 0, 0, 0, 0]⟩ : Deque Int) = (⟨0, 2, [7, 8, 0, 0, 0]⟩, false) :=
  ⟨Or.inr ⟨by decide, by decide, by decide, by decide⟩, by decide⟩

/-- **C04, the result.**  `Shrink` always reports false, whether or not it halved the buffer; it halves it exactly when
there are more than 8 slots and at least three times as many slots as elements. -/
theorem C04_shrink_result (s : Deque α) (l : List α) (h : Holds s l) :
    (shrink s).2 = false ∧
    (cap s > 8 ∧ cap s ≥ 3 * l.length → cap (shrink s).1 = cap s / 2) ∧
    (¬ (cap s > 8 ∧ cap s ≥ 3 * l.length) → (shrink s).1 = s) := by
  have hsz := h.size_eq
  refine ⟨by unfold shrink; split_ifs <;> rfl, fun hc => ?_, fun hc => by
    unfold shrink; rw [hsz, if_neg hc]⟩
  by_cases hw : s.head ≤ s.tail
  · unfold shrink
    rw [hsz, if_pos hc, if_pos (show s.tail ≥ s.head from hw)]
    have hpos : 0 < cap s / 2 := by omega
    have hcopy : ∀ a b : List α, (Go.copy a b).length = a.length := fun a b => by simp [Go.copy]; omega
    have e : (newBuf s (cap s / 2)).d.length = cap s / 2 := by simp [newBuf, hpos]
    simp only [cap, hcopy] at e ⊢
    exact e
  · rcases h with h | h
    · simp [cap, h.2.2.1] at hc
    obtain ⟨hd, tl, d⟩ := s
    simp only at *
    obtain ⟨t, rest, e1, e2, e3⟩ := regrow_rel_gen hd tl (cap (⟨hd, tl, d⟩ : Deque α) / 2) d h.1 (by omega)
      (by
        have e := Rel.slice_wrapped h (by omega)
        have := congrArg List.length e
        have := h.1
        simp at *
        simp only [cap] at *
        omega)
    have : shrink ⟨hd, tl, d⟩ = (regrow ⟨hd, tl, d⟩ (cap (⟨hd, tl, d⟩ : Deque α) / 2), false) := by
      unfold shrink
      rw [hsz, if_pos hc, if_neg (by omega)]
    rw [this]
    dsimp only
    rw [e1]
    exact e2

/-- A call: one of the calls of C02, or (`none`) `Shrink`. -/
def stepS (s : Deque α) : Option (DequeOp α) → Res (Deque α × Out α)
  | some op => step s op
  | none => return ((shrink s).1, .bool (shrink s).2)

/-- A history of calls, including `Shrink`. -/
def runS (s : Deque α) : List (Option (DequeOp α)) → Res (Deque α × List (Out α))
  | [] => return (s, [])
  | op :: ops => do
    let (s1, o) ← stepS s op
    let (s2, os) ← runS s1 ops
    return (s2, o :: os)

/-- On the mathematical sequence `Shrink` does nothing; it reports false. -/
def specS (l : List α) : Option (DequeOp α) → List α × Out α
  | some op => dequeStep l op
  | none => (l, .bool false)

/-- Along the history, pushes only fill a buffer whose data starts at index 0, and `Shrink` only halves a buffer whose data
does not wrap around. -/
def SafeRun (s : Deque α) : List (Option (DequeOp α)) → Prop
  | [] => True
  | op :: ops =>
    (match op with
      | some op => GrowSafe s op
      | none => s.head ≤ s.tail ∨ ¬ (cap s > 8 ∧ cap s ≥ 3 * size s)) ∧
    ∀ s' o, stepS s op = .ok (s', o) → SafeRun s' ops

/-- **C04, histories (partial).**  Missing: histories that corrupt the deque by C02 or C04.  In all others `Shrink` may be
called anywhere: no call panics and all results are those of a double-ended sequence. -/
theorem C04_history_partial (s : Deque α) (l : List α) (h : Holds s l) (ops : List (Option (DequeOp α)))
    (hs : SafeRun s ops) :
    ∃ s', runS s ops = .ok (s', (runSpec specS l ops).2) ∧ Holds s' (runSpec specS l ops).1 := by
  induction ops generalizing s l with
  | nil => exact ⟨s, rfl, h⟩
  | cons op ops ih =>
    have key : ∃ s1, stepS s op = .ok (s1, (specS l op).2) ∧ Holds s1 (specS l op).1 := by
      cases op with
      | some op => exact step_refines h op hs.1
      | none =>
        have hr := C04_shrink_result s l h
        refine ⟨(shrink s).1, by simp [stepS, specS, hr.1], ?_⟩
        rcases hs.1 with hw | hc
        · exact (C04_shrink_partial s l h hw).1
        · rw [h.size_eq] at hc
          rw [hr.2.2 hc]; exact h
    obtain ⟨s1, e1, h1⟩ := key
    obtain ⟨s2, e2, h2⟩ := ih s1 _ h1 (hs.2 s1 _ e1)
    exact ⟨s2, by simp [runS, e1, e2, runSpec], by simpa [runSpec] using h2⟩

/-- Instance: an oversized deque is used, shrunk and used again. -/
example : SafeRun (⟨0, 0, List.replicate 12 0⟩ : Deque Int) [some (.pushBack 5), some (.pushBack 6), some .popFront, none,
    some (.pushBack 7), none] := by
  simp [SafeRun, GrowSafe, stepS, step, pushBack, popFront, shrink, cap, size, next, newBuf, Go.copy, Go.set, Go.get]

/-- C04_shrink_result on a deque of two elements in ten places. -/
example := C04_shrink_result (⟨1, 3, [0, 7, 8, 0, 0, 0, 0, 0, 0, 0]⟩ : Deque Int) [7, 8]
  (Or.inr ⟨by decide, by decide, by decide, by decide⟩)

end Verif.Deque
