import Verif.Model.Queue
import Verif.Lemmas.Ring
/-!
# Helper lemmas for the queue proofs
-/

set_option linter.unusedSectionVars false

namespace Verif.Queue
open Verif.Spec Verif.Ring
variable {α : Type} [Inhabited α]

/-- The queue stores the sequence `l` (oldest first). -/
def Holds (s : Queue α) (l : List α) : Prop :=
  (s.head = 0 ∧ s.tail = 0 ∧ s.d = [] ∧ l = []) ∨ Rel s.head s.tail s.d l

theorem Holds.empty_iff {s : Queue α} {l : List α} (h : Holds s l) : s.head = s.tail ↔ l = [] := by
  rcases h with ⟨a, b, c, d⟩ | h
  · simp [a, b, d]
  · exact h.empty_iff

theorem Holds.size_eq {s : Queue α} {l : List α} (h : Holds s l) : size s = l.length := by
  rcases h with ⟨a, b, c, d⟩ | h
  · simp [size, a, b, d]
  · have e := h.size
    have := h.1
    unfold size cap
    rw [← e]
    split <;> omega

theorem Holds.rel {s : Queue α} {l : List α} (h : Holds s l) (hd : s.d ≠ []) :
    Rel s.head s.tail s.d l := by
  rcases h with h | h
  · exact absurd h.2.2.1 hd
  · exact h

theorem Holds.front_eq {s : Queue α} {l : List α} (h : Holds s l) :
    step s .front = .ok (s, outOpt l.head?) := by
  by_cases hl : l = []
  · have := h.empty_iff.mpr hl
    simp [step, front, this, hl, outOpt]
  · have hne : ¬ s.head = s.tail := fun hc => hl (h.empty_iff.mp hc)
    rcases h with h | h
    · exact absurd h.2.2.2 hl
    · cases l with
      | nil => exact absurd rfl hl
      | cons x xs =>
        have := h.front hl
        simp [step, front, hne, Go.get, this, outOpt]

theorem Holds.back_eq {s : Queue α} {l : List α} (h : Holds s l) :
    step s .back = .ok (s, outOpt l.getLast?) := by
  by_cases hl : l = []
  · have := h.empty_iff.mpr hl
    simp [step, back, this, hl, outOpt]
  · have hne : ¬ s.head = s.tail := fun hc => hl (h.empty_iff.mp hc)
    rcases h with h | h
    · exact absurd h.2.2.2 hl
    · have := h.back hl
      rw [List.getLast?_eq_some_getLast hl] at this
      simp [step, back, hne, Go.get, cap, this, outOpt, List.getLast?_eq_some_getLast hl]

theorem Holds.pop_eq {s : Queue α} {l : List α} (h : Holds s l) :
    ∃ s', step s .pop = .ok (s', outOpt l.head?) ∧ Holds s' l.tail ∧ cap s' = cap s ∧
      s'.tail = s.tail ∧ (l = [] → s' = s) ∧
      (l ≠ [] → s'.head = if s.head + 1 ≥ cap s then 0 else s.head + 1) := by
  by_cases hl : l = []
  · have := h.empty_iff.mpr hl
    exact ⟨s, by simp [step, pop, this, hl, outOpt], by simpa [hl] using h, rfl, rfl, fun _ => rfl,
      fun hc => absurd hl hc⟩
  · have hne : ¬ s.head = s.tail := fun hc => hl (h.empty_iff.mp hc)
    rcases h with h | h
    · exact absurd h.2.2.2 hl
    · have h2 := h.popFront hl
      have ht := h.tail_lt
      have hhd : (if s.head + 1 ≥ cap s ∧ s.head + 1 ≠ s.tail then 0 else s.head + 1)
          = (if s.head + 1 ≥ s.d.length then 0 else s.head + 1) := by
        have hcap : cap s = s.d.length := rfl
        by_cases hc : s.head + 1 ≥ cap s
        · rw [if_pos ⟨hc, by omega⟩, if_pos (by omega)]
        · rw [if_neg (fun hx => hc hx.1), if_neg (by omega)]
      cases l with
      | nil => exact absurd rfl hl
      | cons x xs =>
        have := h.front hl
        refine ⟨{ s with head := if s.head + 1 ≥ s.d.length then 0 else s.head + 1 }, ?_,
          Or.inr h2, rfl, rfl, fun hc => absurd hc hl, fun _ => rfl⟩
        rw [← hhd]
        simp [step, pop, hne, Go.get, this, outOpt]

theorem holds_clear {s : Queue α} {l : List α} (h : Holds s l) : Holds (clear s) [] := by
  rcases h with ⟨a, b, c, d⟩ | h
  · exact Or.inl ⟨rfl, rfl, by simpa [clear] using c, rfl⟩
  · refine Or.inr ⟨?_, ?_, ?_, by simp⟩
    · have := h.1; simp [clear]; omega
    · have := h.1; simp [clear]; omega
    · have := h.1; simp [clear, wrap]

theorem holds_init {s : Queue α} {l : List α} (h : Holds s l) (n : Int) :
    Holds (init s n) [] ∧ (init s n).d ≠ [] ∧ (init s n).head = 0 ∧
      cap (init s n) = if s.d = [] then (if n ≤ 0 then 8 else n.toNat) else cap s := by
  by_cases hd : s.d = []
  · have hpos : 0 < (if n ≤ 0 then 8 else n.toNat) := by split <;> omega
    simp only [init, hd, if_true, newBuf, gt_iff_lt, hpos]
    refine ⟨Or.inr ?_, ?_, ?_, ?_⟩
    · simpa [clear] using Rel.ofPrefix ([] : List α)
        (List.replicate (if n ≤ 0 then 8 else n.toNat) default) (by simp; split <;> omega)
    · simp [clear]; split <;> omega
    · rfl
    · simp [clear, cap]
  · simp only [init, hd, if_false]
    exact ⟨holds_clear h, by simpa [clear] using hd, rfl, rfl⟩

/-- A growth with the data starting at index 0 keeps the buffer as prefix. -/
theorem regrow_zero (d : List α) (hd : d ≠ []) :
    regrow (⟨0, 0, d⟩ : Queue α) (cap (⟨0, 0, d⟩ : Queue α) * 2)
      = ⟨0, d.length, d ++ List.replicate d.length default⟩ := by
  have hpos : 0 < d.length * 2 := by have := List.length_pos_iff.mpr hd; omega
  have hm : min (d.length * 2) d.length = d.length := by omega
  simp [regrow, newBuf, cap, hpos, hm, Go.copy, List.take_of_length_le (show d.length ≤ d.length * 2 by omega)]
  omega

/-- The three outcomes of a push. -/
theorem push_holds {s : Queue α} {l : List α} (h : Holds s l) (v : α) :
    ∃ s', push s v = .ok (s', true) ∧
      (¬ (l.length + 1 = cap s ∧ s.head ≠ 0) → Holds s' (l ++ [v]) ∧ s'.head = s.head ∧
        (s.d ≠ [] → l.length + 1 < cap s → cap s' = cap s)) ∧
      (l.length + 1 = cap s ∧ s.head ≠ 0 → Holds s' [] ∧ cap s' = cap s) := by
  obtain ⟨hd, tl, d⟩ := s
  by_cases hd0 : d = []
  · subst hd0
    simp [Holds, Rel] at h
    obtain ⟨rfl, rfl, rfl⟩ := h
    refine ⟨⟨0, 1, v :: List.replicate 7 default⟩, ?_, ?_, ?_⟩
    · simp [push, init, newBuf, clear, Go.set, cap, List.replicate]
    · intro _
      exact ⟨Or.inr (Rel.ofPrefix [v] (List.replicate 7 default) (by simp)), rfl, fun hc => absurd rfl hc⟩
    · intro hc; exact absurd rfl hc.2
  · have hr : Rel hd tl d l := h.rel hd0
    have ht := hr.tail_lt
    have h1 := hr.1
    by_cases hwrap : tl + 1 ≥ d.length
    · by_cases hz : hd = 0
      · -- growth with the data at index 0
        subst hz
        have hlen : l.length + 1 = d.length := by
          have h2 := hr.2.2.1; have h3 := hr.2.1; unfold wrap at h2; split at h2 <;> omega
        have htl : tl = l.length := by
          have h2 := hr.2.2.1; unfold wrap at h2; split at h2 <;> omega
        have hset : d.set tl v = l ++ [v] := by
          apply List.ext_getElem?
          intro i
          by_cases hi : i < l.length
          · have := hr.2.2.2 i hi
            have hw : wrap d.length (0 + i) = i := by unfold wrap; split <;> omega
            rw [hw] at this
            rw [List.getElem?_set_ne (by omega), this, List.getElem?_append_left hi]
          · by_cases hi' : i = l.length
            · subst hi'; rw [htl, List.getElem?_set_self (by omega)]; simp
            · rw [List.getElem?_eq_none (by simp; omega), List.getElem?_eq_none (by simp; omega)]
        refine ⟨⟨0, d.length, d.set tl v ++ List.replicate d.length default⟩, ?_, ?_, ?_⟩
        · have e := regrow_zero (d.set tl v) (by simpa using hd0)
          simp [cap] at e
          simp [push, hd0, Go.set, ht, cap, e]
          omega
        · intro _
          refine ⟨Or.inr ?_, rfl, fun _ hx => by simp [cap] at hx; omega⟩
          simp only
          rw [hset, show d.length = (l ++ [v]).length by simp; omega]
          apply Rel.ofPrefix
          simp
        · intro hc; exact absurd rfl hc.2
      · have hroom : l.length + 1 < d.length := by
          have h2 := hr.2.2.1; have h3 := hr.2.1; unfold wrap at h2; split at h2 <;> omega
        have hr' := hr.pushBack v hroom
        rw [if_pos hwrap] at hr'
        refine ⟨⟨hd, 0, d.set tl v⟩, ?_, ?_, ?_⟩
        · simp [push, hd0, Go.set, ht, cap]
          rw [if_pos hwrap, if_neg (by omega)]
        · intro _; exact ⟨Or.inr hr', rfl, fun _ _ => by simp [cap]⟩
        · intro hc; simp [cap] at hc; omega
    · have hlt : ¬ (d.length ≤ tl + 1) := by omega
      have hstep : push (⟨hd, tl, d⟩ : Queue α) v = .ok (⟨hd, tl + 1, d.set tl v⟩, true) := by
        simp [push, hd0, Go.set, ht, cap, hlt]
      refine ⟨_, hstep, ?_, ?_⟩
      · intro hn
        have hroom : l.length + 1 < d.length := by
          have h2 := hr.2.2.1; have h3 := hr.2.1
          simp only [cap] at hn
          by_cases hh : hd = 0
          · unfold wrap at h2; split at h2 <;> omega
          · omega
        have hr' := hr.pushBack v hroom
        rw [if_neg hwrap] at hr'
        exact ⟨Or.inr hr', rfl, fun _ _ => by simp [cap]⟩
      · intro hc
        refine ⟨Or.inr ?_, by simp [cap]⟩
        have : tl + 1 = hd := by
          have h2 := hr.2.2.1; simp only [cap] at hc; unfold wrap at h2; split at h2 <;> omega
        refine ⟨by simpa using h1, by simp; omega, ?_, by simp⟩
        simp only [List.length_set, List.length_nil, Nat.add_zero, wrap]; split <;> omega

/-- A push is harmless unless it fills a buffer whose data does not start at index 0. -/
def PushSafe (s : Queue α) : QueueOp α → Prop
  | .push _ => ¬ (size s + 1 = cap s ∧ s.head ≠ 0)
  | _ => True

theorem step_refines {s : Queue α} {l : List α} (h : Holds s l) (op : QueueOp α)
    (hs : PushSafe s op) :
    ∃ s', step s op = .ok (s', (queueStep l op).2) ∧ Holds s' (queueStep l op).1 := by
  cases op with
  | front => exact ⟨s, h.front_eq, h⟩
  | back => exact ⟨s, h.back_eq, h⟩
  | pop => obtain ⟨s', a, b, _⟩ := h.pop_eq; exact ⟨s', a, b⟩
  | size => exact ⟨s, by simp [step, h.size_eq, queueStep], h⟩
  | empty =>
    refine ⟨s, ?_, h⟩
    cases l <;> simp [step, empty, h.size_eq, queueStep]
  | clear => exact ⟨clear s, rfl, holds_clear h⟩
  | init n => exact ⟨init s n, rfl, (holds_init h n).1⟩
  | push v =>
    obtain ⟨s', e, h1, _⟩ := push_holds h v
    refine ⟨s', by simp [step, e, queueStep], (h1 ?_).1⟩
    simpa [PushSafe, h.size_eq] using hs

end Verif.Queue
