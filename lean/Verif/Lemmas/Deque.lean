import Verif.Model.Deque
import Verif.Lemmas.Ring
/-!
# Helper lemmas for the deque proofs
-/

set_option linter.unusedSectionVars false

namespace Verif.Deque
open Verif.Spec Verif.Ring
variable {α : Type} [Inhabited α]

/-- The deque stores the sequence `l` (front first). -/
def Holds (s : Deque α) (l : List α) : Prop :=
  (s.head = 0 ∧ s.tail = 0 ∧ s.d = [] ∧ l = []) ∨ Rel s.head s.tail s.d l

/-- What a buffer whose first logical element sits `h` slots before its end turns into when it
grows while full. -/
def mangle (h : Nat) (l : List α) : List α :=
  (l.drop h).take h ++ (l.take h).drop (l.length - h) ++
    List.replicate (min h (l.length - h)) default

theorem mangle_full (l : List α) : mangle l.length l = l := by
  simp [mangle]

theorem regrow_rel_gen (p q n : Nat) (d : List α) (hp : p < d.length) (hq : q ≤ p)
    (hn : d.length - p + q < n) :
    ∃ t rest, regrow ⟨p, q, d⟩ n = ⟨0, t, rest⟩ ∧
      rest.length = n ∧ Rel 0 t rest (mangle (d.length - p) (d.drop p ++ d.take q)) := by
  have hpos : 0 < n := by omega
  have hh : min n (d.length - p) = d.length - p := by omega
  have e1 : Go.copy (List.replicate n (default : α)) (d.drop p)
      = d.drop p ++ List.replicate (n - (d.length - p)) default := by
    simp only [Go.copy, List.length_replicate, List.drop_replicate, List.length_drop]
    rw [List.take_of_length_le (by simp; omega)]
  have e2 : mangle (d.length - p) (d.drop p ++ d.take q)
      = ((d.take q).take (d.length - p) ++ (d.drop p).drop q) ++
        List.replicate (min (d.length - p) q) default := by
    have hl : (d.drop p).length = d.length - p := by simp
    simp only [mangle]
    rw [show d.length - p = (d.drop p).length from hl.symm, List.drop_left, List.take_left]
    have : (d.drop p ++ d.take q).length - (d.drop p).length = q := by simp; omega
    rw [this]
  refine ⟨_, _, rfl, ?_, ?_⟩
  · simp only [newBuf, gt_iff_lt, hpos, if_true, List.length_replicate, List.length_drop,
      hh, e1]
    simp [Go.copy]; omega
  · simp only [newBuf, gt_iff_lt, hpos, if_true, List.length_replicate, List.length_drop,
      List.length_take, hh, e1, e2]
    have hlen : (List.drop p d).length = d.length - p := by simp
    have e3 : List.take (d.length - p) (List.drop p d ++ List.replicate (n - (d.length - p)) (default : α))
        = d.drop p := by
      conv => lhs; rw [← hlen]
      exact List.take_left
    have e4 : List.drop (d.length - p) (List.drop p d ++ List.replicate (n - (d.length - p)) (default : α))
        = List.replicate (n - (d.length - p)) default := by
      have := List.drop_left (l₁ := List.drop p d) (l₂ := List.replicate (n - (d.length - p)) (default : α))
      rwa [hlen] at this
    rw [e3, e4]
    have hcp : Go.copy (d.drop p) (d.take q) = (d.take q).take (d.length - p) ++ (d.drop p).drop q := by
      simp only [Go.copy, List.length_drop, List.length_take]
      rw [show min q d.length = q by omega]
    rw [hcp]
    have hrep : List.replicate (n - (d.length - p)) (default : α)
        = List.replicate (min (d.length - p) q) default ++
          List.replicate (n - (d.length - p) - min (d.length - p) q) default := by
      rw [List.replicate_append_replicate]; congr 1; omega
    rw [hrep, ← List.append_assoc]
    have hL : (List.take (d.length - p) (List.take q d) ++ List.drop q (List.drop p d) ++
        List.replicate (min (d.length - p) q) (default : α)).length
        = d.length - p + min (d.length - p) (min q d.length) := by
      simp; omega
    rw [← hL]
    apply Rel.ofPrefix
    intro hc
    have := congrArg List.length hc
    simp at this; omega

theorem regrow_rel (p : Nat) (d : List α) (hp : p < d.length) :
    ∃ t rest, regrow ⟨p, p, d⟩ (cap (⟨p, p, d⟩ : Deque α) * 2) = ⟨0, t, rest⟩ ∧
      rest.length = d.length * 2 ∧ Rel 0 t rest (mangle (d.length - p) (d.drop p ++ d.take p)) :=
  regrow_rel_gen p p (d.length * 2) d hp (Nat.le_refl _) (by omega)

/-- The logical sequence of a full ring read from position `p`. -/
theorem full_eq {p : Nat} {d l : List α} (hp : p < d.length) (hl : l.length = d.length)
    (hv : ∀ i, i < l.length → d[wrap d.length (p + i)]? = l[i]?) : d.drop p ++ d.take p = l := by
  apply List.ext_getElem?
  intro i
  by_cases hi : i < l.length
  · rw [← hv i hi]
    by_cases h2 : p + i ≥ d.length
    · rw [List.getElem?_append_right (by simp; omega), List.getElem?_take_of_lt (by simp; omega)]
      congr 1; unfold wrap; simp; split <;> omega
    · rw [List.getElem?_append_left (by simp; omega), List.getElem?_drop]
      congr 1; unfold wrap; split <;> omega
  · rw [List.getElem?_eq_none (by simp; omega), List.getElem?_eq_none (by omega)]

/-- Position of the front element in the buffer just after a push of kind `op` filled it, counted
from the end of the buffer; `cap` when the data starts at index 0. -/
def frontFromEnd (s : Deque α) : DequeOp α → Nat
  | .pushFront _ => cap s - prev s s.head
  | _ => cap s - s.head

theorem pushBack_holds {s : Deque α} {l : List α} (h : Holds s l) (v : α) :
    ∃ s', pushBack s v = .ok (s', true) ∧
      (s.d = [] → Holds s' (l ++ [v]) ∧ s'.head = 0 ∧ cap s' = 8 ∧ s'.tail = 1) ∧
      (s.d ≠ [] → l.length + 1 < cap s → Holds s' (l ++ [v]) ∧ s'.head = s.head ∧ cap s' = cap s) ∧
      (s.d ≠ [] → l.length + 1 = cap s → s'.head = 0 ∧ cap s' = cap s * 2 ∧
        Holds s' (mangle (cap s - s.head) (l ++ [v]))) := by
  obtain ⟨hd, tl, d⟩ := s
  by_cases hd0 : d = []
  · subst hd0
    simp [Holds, Rel] at h
    obtain ⟨rfl, rfl, rfl⟩ := h
    refine ⟨⟨0, 1, v :: List.replicate 7 default⟩, ?_, ?_, ?_, ?_⟩
    · simp [pushBack, init, newBuf, clear, Go.set, next, cap, List.replicate]
    · intro _
      refine ⟨Or.inr ?_, rfl, ?_, rfl⟩
      · exact Rel.ofPrefix [v] (List.replicate 7 default) (by simp)
      · simp [cap]
    · intro hc; exact absurd rfl hc
    · intro hc; exact absurd rfl hc
  · have hr : Rel hd tl d l := by
      rcases h with h | h
      · exact absurd h.2.2.1 hd0
      · exact h
    have ht := hr.tail_lt
    by_cases hroom : l.length + 1 < d.length
    · have hr' := hr.pushBack v hroom
      refine ⟨⟨hd, if tl + 1 ≥ d.length then 0 else tl + 1, d.set tl v⟩, ?_, ?_, ?_, ?_⟩
      · have hne : ¬ ((if d.length ≤ tl + 1 then 0 else tl + 1) = hd) := by
          intro hc
          have := hr'.empty_iff.mp hc.symm
          simp at this
        simp [pushBack, hd0, Go.set, ht, next, cap, hne]
      · intro hc; exact absurd hc hd0
      · intro _ _; exact ⟨Or.inr hr', rfl, by simp [cap]⟩
      · intro _ hc; simp [cap] at hc; omega
    · have hfull : l.length + 1 = d.length := by have := hr.2.1; omega
      have htl : (if tl + 1 ≥ d.length then 0 else tl + 1) = hd := by
        obtain ⟨h1, h2, h3, _⟩ := hr
        subst h3; unfold wrap; split <;> split <;> omega
      have hset : (d.set tl v).length = d.length := by simp
      have hlist : (d.set tl v).drop hd ++ (d.set tl v).take hd = l ++ [v] := by
        apply full_eq (by simp; exact hr.1) (by simp; omega)
        intro i hi
        simp at hi
        simp only [List.length_set]
        by_cases hi' : i = l.length
        · subst hi'; rw [← hr.2.2.1]; simp [ht]
        · have := hr.2.2.2 i (by omega)
          rw [List.getElem?_append_left (by omega), ← this, List.getElem?_set_ne]
          rw [hr.2.2.1]; have := hr.1; unfold wrap; split <;> split <;> omega
      obtain ⟨t, rest, e, el, er⟩ := regrow_rel hd (d.set tl v) (by simpa using hr.1)
      refine ⟨⟨0, t, rest⟩, ?_, ?_, ?_, ?_⟩
      · simp [pushBack, hd0, Go.set, ht, next, cap]
        have htl2 : (if d.length ≤ tl + 1 then 0 else tl + 1) = hd := htl
        simp only [htl2, if_true]
        rw [← e]; simp [cap]
      · intro hc; exact absurd hc hd0
      · intro _ hc; simp [cap] at hc; omega
      · intro _ _
        refine ⟨rfl, by simp [cap, el], Or.inr ?_⟩
        rw [hlist, hset] at er
        exact er

theorem pushFront_holds {s : Deque α} {l : List α} (h : Holds s l) (v : α) :
    ∃ s', pushFront s v = .ok (s', true) ∧
      (s.d = [] → Holds s' (v :: l) ∧ s'.head = 7 ∧ cap s' = 8 ∧ s'.tail = 0) ∧
      (s.d ≠ [] → l.length + 1 < cap s →
        Holds s' (v :: l) ∧ s'.head = prev s s.head ∧ cap s' = cap s ∧ s'.tail = s.tail) ∧
      (s.d ≠ [] → l.length + 1 = cap s → s'.head = 0 ∧ cap s' = cap s * 2 ∧
        Holds s' (mangle (cap s - prev s s.head) (v :: l))) := by
  obtain ⟨hd, tl, d⟩ := s
  by_cases hd0 : d = []
  · subst hd0
    simp [Holds, Rel] at h
    obtain ⟨rfl, rfl, rfl⟩ := h
    refine ⟨⟨7, 0, List.replicate 7 default ++ [v]⟩, ?_, ?_, ?_, ?_⟩
    · simp [pushFront, init, newBuf, clear, Go.set, prev, cap, List.replicate]
    · intro _
      refine ⟨Or.inr ?_, rfl, by simp [cap], rfl⟩
      refine ⟨by simp, by simp, by simp [wrap], ?_⟩
      intro i hi
      have : i = 0 := by simpa using hi
      subst this; simp [wrap]
    · intro hc; exact absurd rfl hc
    · intro hc; exact absurd rfl hc
  · have hr : Rel hd tl d l := by
      rcases h with h | h
      · exact absurd h.2.2.1 hd0
      · exact h
    have hp : (if hd = 0 then d.length - 1 else hd - 1) < d.length := by
      have := hr.1; split <;> omega
    by_cases hroom : l.length + 1 < d.length
    · have hr' := hr.pushFront v hroom
      refine ⟨⟨if hd = 0 then d.length - 1 else hd - 1, tl, d.set (if hd = 0 then d.length - 1 else hd - 1) v⟩, ?_, ?_, ?_, ?_⟩
      · have hne : ¬ ((if hd = 0 then d.length - 1 else hd - 1) = tl) := by
          intro hc
          have := hr'.empty_iff.mp hc
          simp at this
        simp [pushFront, hd0, Go.set, hp, prev, cap, hne]
      · intro hc; exact absurd hc hd0
      · intro _ _; exact ⟨Or.inr hr', rfl, by simp [cap], rfl⟩
      · intro _ hc; simp [cap] at hc; omega
    · have hfull : l.length + 1 = d.length := by have := hr.2.1; omega
      have htl : (if hd = 0 then d.length - 1 else hd - 1) = tl := by
        obtain ⟨h1, h2, h3, _⟩ := hr
        subst h3; unfold wrap; split <;> split <;> omega
      have htlt := hr.tail_lt
      have hlist : (d.set tl v).drop tl ++ (d.set tl v).take tl = v :: l := by
        apply full_eq (by simp; exact htlt) (by simp; omega)
        intro i hi
        simp at hi
        simp only [List.length_set]
        cases i with
        | zero =>
          have : wrap d.length (tl + 0) = tl := by unfold wrap; split <;> omega
          rw [this]; simp [htlt]
        | succ i =>
          have := hr.2.2.2 i (by omega)
          have h1 := hr.1
          rw [List.getElem?_cons_succ, ← this, List.getElem?_set_ne]
          · congr 1; rw [← htl]; unfold wrap; split <;> split <;> (try split) <;> omega
          · unfold wrap; split <;> omega
      obtain ⟨t, rest, e, el, er⟩ := regrow_rel tl (d.set tl v) (by simpa using htlt)
      refine ⟨⟨0, t, rest⟩, ?_, ?_, ?_, ?_⟩
      · simp [pushFront, hd0, Go.set, htlt, prev, cap, htl]
        rw [← e]; simp [cap]
      · intro hc; exact absurd hc hd0
      · intro _ hc; simp [cap] at hc; omega
      · intro _ _
        refine ⟨rfl, by simp [cap, el], Or.inr ?_⟩
        rw [hlist] at er
        simpa [prev, cap, htl] using er

theorem Holds.nil_of_noBuf {s : Deque α} {l : List α} (h : Holds s l) (hd : s.d = []) :
    l = [] ∧ s.head = 0 ∧ s.tail = 0 := by
  rcases h with h | h
  · exact ⟨h.2.2.2, h.1, h.2.1⟩
  · have := h.1; rw [hd] at this; simp at this

theorem Holds.empty_iff {s : Deque α} {l : List α} (h : Holds s l) : s.head = s.tail ↔ l = [] := by
  rcases h with ⟨a, b, c, d⟩ | h
  · simp [a, b, d]
  · exact h.empty_iff

theorem Holds.size_eq {s : Deque α} {l : List α} (h : Holds s l) : size s = l.length := by
  rcases h with ⟨a, b, c, d⟩ | h
  · simp [size, a, b, d]
  · exact h.size

theorem Holds.front_eq {s : Deque α} {l : List α} (h : Holds s l) :
    step s .front = .ok (s, outOpt l.head?) := by
  by_cases hl : l = []
  · have := h.empty_iff.mpr hl
    simp [step, front, this, hl, outOpt]
  · have hne : ¬ s.head = s.tail := fun hc => hl (h.empty_iff.mp hc)
    rcases h with h | h
    · exact absurd h.2.2.2 hl
    · cases l with
      | nil => exact absurd rfl hl
      | cons x xs =>
        have := h.front hl
        simp [step, front, hne, Go.get, this, outOpt]

theorem Holds.back_eq {s : Deque α} {l : List α} (h : Holds s l) :
    step s .back = .ok (s, outOpt l.getLast?) := by
  by_cases hl : l = []
  · have := h.empty_iff.mpr hl
    simp [step, back, this, hl, outOpt]
  · have hne : ¬ s.head = s.tail := fun hc => hl (h.empty_iff.mp hc)
    rcases h with h | h
    · exact absurd h.2.2.2 hl
    · have := h.back hl
      rw [List.getLast?_eq_some_getLast hl] at this
      simp [step, back, hne, Go.get, prev, cap, this, outOpt, List.getLast?_eq_some_getLast hl]

theorem Holds.popFront_eq {s : Deque α} {l : List α} (h : Holds s l) :
    ∃ s', step s .popFront = .ok (s', outOpt l.head?) ∧ Holds s' l.tail ∧ cap s' = cap s := by
  by_cases hl : l = []
  · have := h.empty_iff.mpr hl
    refine ⟨s, by simp [step, popFront, this, hl, outOpt], by simpa [hl] using h, rfl⟩
  · have hne : ¬ s.head = s.tail := fun hc => hl (h.empty_iff.mp hc)
    rcases h with h | h
    · exact absurd h.2.2.2 hl
    · have h2 := h.popFront hl
      cases l with
      | nil => exact absurd rfl hl
      | cons x xs =>
        have := h.front hl
        refine ⟨{ s with head := next s s.head }, ?_, Or.inr h2, rfl⟩
        simp [step, popFront, hne, Go.get, this, outOpt]

theorem Holds.popBack_eq {s : Deque α} {l : List α} (h : Holds s l) :
    ∃ s', step s .popBack = .ok (s', outOpt l.getLast?) ∧ Holds s' l.dropLast ∧ cap s' = cap s ∧
      s'.head = s.head := by
  by_cases hl : l = []
  · have := h.empty_iff.mpr hl
    refine ⟨s, by simp [step, popBack, this, hl, outOpt], by simpa [hl] using h, rfl, rfl⟩
  · have hne : ¬ s.head = s.tail := fun hc => hl (h.empty_iff.mp hc)
    rcases h with h | h
    · exact absurd h.2.2.2 hl
    · have h2 := h.popBack hl
      have := h.back hl
      rw [List.getLast?_eq_some_getLast hl] at this
      refine ⟨{ s with tail := prev s s.tail }, ?_, Or.inr h2, rfl, rfl⟩
      simp [step, popBack, hne, Go.get, prev, cap, this, outOpt, List.getLast?_eq_some_getLast hl]

theorem holds_clear {s : Deque α} {l : List α} (h : Holds s l) : Holds (clear s) [] := by
  rcases h with ⟨a, b, c, d⟩ | h
  · exact Or.inl ⟨rfl, rfl, by simpa [clear] using c, rfl⟩
  · refine Or.inr ⟨?_, ?_, ?_, by simp⟩
    · have := h.1; simp [clear]; omega
    · have := h.1; simp [clear]; omega
    · have := h.1; simp [clear, wrap]

theorem holds_init {s : Deque α} {l : List α} (h : Holds s l) (n : Int) :
    Holds (init s n) [] ∧ (init s n).d ≠ [] ∧ (init s n).head = 0 ∧
      cap (init s n) = if s.d = [] then (if n ≤ 0 then 8 else n.toNat) else cap s := by
  by_cases hd : s.d = []
  · have hpos : 0 < (if n ≤ 0 then 8 else n.toNat) := by split <;> omega
    simp only [init, hd, if_true, newBuf, gt_iff_lt, hpos]
    refine ⟨Or.inr ?_, ?_, ?_, ?_⟩
    · simpa [clear] using Rel.ofPrefix ([] : List α)
        (List.replicate (if n ≤ 0 then 8 else n.toNat) default) (by simp; split <;> omega)
    · simp [clear]; split <;> omega
    · rfl
    · simp [clear, cap]
  · simp only [init, hd, if_false]
    exact ⟨holds_clear h, by simpa [clear] using hd, rfl, rfl⟩

/-- A push is harmless unless it fills a buffer whose data does not start at index 0. -/
def GrowSafe (s : Deque α) : DequeOp α → Prop
  | .pushFront _ => size s + 1 = cap s → prev s s.head = 0
  | .pushBack _ => size s + 1 = cap s → s.head = 0
  | _ => True

theorem step_refines {s : Deque α} {l : List α} (h : Holds s l) (op : DequeOp α)
    (hs : GrowSafe s op) :
    ∃ s', step s op = .ok (s', (dequeStep l op).2) ∧ Holds s' (dequeStep l op).1 := by
  cases op with
  | front => exact ⟨s, h.front_eq, h⟩
  | back => exact ⟨s, h.back_eq, h⟩
  | popFront => obtain ⟨s', a, b, _⟩ := h.popFront_eq; exact ⟨s', a, b⟩
  | popBack => obtain ⟨s', a, b, _⟩ := h.popBack_eq; exact ⟨s', a, b⟩
  | size => exact ⟨s, by simp [step, h.size_eq, dequeStep], h⟩
  | empty =>
    refine ⟨s, ?_, h⟩
    cases l <;> simp [step, empty, h.size_eq, dequeStep]
  | clear => exact ⟨clear s, rfl, holds_clear h⟩
  | init n => exact ⟨init s n, rfl, (holds_init h n).1⟩
  | pushBack v =>
    obtain ⟨s', e, h1, h2, h3⟩ := pushBack_holds h v
    refine ⟨s', by simp [step, e, dequeStep], ?_⟩
    by_cases hd : s.d = []
    · exact (h1 hd).1
    · by_cases hr : l.length + 1 < cap s
      · exact (h2 hd hr).1
      · have hf : l.length + 1 = cap s := by
          rcases h with h | h
          · exact absurd h.2.2.1 hd
          · have := h.2.1; simp only [cap] at *; omega
        have := (h3 hd hf).2.2
        rw [hs (by rw [h.size_eq]; exact hf)] at this
        have e2 : cap s - 0 = (l ++ [v]).length := by simp; omega
        rw [e2, mangle_full] at this
        exact this
  | pushFront v =>
    obtain ⟨s', e, h1, h2, h3⟩ := pushFront_holds h v
    refine ⟨s', by simp [step, e, dequeStep], ?_⟩
    by_cases hd : s.d = []
    · exact (h1 hd).1
    · by_cases hr : l.length + 1 < cap s
      · exact (h2 hd hr).1
      · have hf : l.length + 1 = cap s := by
          rcases h with h | h
          · exact absurd h.2.2.1 hd
          · have := h.2.1; simp only [cap] at *; omega
        have := (h3 hd hf).2.2
        rw [hs (by rw [h.size_eq]; exact hf)] at this
        have e2 : cap s - 0 = (v :: l).length := by simp; omega
        rw [e2, mangle_full] at this
        exact this

theorem mangle_getLast? {h : Nat} {l : List α} (h1 : 0 < h) (h2 : h < l.length) :
    (mangle h l).getLast? = some default := by
  have : min h (l.length - h) = (min h (l.length - h) - 1) + 1 := by omega
  rw [mangle, this, List.replicate_succ', ← List.append_assoc, List.getLast?_append]
  simp

theorem mangle_length {h : Nat} {l : List α} (h2 : h ≤ l.length) :
    (mangle h l).length = h + min h (l.length - h) := by
  simp [mangle]; omega

/-- Contents of an unwrapped ring. -/
theorem Rel.slice {hd tl : Nat} {d l : List α} (h : Rel hd tl d l) (hle : hd ≤ tl) :
    (d.drop hd).take (tl - hd) = l ∧ tl - hd = l.length := by
  obtain ⟨h1, h2, h3, h4⟩ := h
  have hlen : tl - hd = l.length := by subst h3; unfold wrap at *; split at hle <;> split <;> omega
  refine ⟨?_, hlen⟩
  apply List.ext_getElem?
  intro i
  by_cases hi : i < l.length
  · rw [← h4 i hi, List.getElem?_take_of_lt (by omega), List.getElem?_drop]
    congr 1; subst h3; unfold wrap at *; split at hle <;> split <;> omega
  · rw [List.getElem?_eq_none (by simp; omega), List.getElem?_eq_none (by omega)]

/-- Contents of a wrapped ring. -/
theorem Rel.slice_wrapped {hd tl : Nat} {d l : List α} (h : Rel hd tl d l) (hle : tl < hd) :
    d.drop hd ++ d.take tl = l := by
  obtain ⟨h1, h2, h3, h4⟩ := h
  have hlen : d.length - hd + tl = l.length := by subst h3; unfold wrap at *; split at hle <;> split <;> omega
  apply List.ext_getElem?
  intro i
  by_cases hi : i < l.length
  · rw [← h4 i hi]
    by_cases h2 : hd + i ≥ d.length
    · rw [List.getElem?_append_right (by simp; omega), List.getElem?_take_of_lt (by simp; omega)]
      congr 1; unfold wrap; simp; split <;> omega
    · rw [List.getElem?_append_left (by simp; omega), List.getElem?_drop]
      congr 1; unfold wrap; split <;> omega
  · rw [List.getElem?_eq_none (by simp; omega), List.getElem?_eq_none (by omega)]

end Verif.Deque
