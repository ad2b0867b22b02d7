import Verif.Model.SliceMem
import Mathlib.Data.List.Basic
/-! # Lemmas about slices in memory -/

set_option linter.unusedSectionVars false

namespace Verif.SliceMem
variable {α : Type} [Inhabited α]

/-- A slice the program can have: not longer than its capacity, in an array that was given out. -/
structure WF (m : Mem α) (s : Slice) : Prop where
  len_le : s.len ≤ s.cap
  arr_lt : s.arr < m.next

@[simp] theorem length_toList (m : Mem α) (s : Slice) : (toList m s).length = s.len := by simp [toList]

@[simp] theorem getElem_toList (m : Mem α) (s : Slice) (i : Nat) (h : i < (toList m s).length) :
    (toList m s)[i] = m.cell s.arr (s.off + i) := by simp [toList]

theorem getElem?_toList (m : Mem α) (s : Slice) (i : Nat) (h : i < s.len) :
    (toList m s)[i]? = some (m.cell s.arr (s.off + i)) := by
  rw [List.getElem?_eq_getElem (by simpa using h)]; simp

theorem get_eq (m : Mem α) (s : Slice) (i : Nat) : get m s i = Go.get (toList m s) i := by
  unfold get Go.get
  by_cases h : i < s.len
  · rw [if_pos h, getElem?_toList _ _ _ h]; rfl
  · rw [if_neg h, List.getElem?_eq_none (by simpa using h)]

theorem toList_congr (m m' : Mem α) (s : Slice) (h : ∀ i < s.len, m'.cell s.arr (s.off + i) = m.cell s.arr (s.off + i)) :
    toList m' s = toList m s := by
  apply List.ext_getElem
  · simp
  · intro i h1 h2; simp only [getElem_toList]; exact h i (by simpa using h1)

theorem store_cell (m : Mem α) (a p : Nat) (vs : List α) (b q : Nat) :
    (store m a p vs).cell b q = if b = a ∧ p ≤ q ∧ q < p + vs.length then vs.getD (q - p) default else m.cell b q := rfl

theorem put_cell (m : Mem α) (s : Slice) (i : Nat) (v : α) (b q : Nat) :
    (put m s i v).cell b q = if b = s.arr ∧ q = s.off + i then v else m.cell b q := by
  simp only [put, store_cell, List.length_singleton]
  by_cases h : b = s.arr ∧ q = s.off + i
  · rw [if_pos h, if_pos ⟨h.1, by omega, by omega⟩, h.2]; simp
  · rw [if_neg h, if_neg (fun e => h ⟨e.1, by omega⟩)]

@[simp] theorem put_next (m : Mem α) (s : Slice) (i : Nat) (v : α) : (put m s i v).next = m.next := rfl

theorem toList_put (m : Mem α) (s : Slice) (i : Nat) (v : α) : toList (put m s i v) s = (toList m s).set i v := by
  apply List.ext_getElem
  · simp
  · intro j h1 h2
    simp only [getElem_toList, put_cell, List.getElem_set, true_and, Nat.add_left_cancel_iff]
    by_cases h : j = i
    · rw [if_pos h, if_pos h.symm]
    · rw [if_neg h, if_neg (Ne.symm h)]

theorem set_eq (m : Mem α) (s : Slice) (i : Nat) (v : α) (h : i < s.len) : set m s i v = .ok (put m s i v) := if_pos h

/-- Behind the window of a slice, and in other arrays, nothing is changed. -/
structure Frame (m m' : Mem α) (s : Slice) (n : Nat) : Prop where
  next_le : m.next ≤ m'.next
  cell_eq : ∀ b q, b < m.next → (b ≠ s.arr ∨ q < s.off ∨ s.off + n ≤ q) → m'.cell b q = m.cell b q

theorem Frame.refl (m : Mem α) (s : Slice) (n : Nat) : Frame m m s n := ⟨Nat.le_refl _, fun _ _ _ _ => rfl⟩

theorem Frame.trans {m m' m'' : Mem α} {s : Slice} {n : Nat} (h : Frame m m' s n) (h' : Frame m' m'' s n) :
    Frame m m'' s n :=
  ⟨Nat.le_trans h.next_le h'.next_le, fun b q hb hq => by
    rw [h'.cell_eq b q (Nat.lt_of_lt_of_le hb h.next_le) hq, h.cell_eq b q hb hq]⟩

theorem Frame.mono {m m' : Mem α} {s t : Slice} {n k : Nat} (h : Frame m m' s n) (ha : t.arr = s.arr)
    (h1 : t.off ≤ s.off) (h2 : s.off + n ≤ t.off + k) : Frame m m' t k :=
  ⟨h.next_le, fun b q hb hq => h.cell_eq b q hb (by rw [ha] at hq; omega)⟩

theorem Frame.toList_eq {m m' : Mem α} {s t : Slice} {n : Nat} (h : Frame m m' s n) (ht : t.arr < m.next)
    (hd : t.arr ≠ s.arr ∨ t.off + t.len ≤ s.off ∨ s.off + n ≤ t.off) : toList m' t = toList m t :=
  toList_congr _ _ _ fun i hi => h.cell_eq _ _ ht (by omega)

theorem frame_put (m : Mem α) (s : Slice) (i : Nat) (v : α) {n : Nat} (h : i < n) : Frame m (put m s i v) s n :=
  ⟨Nat.le_refl _, fun b q _ hq => by rw [put_cell, if_neg (by omega)]⟩

theorem toList_split (m : Mem α) (s : Slice) (k : Nat) (h : k ≤ s.len) (c c' : Nat) :
    toList m s = toList m ⟨s.arr, s.off, k, c⟩ ++ toList m ⟨s.arr, s.off + k, s.len - k, c'⟩ := by
  apply List.ext_getElem
  · simp; omega
  · intro i h1 h2
    simp only [List.getElem_append, length_toList]
    by_cases hi : i < k
    · simp [hi]
    · simp [hi]; rw [show s.off + k + (i - k) = s.off + i by omega]

theorem toList_take (m : Mem α) (s : Slice) (k : Nat) (h : k ≤ s.len) (c : Nat) :
    toList m ⟨s.arr, s.off, k, c⟩ = (toList m s).take k := by
  rw [toList_split m s k h c 0, List.take_left' (by simp)]

theorem toList_drop (m : Mem α) (s : Slice) (k : Nat) (h : k ≤ s.len) (c : Nat) :
    toList m ⟨s.arr, s.off + k, s.len - k, c⟩ = (toList m s).drop k := by
  rw [toList_split m s k h 0 c, List.drop_left' (by simp)]

theorem sub_ok (s : Slice) (i j : Nat) (h : i ≤ j) (hj : j ≤ s.cap) :
    sub s i j = .ok ⟨s.arr, s.off + i, j - i, s.cap - i⟩ := if_pos ⟨h, hj⟩

/-- What `append` gives. -/
structure Appended (g : Grow) (m : Mem α) (s : Slice) (vs : List α) (m' : Mem α) (s' : Slice) : Prop where
  wf : WF m' s'
  list : toList m' s' = toList m s ++ vs
  frame : Frame m m' s s.cap
  place : if s.len + vs.length ≤ s.cap then m'.next = m.next ∧ s' = { s with len := s.len + vs.length } else
    s'.arr = m.next ∧ s'.off = 0
  same : s.cap < s.len + vs.length → ∀ b q, b < m.next → m'.cell b q = m.cell b q
  low : ∀ b q, b < m.next → (b ≠ s.arr ∨ q < s.off + s.len ∨ s.off + s.len + vs.length ≤ q) → m'.cell b q = m.cell b q

theorem append_spec (g : Grow) (m : Mem α) (s : Slice) (vs : List α) (h : WF m s) :
    Appended g m s vs (append g m s vs).1 (append g m s vs).2 := by
  unfold append
  by_cases hc : s.len + vs.length ≤ s.cap
  · rw [if_pos hc]
    refine ⟨⟨hc, h.arr_lt⟩, ?_, ⟨Nat.le_refl _, fun b q hb hq => ?_⟩, by rw [if_pos hc]; exact ⟨rfl, rfl⟩, fun hf => by omega,
      fun b q hb hq => ?_⟩
    · apply List.ext_getElem
      · simp
      · intro i h1 h2
        simp only [length_toList] at h1
        simp only [getElem_toList, store_cell, true_and, List.getElem_append, length_toList]
        by_cases hi : i < s.len
        · rw [dif_pos hi, if_neg (by omega)]
        · rw [dif_neg hi, if_pos (by omega), show s.off + i - (s.off + s.len) = i - s.len by omega,
            List.getD_eq_getElem?_getD, List.getElem?_eq_getElem (by omega), Option.getD_some]
    · rw [store_cell, if_neg (by omega)]
    · rw [store_cell, if_neg (by omega)]
  · rw [if_neg hc]
    have hcell : ∀ b q, b < m.next → (alloc m (toList m s ++ vs) (g.cap s.cap (s.len + vs.length))).1.cell b q =
        m.cell b q := fun b q hb => by
      simp only [alloc, store_cell]
      rw [if_neg (by omega), if_neg (by omega)]
    refine ⟨⟨?_, Nat.lt_succ_self _⟩, ?_, ⟨Nat.le_succ _, fun b q hb _ => hcell b q hb⟩, by rw [if_neg hc]; exact ⟨rfl, rfl⟩,
      fun _ => hcell, fun b q hb _ => hcell b q hb⟩
    · have := g.le s.cap (s.len + vs.length)
      simpa [alloc] using this
    · apply List.ext_getElem
      · simp [alloc]
      · intro i h1 h2
        simp only [alloc, length_toList] at h1
        simp only [alloc, getElem_toList, store_cell, true_and, Nat.zero_add, Nat.sub_zero]
        rw [if_pos (by omega), List.getD_eq_getElem?_getD, List.getElem?_eq_getElem h1, Option.getD_some]

end Verif.SliceMem
