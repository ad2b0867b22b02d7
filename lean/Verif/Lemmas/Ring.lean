import Verif.Model.Go
/-!
# Ring buffers: the abstraction relation shared by the deque and queue proofs
-/

namespace Verif.Ring
variable {α : Type}

/-- Index `x` reduced into a ring of `cap` slots (for `x < 2 * cap`). -/
def wrap (cap x : Nat) : Nat := if x ≥ cap then x - cap else x

/-- The ring `(head, tail, d)` stores the sequence `l`, with at least one free slot. -/
def Rel (head tail : Nat) (d l : List α) : Prop :=
  head < d.length ∧ l.length < d.length ∧ tail = wrap d.length (head + l.length) ∧
    ∀ i, i < l.length → d[wrap d.length (head + i)]? = l[i]?

theorem Rel.tail_lt {head tail : Nat} {d l : List α} (h : Rel head tail d l) : tail < d.length := by
  obtain ⟨h1, h2, h3, _⟩ := h
  subst h3; unfold wrap; split <;> omega

theorem Rel.empty_iff {head tail : Nat} {d l : List α} (h : Rel head tail d l) :
    head = tail ↔ l = [] := by
  obtain ⟨h1, h2, h3, _⟩ := h
  rw [← List.length_eq_zero_iff]
  subst h3; unfold wrap; split <;> omega

theorem Rel.size {head tail : Nat} {d l : List α} (h : Rel head tail d l) :
    (if tail ≥ head then tail - head else d.length - (head - tail)) = l.length := by
  obtain ⟨h1, h2, h3, _⟩ := h
  subst h3; unfold wrap; split <;> split <;> omega

theorem Rel.front {head tail : Nat} {d l : List α} (h : Rel head tail d l) (hne : l ≠ []) :
    d[head]? = l.head? := by
  obtain ⟨h1, h2, h3, h4⟩ := h
  have hpos : 0 < l.length := List.length_pos_iff.mpr hne
  have := h4 0 hpos
  rw [List.head?_eq_getElem?, ← this]
  congr 1; unfold wrap; split <;> omega

theorem Rel.back {head tail : Nat} {d l : List α} (h : Rel head tail d l) (hne : l ≠ []) :
    d[if tail = 0 then d.length - 1 else tail - 1]? = l.getLast? := by
  obtain ⟨h1, h2, h3, h4⟩ := h
  have hpos : 0 < l.length := List.length_pos_iff.mpr hne
  have := h4 (l.length - 1) (by omega)
  rw [List.getLast?_eq_getElem?, ← this]
  congr 1; subst h3; unfold wrap; split <;> split <;> (try split) <;> omega

theorem Rel.popFront {head tail : Nat} {d l : List α} (h : Rel head tail d l) (hne : l ≠ []) :
    Rel (if head + 1 ≥ d.length then 0 else head + 1) tail d l.tail := by
  obtain ⟨h1, h2, h3, h4⟩ := h
  have hpos : 0 < l.length := List.length_pos_iff.mpr hne
  refine ⟨by split <;> omega, by simp; omega, ?_, ?_⟩
  · subst h3; simp; unfold wrap; split <;> split <;> split <;> omega
  · intro i hi
    simp at hi
    have := h4 (i + 1) (by omega)
    rw [List.getElem?_tail, ← this]
    congr 1; unfold wrap; split <;> split <;> (try split) <;> omega

theorem Rel.popBack {head tail : Nat} {d l : List α} (h : Rel head tail d l) (hne : l ≠ []) :
    Rel head (if tail = 0 then d.length - 1 else tail - 1) d l.dropLast := by
  obtain ⟨h1, h2, h3, h4⟩ := h
  have hpos : 0 < l.length := List.length_pos_iff.mpr hne
  refine ⟨h1, by simp; omega, ?_, ?_⟩
  · subst h3; simp; unfold wrap; split <;> split <;> (try split) <;> omega
  · intro i hi
    simp at hi
    have := h4 i (by omega)
    rw [this, List.getElem?_dropLast, if_pos (by omega)]

/-- Writing at `tail` and advancing it stores one more element, while one slot stays free. -/
theorem Rel.pushBack {head tail : Nat} {d l : List α} (h : Rel head tail d l) (v : α)
    (hroom : l.length + 1 < d.length) :
    Rel head (if tail + 1 ≥ d.length then 0 else tail + 1) (d.set tail v) (l ++ [v]) := by
  have ht := h.tail_lt
  obtain ⟨h1, h2, h3, h4⟩ := h
  refine ⟨by simpa using h1, by simpa using hroom, ?_, ?_⟩
  · simp; subst h3; unfold wrap; split <;> split <;> split <;> omega
  · intro i hi
    simp at hi
    simp only [List.length_set]
    by_cases hi' : i = l.length
    · subst hi'; rw [← h3]; simp [ht]
    · have := h4 i (by omega)
      rw [List.getElem?_append_left (by omega), ← this, List.getElem?_set_ne]
      subst h3; unfold wrap; split <;> split <;> omega

/-- Moving `head` back and writing there stores one more element, while one slot stays free. -/
theorem Rel.pushFront {head tail : Nat} {d l : List α} (h : Rel head tail d l) (v : α)
    (hroom : l.length + 1 < d.length) :
    Rel (if head = 0 then d.length - 1 else head - 1) tail
      (d.set (if head = 0 then d.length - 1 else head - 1) v) (v :: l) := by
  obtain ⟨h1, h2, h3, h4⟩ := h
  have hp : (if head = 0 then d.length - 1 else head - 1) < d.length := by split <;> omega
  refine ⟨by simpa using hp, by simpa using hroom, ?_, ?_⟩
  · simp; subst h3; unfold wrap; split <;> split <;> (try split) <;> omega
  · intro i hi
    simp at hi
    simp only [List.length_set]
    cases i with
    | zero =>
      have : wrap d.length ((if head = 0 then d.length - 1 else head - 1) + 0)
          = (if head = 0 then d.length - 1 else head - 1) := by
        unfold wrap; split <;> split <;> omega
      rw [this]; simp [hp]
    | succ i =>
      have := h4 i (by omega)
      rw [List.getElem?_cons_succ, ← this, List.getElem?_set_ne]
      · congr 1; unfold wrap; split <;> split <;> (try split) <;> omega
      · unfold wrap; split <;> split <;> (try split) <;> omega

/-- An unwrapped buffer stores the prefix it was filled with. -/
theorem Rel.ofPrefix (l rest : List α) (h : rest ≠ []) : Rel 0 l.length (l ++ rest) l := by
  have : 0 < rest.length := List.length_pos_iff.mpr h
  refine ⟨by simp; omega, by simp; omega, by simp [wrap]; omega, ?_⟩
  intro i hi
  have hw : wrap (l ++ rest).length (0 + i) = i := by unfold wrap; simp; omega
  rw [hw, List.getElem?_append_left hi]

/-- The sequence stored in a ring is determined by the ring. -/
theorem Rel.unique {head tail : Nat} {d l l' : List α} (h : Rel head tail d l)
    (h' : Rel head tail d l') : l = l' := by
  have hlen : l.length = l'.length := by rw [← h.size, ← h'.size]
  apply List.ext_getElem? ; intro i
  by_cases hi : i < l.length
  · rw [← h.2.2.2 i hi, h'.2.2.2 i (by omega)]
  · rw [List.getElem?_eq_none (by omega), List.getElem?_eq_none (by omega)]

end Verif.Ring
