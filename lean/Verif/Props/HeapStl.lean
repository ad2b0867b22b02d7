import Verif.Props.Heap
/-!
# C71 — the heap template without `GOGP_ImproveSTL`

The template can be instantiated with the C++ STL style `adjustDown`: sink the hole to a leaf, then
`adjustUp`.  `adjustUp` climbs to the root of the whole slice, not only to the starting hole.
-/

set_option linter.unusedSectionVars false

namespace Verif.Heap
open Verif.Spec Verif.Cmp
variable {α : Type}

/-- **C71 is false for MakeHeap**: in this configuration `MakeHeap [0, 3, 1, 2]` (max-top) is not a heap. -/
theorem C71_makeHeap_false :
    ¬ ∀ b : List Int, IsHeap (below true intLt) (makeHeapStl (cmpOf intLt true) b) := by
  intro h
  have h1 := (C10_checkHeap intLt true _).mpr (h [0, 3, 1, 2])
  revert h1
  decide +kernel

theorem sinkHole_perm (f : α → α → Bool) (b : List α) (hole : Nat) (hh : hole < b.length) (v : α) :
    (sinkHole f b hole hh v).Perm (b.set hole v) := by
  fun_induction sinkHole f b hole hh v with
  | case1 b hole hh hl ih =>
    exact ih.trans (set_set_perm b hole _ hh (bestChild_lt f b hole hl)
      (Nat.ne_of_lt (lt_bestChild f b hole hl)) v)
  | case2 => exact adjustUp_perm ..

theorem makeLoopStl_perm (f : α → α → Bool) (b : List α) (i : Nat) (h : i < b.length) : (makeLoopStl f b i h).Perm b := by
  induction i generalizing b with
  | zero =>
    unfold makeLoopStl
    refine (sinkHole_perm f b 0 h b[0]).trans ?_
    rw [List.set_getElem_self]
  | succ i ih =>
    unfold makeLoopStl
    refine (ih _ _).trans ((sinkHole_perm f b (i + 1) h b[i + 1]).trans ?_)
    rw [List.set_getElem_self]

/-- C71: `MakeHeap` of the other configuration, though it does not make a heap, keeps all elements. -/
theorem C71_makeHeap_perm (f : α → α → Bool) (b : List α) : (makeHeapStl f b).Perm b := by
  unfold makeHeapStl
  split
  · exact makeLoopStl_perm f b _ _
  · exact .refl _

example : makeHeapStl (cmpOf intLt true) [0, 3, 1, 2] = [3, 1, 0, 2] := by decide +kernel

/-- Invariant of the sinking loop started at the root. -/
structure SinkInv (lt : α → α → Bool) (b : List α) (hole : Nat) (hh : hole < b.length) : Prop where
  other : ∀ i (hi : i < b.length), 0 < i → i ≠ hole → parent i ≠ hole →
    lt (b[parent i]'(by unfold parent; omega)) b[i] = false
  skip : ∀ i (hi : i < b.length), 0 < i → parent i = hole → 0 < hole →
    lt (b[parent hole]'(by unfold parent; omega)) b[i] = false

theorem SinkInv.step {lt : α → α → Bool} {b : List α} {hole : Nat} {hh : hole < b.length}
    (hinv : SinkInv lt b hole hh) (c : Nat) (hcl : c < b.length) (hlt : hole < c) (hpc : parent c = hole)
    (hbest : ∀ i (hi : i < b.length), 0 < i → parent i = hole → lt b[c] b[i] = false) :
    SinkInv lt (b.set hole b[c]) c (by simpa using hcl) := by
  refine ⟨?_, ?_⟩
  · intro i hi h0 h1 h2
    have hi' : i < b.length := by simpa using hi
    by_cases h3 : i = hole
    · subst h3
      have hp : parent i ≠ i := Nat.ne_of_lt (parent_lt h0)
      rw [List.getElem_set_self, List.getElem_set_ne (Ne.symm hp)]
      exact hinv.skip c hcl (by omega) hpc h0
    · by_cases h4 : parent i = hole
      · rw [List.getElem_set_ne (Ne.symm h3)]
        have : (b.set hole b[c])[parent i]'(by simp; unfold parent; omega) = b[c] := by simp [h4]
        rw [this]
        exact hbest i hi' h0 h4
      · rw [List.getElem_set_ne (Ne.symm h3), List.getElem_set_ne (Ne.symm h4)]
        exact hinv.other i hi' h0 h3 h4
  · intro i hi h0 hp h0'
    have hi' : i < b.length := by simpa using hi
    have : (b.set hole b[c])[parent c]'(by simp; unfold parent; omega) = b[c] := by simp [hpc]
    rw [this]
    have hci : c < i := by rw [← hp]; exact parent_lt h0
    rw [List.getElem_set_ne (by omega)]
    have := hinv.other i hi' h0 (by omega) (by omega)
    simp only [hp] at this
    exact this

theorem sinkHole_heap {lt : α → α → Bool} (hw : StrictWeak lt) (b : List α) (hole : Nat)
    (hh : hole < b.length) (v : α) (hinv : SinkInv lt b hole hh) :
    HeapFrom lt 0 (sinkHole (fun c p => !lt p c) b hole hh v) := by
  fun_induction sinkHole (fun c p => !lt p c) b hole hh v with
  | case1 b hole hh hl ih =>
    apply ih
    obtain ⟨hpc, hbest⟩ := bestChild_spec hw b hole hl
    exact hinv.step _ (bestChild_lt _ b hole hl) (lt_bestChild _ b hole hl) hpc hbest
  | case2 b hole hh hl =>
    apply adjustUp_heap hw
    refine ⟨hinv.other, ?_, hinv.skip⟩
    intro i hi h0 hp
    exfalso; unfold parent at hp; unfold lchild at hl; omega

/-- **C71, partial.**  Missing: `MakeHeap` (and hence `SortHeap`), see `C71_makeHeap_false`.  In the STL
configuration `PopHeap` of a heap leaves a heap followed by the former root. -/
theorem C71_popHeap_partial {less : α → α → Bool} (hw : StrictWeak less) (maxTop : Bool) (x : α) (xs : List α)
    (h : IsHeap (below maxTop less) (x :: xs)) :
    ∃ t, popBufStl (cmpOf less maxTop) (x :: xs) = t ++ [x] ∧ IsHeap (below maxTop less) t ∧ t.Perm xs := by
  have hb := below_strictWeak hw maxTop
  have hh := (isHeap_iff_heapFrom _ _).mp h
  rw [cmpOf_eq]
  unfold popBufStl
  by_cases h1 : (x :: xs).length > 1
  · rw [dif_pos h1]
    refine ⟨_, rfl, (isHeap_iff_heapFrom _ _).mpr (sinkHole_heap hb _ _ _ _ ⟨?_, ?_⟩), ?_⟩
    · intro i hi h0 h2 h3
      simp only [List.length_take, List.length_set] at hi
      rw [List.getElem_take, List.getElem_take, List.getElem_set_ne (Ne.symm h3), List.getElem_set_ne (Ne.symm h2)]
      exact hh i (by omega) h0 (Nat.zero_le _)
    · intro i hi h0 hp hc; exact absurd hc (by omega)
    · refine (sinkHole_perm ..).trans ?_
      obtain ⟨ys, y, rfl⟩ : ∃ ys y, xs = ys ++ [y] := by
        rcases List.eq_nil_or_concat xs with rfl | ⟨ys, y, rfl⟩
        · exact absurd h1 (by simp)
        · exact ⟨ys, y, by simp⟩
      simp
      exact (List.perm_append_comm (l₁ := [y]) (l₂ := ys))
  · rw [dif_neg h1]
    have : xs = [] := List.length_eq_zero_iff.mp (by rw [List.length_cons] at h1; omega)
    subst this
    exact ⟨[], rfl, by intro i p c _ hn; simp at hn, List.Perm.refl _⟩

example : popBufStl (cmpOf intLt true) [9, 7, 8, 1, 7] = [8, 7, 7, 1, 9] := by decide +kernel

end Verif.Heap
