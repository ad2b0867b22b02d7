import Verif.Lemmas.DListSort
/-!
# Property C20: sorting the doubly linked list
-/

namespace Verif.DList
open Verif.Spec Verif.Cmp
variable {α : Type}

/-- **C20.**  For every comparator that is a strict weak order and every list (of fewer than 2^64 nodes, the
number of bins the code provides for), `Sort` terminates without panic.  It leaves a consistent ring made of
exactly the old nodes, no value is changed, no other node is touched, and the nodes are in ascending order
where equal values keep their former order. -/
theorem C20_sort_stable {lt : α → α → Bool} (hs : StrictWeak lt) (h : Mem α) (head : Ptr) (l : List Nat)
    (hh : Holds h head l) (hl64 : l.length < 2 ^ 64) (fuel : Nat) (hfuel : l.length + 64 < fuel) :
    ∃ h' head' r, mergeSort lt fuel h head = .ok (some (h', head')) ∧ Holds h' head' r ∧ r.Perm l ∧
      r.Pairwise (fun a b => lt (h a).val (h b).val = true ∨
        (lt (h b).val (h a).val = false ∧ l.idxOf a < l.idxOf b)) ∧
      (∀ x, (h' x).val = (h x).val) ∧ (∀ y, y ∉ l → h' y = h y) := by
  have hnd := hh.2.1
  cases l with
  | nil =>
    have : head = none := hh.1
    subst this
    exact ⟨h, none, [], rfl, hh, List.Perm.refl _, List.Pairwise.nil, fun _ => rfl, fun _ _ => rfl⟩
  | cons a t =>
    have : head = some a := hh.1
    subst this
    cases t with
    | nil =>
      refine ⟨h, some a, [a], ?_, hh, List.Perm.refl _, List.pairwise_singleton _ _, fun _ => rfl, fun _ _ => rfl⟩
      simp [mergeSort, (ring_single hh.2).1]
    | cons b t =>
      have hn : (h a).next = some b := ring_next_head hh.2
      have hab : a ≠ b := by simp at hnd; tauto
      have hB0 : Bins lt (fun x => (h x).val) (a :: b :: t).idxOf h (List.replicate 64 none) (fun _ => []) := by
        refine ⟨by simp, ?_, fun _ _ => rfl, fun _ => List.Pairwise.nil, by simp⟩
        intro j c hc
        have : c = none := by
          have := List.mem_of_getElem? hc
          exact List.eq_of_mem_replicate this
        subst this
        exact ⟨rfl, ring_nil h⟩
      obtain ⟨h1, bins1, BL1, nF, e1, r1, r2, r3, r4, r5, r6, r7⟩ :=
        distLoop_spec hs (fun x => (h x).val) (a :: b :: t) hnd hl64 fuel hfuel fuel h (some a)
          (List.replicate 64 none) (fun _ => []) 0 [] (a :: b :: t) rfl (by omega) (by omega) (by simp) hh hB0
          (fun _ => rfl) (fun _ => Or.inl rfl) (fun _ _ => rfl) (by simp)
      have hnF := r2 (by simp)
      obtain ⟨h2, bins2, BL2, e2, s1, s2, s3, s4, s5⟩ :=
        collLoop_spec hs (fun x => (h x).val) (a :: b :: t).idxOf (a :: b :: t) fuel nF r1 hnF (by omega) fuel
          h1 bins1 BL1 1 (by omega) (by omega) (by omega) r3 r4 r5 (by omega) r6
      have hib : nF - 1 < bins2.length := by rw [s1.len]; omega
      have hget : Go.get bins2 (nF - 1) = .ok bins2[nF - 1] := by simp [Go.get, List.getElem?_eq_getElem hib]
      have hhold := s1.hold (nF - 1) _ (List.getElem?_eq_getElem hib)
      have hmem : ∀ x, x ∈ BL2 (nF - 1) ↔ x ∈ a :: b :: t := by
        intro x
        rw [s4]
        constructor
        · intro hx; exact ⟨_, hx⟩
        · rintro ⟨j, hx⟩
          by_cases hj : j = nF - 1
          · rw [← hj]; exact hx
          · rw [s3 j hj] at hx; simp at hx
      refine ⟨h2, bins2[nF - 1], BL2 (nF - 1), ?_, hhold, ?_, ?_, s2, ?_⟩
      · unfold mergeSort
        simp only [hn]
        rw [if_neg (by simpa using hab), e1]
        simp only [Res.bind_ok, e2, hget]
        rfl
      · exact (List.perm_ext_iff_of_nodup hhold.2.1 hnd).mpr hmem
      · have hp : (BL2 (nF - 1)).Pairwise (fun x y => x ≠ y ∧ sle lt (fun x => (h x).val) (a :: b :: t).idxOf x y = true) :=
          List.Pairwise.and hhold.2.1 (s1.sorted (nF - 1))
        refine (List.Pairwise.and_mem.mp hp).imp ?_
        rintro x y ⟨hx, hy, hxy, hle⟩
        have hidx : (a :: b :: t).idxOf x ≠ (a :: b :: t).idxOf y := by
          intro e
          exact hxy ((List.idxOf_inj ((hmem x).mp hx)).mp e)
        simp only [sle, slt, Bool.not_eq_true', Bool.or_eq_false_iff, Bool.and_eq_false_iff,
          decide_eq_false_iff_not, Bool.not_eq_false'] at hle
        obtain ⟨h1, h2⟩ := hle
        rcases h2 with h2 | h2
        · exact Or.inl h2
        · exact Or.inr ⟨h1, by omega⟩
      · intro y hy
        rw [s5 y hy, r7 y hy]

/-- The generated `int` list: the values come out ascending. -/
theorem C20_sort_int (h : Mem Int) (head : Ptr) (l : List Nat) (hh : Holds h head l) (hl64 : l.length < 2 ^ 64)
    (fuel : Nat) (hfuel : l.length + 64 < fuel) :
    ∃ h' head' r, mergeSort intLt fuel h head = .ok (some (h', head')) ∧ Holds h' head' r ∧ r.Perm l ∧
      (r.map fun x => (h' x).val).Pairwise (· ≤ ·) := by
  obtain ⟨h', head', r, e, h1, h2, h3, h4, _⟩ := C20_sort_stable intLt_strictWeak h head l hh hl64 fuel hfuel
  refine ⟨h', head', r, e, h1, h2, ?_⟩
  rw [List.pairwise_map]
  refine h3.imp ?_
  intro a b hab
  rw [h4, h4]
  simp only [intLt, decide_eq_true_eq, decide_eq_false_iff_not] at hab
  omega

/-- A ring of five nodes with two equal values, and the order in which `Sort` leaves them. -/
def exSort : Mem Int := fun a =>
  if a = 0 then ⟨3, some 4, some 1⟩ else if a = 1 then ⟨1, some 0, some 2⟩ else if a = 2 then ⟨2, some 1, some 3⟩
  else if a = 3 then ⟨1, some 2, some 4⟩ else ⟨0, some 3, some 0⟩

example : Holds exSort (some 0) [0, 1, 2, 3, 4] := by simp [Holds, Ring, Chain, Link, exSort]
example : (match mergeSort intLt 70 exSort (some 0) with
    | .ok (some (h, hd)) => (hd, [4, 1, 3, 2, 0].map fun x => (h x).next)
    | _ => (none, [])) = (some 4, [some 1, some 3, some 2, some 0, some 4]) := by decide +kernel

example := C20_sort_stable intLt_strictWeak exSort (some 0) [0, 1, 2, 3, 4] (by simp [Holds, Ring, Chain, Link, exSort]) (by decide) 70 (by decide)

end Verif.DList
