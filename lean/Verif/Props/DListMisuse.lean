import Verif.Props.DList
/-!
# Unusual arguments and edits during a visit of the doubly linked list: C119
-/

set_option linter.unusedSectionVars false

namespace Verif.DList
open Verif.Spec
variable {α : Type}

/-- **C119** A nil node or a nil mark changes nothing.  `InsertBefore` and `InsertAfter` return their node even though they
do not insert it. -/
theorem C119_nil (h : Mem α) (head p : Ptr) (a : Nat) (v : α) :
    insertBack h head none = .ok (h, head, none) ∧ insertFront h head none = .ok (h, head, none) ∧
    insertBefore h head none p = .ok (h, head, none) ∧ insertBefore h head p none = .ok (h, head, p) ∧
    insertAfter h none p = .ok (h, none) ∧ insertAfter h p none = .ok (h, p) ∧
    pushBefore h head a v none = .ok (h, head, none) ∧ pushAfter h a v none = .ok (h, none) ∧
    remove h head none = .ok (h, head, none) ∧ moveBack h head none = .ok (h, none) ∧
    moveFront h head none = .ok (h, head, none) ∧ moveBefore h head none p = .ok (h, head, none) ∧
    moveBefore h head p none = .ok (h, head, none) ∧ moveAfter h head none p = .ok (h, head, none) ∧
    moveAfter h head p none = .ok (h, head, none) ∧ nodeNext h none = none ∧ nodePrev h none = none := by
  simp [insertBack, insertFront, insertBefore, insertAfter, pushBefore, pushAfter, remove, moveBack, moveFront, moveBefore,
    moveAfter, nodeNext, nodePrev]

/-- **C119** A node as its own mark changes nothing. -/
theorem C119_self_mark (h : Mem α) (head p : Ptr) :
    insertBefore h head p p = .ok (h, head, p) ∧ moveBefore h head p p = .ok (h, head, none) ∧
    moveAfter h head p p = .ok (h, head, none) := by
  simp [insertBefore, moveBefore, moveAfter]

/-- **C119** `InsertAfter(n, n)` makes `n` a ring of its own without telling the others. -/
theorem C119_insertAfter_self (h : Mem α) (x : Nat) :
    ∃ h', insertAfter h (some x) (some x) = .ok (h', some x) ∧ (h' x).next = some x ∧ (h' x).prev = some x ∧
      ∀ y ≠ x, h' y = h y := by
  refine ⟨_, rfl, by simp [upd], by simp [upd], fun y hy => by simp [upd, hy]⟩

/-- **C119** A node that is in no list, because it is new or was removed, cannot be removed or moved: nothing changes and nil
is returned. -/
theorem C119_detached (h : Mem α) (head mark : Ptr) (x : Nat) (hx : (h x).next = none ∧ (h x).prev = none) :
    remove h head (some x) = .ok (h, head, none) ∧ moveBack h head (some x) = .ok (h, none) ∧
    moveFront h head (some x) = .ok (h, head, none) ∧ moveBefore h head (some x) mark = .ok (h, head, none) ∧
    moveAfter h head (some x) mark = .ok (h, head, none) := by
  have hr := remove_detached h head x (.inl hx.1)
  have hb : moveBack h head (some x) = .ok (h, none) := by simp [moveBack, hx.1]
  refine ⟨hr, hb, by simp [moveFront, hb], ?_, ?_⟩
  · unfold moveBefore; split
    · simp [hr]
    · rfl
  · unfold moveAfter; split
    · simp [hr]
    · rfl

/-- **C119** Removing a node of the list a second time does nothing. -/
theorem C119_remove_twice {h : Mem α} {head : Ptr} {l : List Nat} {x : Nat} (hh : Holds h head l) (hx : x ∈ l) :
    ∃ h' head', remove h head (some x) = .ok (h', head', some x) ∧ Holds h' head' (l.erase x) ∧
      remove h' head' (some x) = .ok (h', head', none) := by
  obtain ⟨A, B, rfl⟩ := List.append_of_mem hx
  obtain ⟨h', head', e, hh', n1, n2, _⟩ := remove_spec hh
  have hnd := hh.2.1
  have hA : x ∉ A := by
    rw [List.nodup_append] at hnd
    exact fun m => hnd.2.2 x m x (by simp) rfl
  refine ⟨h', head', e, ?_, remove_detached h' head' x (.inl n1)⟩
  rw [List.erase_append_right _ hA, List.erase_cons_head]
  exact hh'

/-- **C119** `InsertBefore` in front of a node that is in no list panics. -/
theorem C119_detached_mark (h : Mem α) (head : Ptr) (x m : Nat) (hxm : x ≠ m) (hm : (h m).prev = none) :
    insertBefore h head (some x) (some m) = .panic := by
  have hmx : m ≠ x := Ne.symm hxm
  simp [insertBefore, linkBefore, hxm, setNext, setPrev, rd, upd, hmx, hm]

/-! ## A node of another list -/

/-- **C119** `Remove` called on the wrong list works like on the right one if the node is not the first of its list.
Missing: the first node, for which it is false (`C119_wrong_list_first`). -/
theorem C119_wrong_list_partial {h : Mem α} {head ohead : Ptr} {l A B : List Nat} {c x : Nat} (hh : Holds h head l)
    (ho : Holds h ohead (c :: A ++ x :: B)) (hd : ∀ y ∈ l, y ∉ c :: A ++ x :: B) :
    ∃ h', remove h head (some x) = .ok (h', head, some x) ∧ Holds h' head l ∧ Holds h' ohead (c :: A ++ B) := by
  obtain ⟨ohd, hr⟩ := ho
  have hrot : Ring h ((x :: B) ++ (c :: A)) := ring_rotate (c :: A) (x :: B) hr
  have hne : some x ≠ head := by
    intro e
    rw [hh.1] at e
    exact hd x (List.mem_of_mem_head? e.symm) (by simp)
  cases hB : B ++ (c :: A) with
  | nil => simp at hB
  | cons d D =>
    have hrot' : Ring h (x :: d :: D) := by rw [← hB]; exact hrot
    obtain ⟨h', e, hr', n1, n2, f, _⟩ := remove_core h x d D hrot' head
    rw [if_neg hne] at e
    refine ⟨h', e, holds_frame hh fun y hy => f y ?_, by simpa using ohd, ?_⟩
    · have := hd y hy
      rw [← hB]
      simp at this ⊢; tauto
    · rw [← hB] at hr'
      exact ring_rotate B (c :: A) hr'

/-- **C119** `Remove` of the only node of another list empties the list it is called on, and leaves the other list with a
head that is in no list, whose `Back` is nil and into which every insertion panics. -/
theorem C119_wrong_list_single {h : Mem α} {head ohead : Ptr} {x : Nat} (ho : Holds h ohead [x]) (y : Nat) (hy : y ≠ x) :
    ∃ h', remove h head (some x) = .ok (h', none, some x) ∧ ohead = some x ∧ (h' x).next = none ∧ (h' x).prev = none ∧
      back h' ohead = .ok none ∧ insertBack h' ohead (some y) = .panic ∧ insertFront h' ohead (some y) = .panic := by
  obtain ⟨ohd, hr⟩ := ho
  simp only [List.head?_cons] at ohd
  subst ohd
  obtain ⟨h', e, n1, n2, _, _⟩ := remove_single h x hr head
  have hi : insertBack h' (some x) (some y) = .panic := by
    have hxy : x ≠ y := Ne.symm hy
    simp [insertBack, linkBefore, setNext, setPrev, rd, upd, hxy, n2]
  exact ⟨h', e, rfl, n1, n2, by simp [back, rd, n2], hi, by simp [insertFront, hi]⟩

/-- **C119** `Remove` of the first node of another list with at least two nodes: the list it is called on is as before, the
other nodes are still linked, but the other list still begins with the removed node. -/
theorem C119_wrong_list_first {h : Mem α} {head ohead : Ptr} {l C : List Nat} {x c : Nat} (hh : Holds h head l)
    (ho : Holds h ohead (x :: c :: C)) (hd : ∀ y ∈ l, y ∉ x :: c :: C) (y : Nat) (hy : y ≠ x) :
    ∃ h', remove h head (some x) = .ok (h', head, some x) ∧ Holds h' head l ∧ Holds h' (some c) (c :: C) ∧
      ohead = some x ∧ back h' ohead = .ok none ∧ insertBack h' ohead (some y) = .panic := by
  obtain ⟨ohd, hr⟩ := ho
  simp only [List.head?_cons] at ohd
  subst ohd
  have hne : some x ≠ head := by
    intro e
    rw [hh.1] at e
    exact hd x (List.mem_of_mem_head? e.symm) (by simp)
  obtain ⟨h', e, hr', n1, n2, f, _⟩ := remove_core h x c C hr head
  rw [if_neg hne] at e
  have hxy : x ≠ y := Ne.symm hy
  exact ⟨h', e, holds_frame hh fun z hz => f z (hd z hz), ⟨rfl, hr'⟩, rfl, by simp [back, rd, n2], by
    simp [insertBack, linkBefore, setNext, setPrev, rd, upd, hxy, n2]⟩

/-! ## A list as its own argument -/

/-- **C119** Inserting a list into itself empties it, and reports success. -/
theorem C119_self_list {h : Mem α} {head : Ptr} {l : List Nat} (hh : Holds h head l) (hl : l ≠ []) :
    (∃ h', insertBackListSelf h head = .ok (h', none, true) ∧ Holds h' head l) ∧
    (∃ h', insertFrontListSelf h head = .ok (h', none, true) ∧ Holds h' head l) := by
  have key : ∃ h', insertBackListSelf h head = .ok (h', none, true) ∧ Holds h' head l := by
    obtain ⟨hhd, hr⟩ := hh
    cases l with
    | nil => exact absurd rfl hl
    | cons a A =>
      simp only [List.head?_cons] at hhd
      subst hhd
      obtain ⟨D, z, hz⟩ := exists_concat a A
      have hp := ring_prev_head hz hr
      have hn := ring_next_last hz hr
      have e1 : upd h z { h z with next := some a } = h := by
        funext y; unfold upd; split
        · rename_i e; subst e; rw [← hn]
        · rfl
      have e2 : upd h a { h a with prev := some z } = h := by
        funext y; unfold upd; split
        · rename_i e; subst e; rw [← hp]
        · rfl
      refine ⟨h, ?_, rfl, hr⟩
      simp [insertBackListSelf, insertBackList, empty, back, rd, hp, setNext, setPrev, e1, e2]
  refine ⟨key, ?_⟩
  obtain ⟨h', e, hh'⟩ := key
  refine ⟨h', ?_, hh'⟩
  have hne : empty head = false := by
    have := hh.1
    cases l with
    | nil => exact absurd rfl hl
    | cons a A => simp at this; simp [empty, this]
  simp [insertFrontListSelf, e, hne, rotateBackward]

/-- **C119** Inserting the last node of a list at its end again makes that node its own successor: going forward never
comes to an end, and the visitor stays at that node with `Next` reporting true. -/
theorem C119_insert_again {h : Mem α} {head : Ptr} {A : List Nat} {a x : Nat} (hh : Holds h head (a :: A ++ [x])) :
    ∃ h', insertBack h head (some x) = .ok (h', head, some x) ∧ (h' x).next = some x ∧ (h' x).prev = some x ∧
      vNext h' ⟨some x, head⟩ = .ok (⟨some x, head⟩, true) := by
  obtain ⟨hhd, hr⟩ := hh
  simp only [List.cons_append, List.head?_cons] at hhd
  subst hhd
  have hp := ring_prev_head (D := a :: A) (z := x) (by simp) hr
  have hne : a ≠ x := by
    have := hr.1
    simp at this
    tauto
  have hne' : x ≠ a := Ne.symm hne
  refine ⟨upd (upd h x ⟨(h x).val, some x, some x⟩) a { h a with prev := some x }, ?_, ?_, ?_, ?_⟩
  · simp only [insertBack, linkBefore, setNext, setPrev, rd, ne_eq, reduceCtorEq, not_false_eq_true, if_true, if_false,
      Res.bind_ok, Res.pure_eq, upd_ne _ _ _ _ hne, hp, Res.ok.injEq, Prod.mk.injEq, and_true]
    funext y
    by_cases e1 : y = a
    · subst e1; simp [upd]
    · by_cases e2 : y = x
      · subst e2; simp [upd, hne']
      · simp [upd, e1, e2]
  · simp [upd, hne']
  · simp [upd, hne']
  · simp [vNext, rd, upd, hne']

/-! ## Edits during a visit -/

/-- **C119** When the node a visitor is at is removed, the next call of `Next` returns true although the visitor is at no
node then (`Get` returns nil), and the call after that starts again at the first node, as the visitor knew it. -/
theorem C119_visit_removed {h : Mem α} {head : Ptr} {l : List Nat} {x : Nat} (hh : Holds h head l) (hx : x ∈ l) :
    ∃ h' head', remove h head (some x) = .ok (h', head', some x) ∧
      vNext h' ⟨some x, head⟩ = .ok (⟨none, head⟩, true) ∧ vNext h' ⟨none, head⟩ = .ok (⟨head, head⟩, true) := by
  obtain ⟨A, B, rfl⟩ := List.append_of_mem hx
  obtain ⟨h', head', e, hh', n1, n2, _⟩ := remove_spec hh
  have hne : head ≠ none := by
    have := hh.1
    rw [this]
    cases A <;> simp
  exact ⟨h', head', e, by simp [vNext, rd, n1, Ne.symm hne], by simp [vNext, hne]⟩

/-- **C119** So removing the first node while a visitor is at it makes the visitor alternate between that node and nil
for ever, whatever else is in the list. -/
theorem C119_visit_loops {h : Mem α} {x : Nat} {l : List Nat} (hh : Holds h (some x) (x :: l)) :
    ∃ h' head', remove h (some x) (some x) = .ok (h', head', some x) ∧ Holds h' head' l ∧
      vNext h' ⟨some x, some x⟩ = .ok (⟨none, some x⟩, true) ∧ vNext h' ⟨none, some x⟩ = .ok (⟨some x, some x⟩, true) := by
  obtain ⟨h', head', e, hh', n1, _⟩ := remove_spec (A := []) hh
  exact ⟨h', head', e, hh', by simp [vNext, rd, n1], by simp [vNext]⟩

/-- **C119** Removing a node that is neither the one the visitor is at nor the first one is harmless: the visitor is at the
same node of the shorter list, and `Next` and `Prev` go on from there.  Missing: removing the node the visitor is at, for
which it is false (`C119_visit_removed`). -/
theorem C119_visit_other_partial [Inhabited α] {h : Mem α} {l : List Nat} {a x y : Nat} {i : Nat} (hh : Holds h (some a) l) (hx : x ∈ l)
    (hxa : x ≠ a) (hxy : x ≠ y) (hy : l[i]? = some y) :
    ∃ h' j, remove h (some a) (some x) = .ok (h', some a, some x) ∧ Holds h' (some a) (l.erase x) ∧
      (l.erase x)[j]? = some y ∧
      ∃ v', vNext h' ⟨some y, some a⟩ = .ok (v', decide (j + 1 < (l.erase x).length)) ∧
        v'.node = (l.erase x)[(j + 1) % (l.erase x).length]? := by
  obtain ⟨h', head', e, hh', _⟩ := C119_remove_twice hh hx
  have hhd : head' = some a := by
    rw [hh'.1]
    cases l with
    | nil => simp at hx
    | cons b L =>
      have hb : a = b := by simpa using hh.1
      subst hb
      rw [List.erase_cons_tail (by simpa using Ne.symm hxa)]
      rfl
  subst hhd
  have hym : y ∈ l.erase x := (List.mem_erase_of_ne (Ne.symm hxy)).2 (List.mem_of_getElem? hy)
  obtain ⟨j, hj⟩ := List.mem_iff_getElem?.1 hym
  obtain ⟨hjl, _⟩ := List.getElem?_eq_some_iff.1 hj
  obtain ⟨v', ev, hv⟩ := C19_next hh' ⟨some y, some a⟩ (some j) ⟨rfl, hjl, hj.symm⟩
  exact ⟨h', j, e, hh', hj, v', ev, hv.2.2⟩

/-! ## Cases -/

/-- Two lists in one memory: 0, 1, 2 and 3, 4. -/
def twoLists : Mem Int := fun a =>
  match a with
  | 0 => ⟨10, some 2, some 1⟩
  | 1 => ⟨11, some 0, some 2⟩
  | 2 => ⟨12, some 1, some 0⟩
  | 3 => ⟨13, some 4, some 4⟩
  | 4 => ⟨14, some 3, some 3⟩
  | _ => ⟨0, none, none⟩

theorem twoLists_holds : Holds twoLists (some 0) [0, 1, 2] ∧ Holds twoLists (some 3) [3, 4] := by
  refine ⟨⟨rfl, by decide, ?_⟩, ⟨rfl, by decide, ?_⟩⟩ <;> simp [Chain, Link, twoLists]

example : (twoLists 5).next = none ∧ (twoLists 5).prev = none := ⟨rfl, rfl⟩

example : ∃ h', remove twoLists (some 0) (some 3) = .ok (h', some 0, some 3) ∧ Holds h' (some 0) [0, 1, 2] ∧
    Holds h' (some 4) [4] ∧ (some 3 : Ptr) = some 3 ∧ back h' (some 3) = .ok none ∧
    insertBack h' (some 3) (some 5) = .panic :=
  C119_wrong_list_first twoLists_holds.1 twoLists_holds.2 (by decide) 5 (by decide)

example : ∃ h', remove twoLists (some 0) (some 4) = .ok (h', some 0, some 4) ∧ Holds h' (some 0) [0, 1, 2] ∧
    Holds h' (some 3) [3] :=
  C119_wrong_list_partial (A := []) (B := []) twoLists_holds.1 twoLists_holds.2 (by decide)

example : ∃ h' head', remove twoLists (some 0) (some 1) = .ok (h', head', some 1) ∧
    vNext h' ⟨some 1, some 0⟩ = .ok (⟨none, some 0⟩, true) ∧ vNext h' ⟨none, some 0⟩ = .ok (⟨some 0, some 0⟩, true) :=
  C119_visit_removed twoLists_holds.1 (by decide)

example : ∃ h', insertBack twoLists (some 0) (some 2) = .ok (h', some 0, some 2) ∧ (h' 2).next = some 2 ∧
    (h' 2).prev = some 2 ∧ vNext h' ⟨some 2, some 0⟩ = .ok (⟨some 2, some 0⟩, true) :=
  C119_insert_again (A := [1]) twoLists_holds.1

/-! The other theorems on the same two lists. -/

example : remove twoLists (some 0) (some 5) = .ok (twoLists, some 0, none) := (C119_detached twoLists _ (some 1) 5 ⟨rfl, rfl⟩).1
example := C119_remove_twice (x := 1) twoLists_holds.1 (by decide)
example : insertBefore twoLists (some 0) (some 6) (some 5) = .panic := C119_detached_mark _ _ 6 5 (by decide) rfl
example := C119_self_list twoLists_holds.1 (by decide)
example := C119_visit_loops twoLists_holds.1
example : ∃ h', remove (fun _ => ⟨1, some 9, some 9⟩ : Mem Int) none (some 9) = .ok (h', none, some 9) ∧ (some 9 : Ptr) = some 9 ∧
    (h' 9).next = none ∧ (h' 9).prev = none ∧ back h' (some 9) = .ok none ∧ insertBack h' (some 9) (some 8) = .panic ∧
    insertFront h' (some 9) (some 8) = .panic :=
  C119_wrong_list_single (by simp [Holds, Ring, Chain, Link]) 8 (by decide)

end Verif.DList
