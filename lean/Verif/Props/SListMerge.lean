import Verif.Props.SListMore
import Verif.Spec.Order
/-!
# C29: the merging step of the singly linked list's sort
-/

set_option linter.unusedSectionVars false

namespace Verif.SList
open Verif.Spec
variable {α : Type}

/-- What `merge` does after its loop. -/
def finish (h : Mem α) (p : Addr) (po : Ptr) (o : Nat) : Mem α :=
  if po ≠ none then clear (setNext h p po) o else h

theorem mergeLoop_spec (less : α → α → Bool) (o : Nat) (fuel : Nat) : ∀ (h : Mem α) (p : Addr) (X Y : List Nat),
    X.length + Y.length < fuel → Seg h (h p).next X none → Seg h (front h o) Y none → X.Nodup → Y.Nodup →
    (∀ x ∈ X, x ∉ Y) → p ≠ .hd o → (∀ x ∈ X, p ≠ .nd x) → (∀ x ∈ Y, p ≠ .nd x) →
    ∃ h' p' po', mergeLoop less fuel h o p (front h o) = some (.ok (h', p', po')) ∧
      Seg (finish h' p' po' o) ((finish h' p' po' o) p).next
        (List.merge X Y (fun a b => !less (h (.nd b)).val (h (.nd a)).val)) none ∧
      front (finish h' p' po' o) o = none ∧ (∀ a, (finish h' p' po' o a).val = (h a).val) ∧
      ∀ a, a ≠ p → a ≠ .hd o → (∀ x ∈ X, a ≠ .nd x) → (∀ y ∈ Y, a ≠ .nd y) → finish h' p' po' o a = h a := by
  induction fuel with
  | zero => intro h p X Y hf; omega
  | succ fuel ih =>
    intro h p X Y hf hX hY nX nY hd hpo hpX hpY
    cases X with
    | nil =>
      have hn : (h p).next = none := hX
      refine ⟨h, p, front h o, ?_, ?_⟩
      · unfold mergeLoop; simp only [hn]
      · unfold finish
        cases Y with
        | nil =>
          have hfo : front h o = none := hY
          rw [hfo]
          simp only [ne_eq, not_true_eq_false, if_false]
          refine ⟨by simpa using hX, hfo, ?_, ?_⟩ <;> simp
        | cons y Y' =>
          have hfo : front h o = some (.nd y) := hY.1
          rw [hfo]
          simp only [ne_eq, reduceCtorEq, not_false_eq_true, if_true, clear]
          refine ⟨?_, by simp [front], fun a => by simp, fun a h1 h2 _ _ => ?_⟩
          · rw [setNext_ne _ _ _ _ hpo, setNext_self]
            simp only [List.nil_merge]
            refine Seg.frame (h := h) (by rw [← hfo]; exact hY) fun x hx => ?_
            rw [setNext_ne _ _ _ _ (by simp), setNext_ne _ _ _ _ (hpY x hx).symm]
          · rw [setNext_ne _ _ _ _ h2, setNext_ne _ _ _ _ h1]
    | cons x X' =>
      have hpn : (h p).next = some (.nd x) := hX.1
      cases Y with
      | nil =>
        have hfo : front h o = none := hY
        refine ⟨h, p, none, ?_, ?_⟩
        · unfold mergeLoop; simp only [hpn, hfo]
        · unfold finish
          simp only [ne_eq, not_true_eq_false, if_false]
          refine ⟨by simpa using hX, hfo, ?_, ?_⟩ <;> simp
      | cons y Y' =>
        have hfo : front h o = some (.nd y) := hY.1
        have hfo' : (h (.hd o)).next = some (.nd y) := hfo
        have hxy : x ≠ y := fun e => hd x (by simp) (by simp [e])
        rw [List.nodup_cons] at nX nY
        rw [List.cons_merge_cons]
        by_cases hl : less (h (.nd y)).val (h (.nd x)).val = true
        · -- the first node of the other list goes in after `p`
          simp only [hl, Bool.not_true, Bool.false_eq_true, if_false]
          have hyp : Addr.nd y ≠ p := (hpY y (by simp)).symm
          let h1 := setNext (setNext h (.hd o) (h (.nd y)).next) (.nd y) none
          let h2 := setNext (setNext h1 (.nd y) (h1 p).next) p (some (.nd y))
          have hp1 : h1 p = h p := by
            simp only [h1]; rw [setNext_ne _ _ _ _ hyp.symm, setNext_ne _ _ _ _ hpo]
          have e1 : removeFront (fuel + 1) h o = some (h1, some (.nd y)) := by
            simp only [removeFront, remove, hfo', scanRemove, if_true]; rfl
          have e2 : insertAfter h1 (some (.nd y)) (some p) = (h2, some (.nd y)) := by
            simp only [insertAfter, ne_eq, hyp, not_false_eq_true, if_true]; rfl
          have v2 : ∀ a, (h2 a).val = (h a).val := by intro a; simp [h2, h1]
          have f2 : front h2 o = (h (.nd y)).next := by
            simp only [front, h2, h1]
            rw [setNext_ne _ _ _ _ hpo.symm, setNext_ne _ _ _ _ (by simp), setNext_ne _ _ _ _ (by simp), setNext_self]
          have f1 : front h1 o = front h2 o := by
            rw [f2]; simp only [front, h1]; rw [setNext_ne _ _ _ _ (by simp), setNext_self]
          have o2 : ∀ a, a ≠ p → a ≠ .hd o → a ≠ .nd y → h2 a = h a := by
            intro a a1 a2 a3
            simp only [h2, h1]
            rw [setNext_ne _ _ _ _ a1, setNext_ne _ _ _ _ a3, setNext_ne _ _ _ _ a3, setNext_ne _ _ _ _ a2]
          have y2 : (h2 (.nd y)).next = some (.nd x) := by
            simp only [h2]; rw [setNext_ne _ _ _ _ hyp, setNext_self, hp1, hpn]
          have p2 : (h2 p).next = some (.nd y) := by simp [h2]
          have sX : Seg h2 (h2 (.nd y)).next (x :: X') none := by
            rw [y2]
            refine Seg.frame (h := h) (by rw [← hpn]; exact hX) fun z hz => ?_
            rw [o2 _ (hpX z hz).symm (by simp) (fun e => hd z hz (by cases e; simp))]
          have sY : Seg h2 (front h2 o) Y' none := by
            rw [f2]
            refine Seg.frame (h := h) hY.2 fun z hz => ?_
            rw [o2 _ (hpY z (by simp [hz])).symm (by simp) (fun e => nY.1 (by cases e; exact hz))]
          obtain ⟨h', p', po', g1, g2, g3, g4, g5⟩ := ih h2 (.nd y) (x :: X') Y' (by simp at hf ⊢; omega) sX sY
            (List.nodup_cons.2 nX) nY.2 (fun z hz hz' => hd z hz (by simp [hz'])) (by simp)
            (fun z hz e => hd z hz (by cases e; simp)) (fun z hz e => nY.1 (by cases e; exact hz))
          refine ⟨h', p', po', ?_, ?_, g3, fun a => by rw [g4, v2], ?_⟩
          · unfold mergeLoop
            simp only [hpn, hfo, Cmp.F, if_true, hl, e1, e2]
            rw [f1]; exact g1
          · rw [g5 p hyp.symm hpo hpX (fun z hz => hpY z (by simp [hz])), p2]
            refine ⟨rfl, ?_⟩
            simpa only [v2] using g2
          · intro a a1 a2 a3 a4
            rw [g5 a (a4 y (by simp)) a2 a3 (fun z hz => a4 z (by simp [hz])), o2 a a1 a2 (a4 y (by simp))]
        · -- go on to the next node
          have hl' : less (h (.nd y)).val (h (.nd x)).val = false := by simpa using hl
          simp only [hl', Bool.not_false, if_true]
          obtain ⟨h', p', po', g1, g2, g3, g4, g5⟩ := ih h (.nd x) X' (y :: Y') (by simp at hf ⊢; omega) hX.2 hY nX.2
            (List.nodup_cons.2 nY) (fun z hz => hd z (by simp [hz])) (by simp)
            (fun z hz e => nX.1 (by cases e; exact hz)) (fun z hz e => hd x (by simp) (by cases e; exact hz))
          refine ⟨h', p', po', ?_, ?_, g3, g4, ?_⟩
          · unfold mergeLoop
            simp only [hpn, hfo, Cmp.F, if_true, hl', Bool.false_eq_true, if_false]
            rw [← hfo]; exact g1
          · rw [g5 p (hpX x (by simp)) hpo (fun z hz => hpX z (by simp [hz])) hpY, hpn]
            exact ⟨rfl, g2⟩
          · intro a a1 a2 a3 a4
            exact g5 a (a3 x (by simp)) a2 (fun z hz => a3 z (by simp [hz])) a4

theorem merge_order (less : α → α → Bool) (hw : StrictWeak less) (v : Nat → α) (X Y : List Nat) (hd : ∀ x ∈ X, x ∉ Y)
    (sX : X.Pairwise fun a b => less (v b) (v a) = false) (sY : Y.Pairwise fun a b => less (v b) (v a) = false) :
    (List.merge X Y (fun a b => !less (v b) (v a))).Pairwise (fun a b => less (v b) (v a) = false ∧
      (a ∈ Y → b ∈ X → less (v a) (v b) = true)) := by
  suffices H : ∀ (n : Nat) (A B : List Nat), A.length + B.length = n → A.Sublist X → B.Sublist Y →
      (List.merge A B (fun a b => !less (v b) (v a))).Pairwise (fun a b => less (v b) (v a) = false ∧
        (a ∈ Y → b ∈ X → less (v a) (v b) = true)) from H _ X Y rfl (.refl _) (.refl _)
  intro n
  induction n with
  | zero =>
    intro A B h _ _
    obtain rfl : A = [] := List.eq_nil_of_length_eq_zero (by omega)
    obtain rfl : B = [] := List.eq_nil_of_length_eq_zero (by omega)
    simp
  | succ n ih =>
    intro A B h hA hB
    cases A with
    | nil =>
      simp only [List.nil_merge]
      exact (sY.sublist hB).imp_of_mem fun _ hb h => ⟨h, fun _ hx => absurd (hB.subset hb) (hd _ hx)⟩
    | cons x A =>
      cases B with
      | nil =>
        simp only [List.merge_right]
        exact (sX.sublist hA).imp_of_mem fun ha _ h => ⟨h, fun hy => absurd hy (hd _ (hA.subset ha))⟩
      | cons y B =>
        have pA := List.pairwise_cons.1 (sX.sublist hA)
        have pB := List.pairwise_cons.1 (sY.sublist hB)
        have hx : x ∈ X := hA.subset (by simp)
        have hy : y ∈ Y := hB.subset (by simp)
        rw [List.cons_merge_cons]
        cases hl : less (v y) (v x) with
        | true =>
          simp only [Bool.not_true, Bool.false_eq_true, if_false]
          have key : ∀ b ∈ x :: A, less (v y) (v b) = true := by
            intro b hb
            rcases List.mem_cons.1 hb with rfl | hb
            · exact hl
            · rcases hw.negTrans _ (v b) _ hl with h | h
              · exact h
              · rw [pA.1 b hb] at h; cases h
          refine List.pairwise_cons.2 ⟨fun b hb => ?_, ih _ _ (by simp at h ⊢; omega) hA ((List.sublist_cons_self _ _).trans hB)⟩
          rcases List.mem_merge.1 hb with hb | hb
          · exact ⟨hw.asymm (key b hb), fun _ _ => key b hb⟩
          · exact ⟨pB.1 b hb, fun _ hbx => absurd (hB.subset (by simp [hb])) (hd _ hbx)⟩
        | false =>
          simp only [Bool.not_false, if_true]
          refine List.pairwise_cons.2 ⟨fun b hb => ⟨?_, fun hxy => absurd hxy (hd _ hx)⟩,
            ih _ _ (by simp at h ⊢; omega) ((List.sublist_cons_self _ _).trans hA) hB⟩
          rcases List.mem_merge.1 hb with hb | hb
          · exact pA.1 b hb
          · rcases List.mem_cons.1 hb with rfl | hb
            · exact hl
            · exact hw.ge_trans (pB.1 b hb) hl

theorem sublist_merge_left' (le : Nat → Nat → Bool) (X Y : List Nat) : X.Sublist (List.merge X Y le) := by
  induction X generalizing Y with
  | nil => simp
  | cons x X ihX =>
    induction Y with
    | nil => simp
    | cons y Y ihY =>
      rw [List.cons_merge_cons]
      split
      · exact (ihX _).cons_cons x
      · exact ihY.cons y

theorem sublist_merge_right' (le : Nat → Nat → Bool) (X Y : List Nat) : Y.Sublist (List.merge X Y le) := by
  induction X generalizing Y with
  | nil => simp
  | cons x X ihX =>
    induction Y with
    | nil => simp
    | cons y Y ihY =>
      rw [List.cons_merge_cons]
      split
      · exact (ihX _).cons x
      · exact ihY.cons_cons y

/-- **C29** (partial: the merging step only; `Sort` itself never gets that far, see `C29_sort_panics`) Merging another list
into a list, both sorted and without common nodes: the nodes of both end up in the list, in sorted order, the ones of the
list before equal ones of the other; each keeps its value and the order within each list; the other list is empty;
no other node changes. -/
theorem C29_merge_partial (less : α → α → Bool) (hw : StrictWeak less) (h : Mem α) (l o : Nat) (hlo : l ≠ o) (X Y : List Nat)
    (hX : Seg h (front h l) X none) (hY : Seg h (front h o) Y none) (nX : X.Nodup) (nY : Y.Nodup) (hd : ∀ x ∈ X, x ∉ Y)
    (sX : X.Pairwise fun a b => less (h (.nd b)).val (h (.nd a)).val = false)
    (sY : Y.Pairwise fun a b => less (h (.nd b)).val (h (.nd a)).val = false)
    (fuel : Nat) (hf : X.length + Y.length < fuel) :
    ∃ h' Z, merge less fuel h l o = some (.ok h') ∧ Seg h' (front h' l) Z none ∧ front h' o = none ∧
      Z.Perm (X ++ Y) ∧ X.Sublist Z ∧ Y.Sublist Z ∧
      Z.Pairwise (fun a b => less (h (.nd b)).val (h (.nd a)).val = false ∧
        (a ∈ Y → b ∈ X → less (h (.nd a)).val (h (.nd b)).val = true)) ∧
      (∀ a, (h' a).val = (h a).val) ∧
      ∀ a, a ≠ .hd l → a ≠ .hd o → (∀ x ∈ X ++ Y, a ≠ .nd x) → h' a = h a := by
  obtain ⟨h', p', po', g1, g2, g3, g4, g5⟩ := mergeLoop_spec less o fuel h (.hd l) X Y hf hX hY nX nY hd (by simpa using hlo)
    (by simp) (by simp)
  refine ⟨finish h' p' po' o, _, ?_, g2, g3, List.merge_perm_append .., ?_, ?_, ?_, g4, ?_⟩
  · unfold merge
    simp only [g1, finish]
    split_ifs <;> rfl
  · exact sublist_merge_left' ..
  · exact sublist_merge_right' ..
  · exact merge_order less hw (fun a => (h (.nd a)).val) X Y hd sX sY
  · intro a h1 h2 h3
    exact g5 a h1 h2 (fun x hx => h3 x (by simp [hx])) (fun y hy => h3 y (by simp [hy]))

/-- Two lists: object 0 with nodes 4, 2 (values 1, 2) and object 1 with nodes 3, 5 (values 1, 3). -/
def pairMem : Mem Int := fun a =>
  if a = .hd 0 then ⟨0, some (.nd 4)⟩ else if a = .nd 4 then ⟨1, some (.nd 2)⟩ else if a = .nd 2 then ⟨2, none⟩
  else if a = .hd 1 then ⟨0, some (.nd 3)⟩ else if a = .nd 3 then ⟨1, some (.nd 5)⟩ else ⟨3, none⟩

example : ∃ h', merge intLt 9 pairMem 0 1 = some (.ok h') ∧ Seg h' (front h' 0) [4, 3, 2, 5] none ∧ front h' 1 = none :=
  ⟨_, rfl, by decide, by decide⟩
example : Seg pairMem (front pairMem 0) [4, 2] none ∧ Seg pairMem (front pairMem 1) [3, 5] none ∧
    [3, 5].Pairwise (fun a b => intLt (pairMem (.nd b)).val (pairMem (.nd a)).val = false) := by decide

end Verif.SList
