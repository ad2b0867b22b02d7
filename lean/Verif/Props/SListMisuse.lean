import Verif.Props.SListMore
import Mathlib.Dynamics.PeriodicPts.Defs
/-!
# Unusual arguments of the singly linked list: C120
-/

set_option linter.unusedSectionVars false

namespace Verif.SList
open Verif.Spec
variable {α : Type} [Inhabited α]

/-- **C120** A nil node or a nil mark, and a node as its own mark, change nothing; nil is returned. -/
theorem C120_nil (h : Mem α) (l k fuel : Nat) (v : α) (p : Ptr) :
    insertAfter h none p = (h, none) ∧ insertAfter h p none = (h, none) ∧ insertAfter h p p = (h, none) ∧
    insertFront h l none = (h, none) ∧ pushAfter h k v none = (h, none) ∧ remove fuel h l none = some (h, none) ∧
    moveFront fuel h l none = some (h, none) ∧ moveAfter fuel h l none p = some (h, none) ∧
    moveAfter fuel h l p none = some (h, none) ∧ moveAfter fuel h l p p = some (h, none) ∧
    tail fuel h none = some (none, 0) ∧ nodeNext h none = none := by
  cases p <;> simp [insertAfter, insertFront, pushAfter, remove, moveFront, moveAfter, tail, nodeNext]

theorem seg_iter {h : Mem α} {l : List Nat} {p q : Ptr} (hs : Seg h p l q) :
    (∀ i (hi : i < l.length), (nodeNext h)^[i] p = some (.nd l[i])) ∧ (nodeNext h)^[l.length] p = q := by
  induction l generalizing p with
  | nil => exact ⟨fun i hi => absurd hi (by simp), hs⟩
  | cons a t ih =>
    obtain ⟨rfl, ht⟩ := hs
    obtain ⟨i1, i2⟩ := ih ht
    refine ⟨fun i hi => ?_, by rw [List.length_cons, Function.iterate_succ_apply]; exact i2⟩
    cases i with
    | zero => rfl
    | succ i => rw [Function.iterate_succ_apply]; exact i1 i (by simpa using hi)

theorem cycle_iter {h : Mem α} {l : List Nat} {p : Ptr} (hs : Seg h p l p) (hl : l ≠ []) (k : Nat) :
    (nodeNext h)^[k] p = some (.nd (l[k % l.length]'(Nat.mod_lt _ (List.length_pos_iff.2 hl)))) := by
  obtain ⟨i1, i2⟩ := seg_iter hs
  have hp : Function.IsPeriodicPt (nodeNext h) l.length p := i2
  rw [← hp.iterate_mod_apply k]
  exact i1 _ _

theorem scan_never {h : Mem α} {x : Addr} : ∀ (fuel : Nat) (b : Addr),
    (∀ k, (nodeNext h)^[k + 1] (some b) ≠ none ∧ (nodeNext h)^[k + 1] (some b) ≠ some x) → scanRemove fuel h b x = none := by
  intro fuel
  induction fuel with
  | zero => intro b _; rfl
  | succ fuel ih =>
    intro b hb
    unfold scanRemove
    have h0 := hb 0
    simp only [Function.iterate_one, Nat.zero_add, nodeNext] at h0
    cases e : (h b).next with
    | none => exact absurd e h0.1
    | some c =>
      simp only
      rw [if_neg (fun hc => h0.2 (by rw [e, hc]))]
      refine ih c fun k => ?_
      have := hb (k + 1)
      rw [Function.iterate_succ_apply] at this
      simpa [nodeNext, e] using this

/-- **C120** `PushFrontList` of a list with itself makes a cycle of its nodes; to remove a node that is not among them
never comes to an end. -/
theorem C120_self_list {h : Mem α} {l : Nat} {xs : List Nat} (hx : Seg h (front h l) xs none) (hnd : xs.Nodup)
    (hne : xs ≠ []) (fuel : Nat) (hf : xs.length ≤ fuel) :
    ∃ h', pushFrontList fuel h l l = some h' ∧
      (∀ k, (nodeNext h')^[k] (front h' l) = some (.nd (xs[k % xs.length]'(Nat.mod_lt _ (List.length_pos_iff.2 hne))))) ∧
      ∀ x ∉ xs, ∀ fuel', remove fuel' h' l (some (.nd x)) = none := by
  cases xs with
  | nil => exact absurd rfl hne
  | cons y t =>
    have h0 : (h (.hd l)).next = some (.nd y) := hx.1
    have ht := tailLoop_ok t (.nd y) fuel 1 hx.2 (by simp at hf; omega)
    have hlast : lastOr (.nd y) t = lastOr (.hd l) (y :: t) := rfl
    have hho : lastOr (.nd y) t ≠ .hd l := by
      rcases lastOr_cases (.nd y) t with ⟨e, _⟩ | ⟨z, _, e⟩ <;> rw [e] <;> simp
    have s1 := Seg.retarget (h := h) (b := .hd l) (A := y :: t) (r := none) (h (.hd l)).next hx (by simp) hnd
    rw [← hlast, setNext_ne _ _ _ _ hho.symm] at s1
    have hcyc : ∃ h', pushFrontList fuel h l l = some h' ∧ Seg h' (front h' l) (y :: t) (front h' l) := by
      refine ⟨setNext (setNext h (lastOr (.nd y) t) (h (.hd l)).next) (.hd l) (h (.hd l)).next, ?_, ?_⟩
      · simp [pushFrontList, h0, tail, ht, setNext_ne _ _ _ _ hho.symm]
      · simp only [front, setNext_self]
        exact Seg.frame s1 (fun x _ => by rw [setNext_ne _ _ _ _ (by simp)])
    obtain ⟨h', e, hs⟩ := hcyc
    refine ⟨h', e, cycle_iter hs hne, fun x hxn fuel' => ?_⟩
    have : scanRemove fuel' h' (.hd l) (.nd x) = none := by
      refine scan_never fuel' _ fun k => ?_
      rw [Function.iterate_succ_apply]
      have := cycle_iter hs hne k
      simp only [front] at this
      simp only [nodeNext]
      rw [this]
      refine ⟨by simp, fun hc => hxn ?_⟩
      simp only [Option.some.injEq, Addr.nd.injEq] at hc
      rw [← hc]
      exact List.getElem_mem _
    simp [remove, this]

/-- **C120** Inserting at the front a node that is in the list already makes a cycle of that node and those before it; the
nodes behind it are lost. -/
theorem C120_insert_again {h : Mem α} {l x : Nat} {A B : List Nat} (hs : Seg h (front h l) (A ++ x :: B) none)
    (hnd : (A ++ x :: B).Nodup) :
    ∃ h', insertFront h l (some (.nd x)) = (h', some (.nd x)) ∧
      ∀ k, (nodeNext h')^[k] (front h' l) =
        some (.nd ((x :: A)[k % (A.length + 1)]'(by simpa using Nat.mod_lt k (Nat.succ_pos A.length)))) := by
  obtain ⟨r, ha, hb⟩ := Seg.append.1 hs
  obtain ⟨rfl, _⟩ := hb
  have hxA : x ∉ A := by
    rw [List.nodup_append] at hnd
    exact fun m => hnd.2.2 x m x (by simp) rfl
  refine ⟨setNext (setNext h (.nd x) (h (.hd l)).next) (.hd l) (some (.nd x)), by simp [insertFront, insertAfter], ?_⟩
  have : Seg (setNext (setNext h (.nd x) (h (.hd l)).next) (.hd l) (some (.nd x))) (some (.nd x)) (x :: A) (some (.nd x)) := by
    refine ⟨rfl, ?_⟩
    rw [setNext_ne _ _ _ _ (by simp), setNext_self]
    refine Seg.frame ha fun y hy => ?_
    rw [setNext_ne _ _ _ _ (by simp), setNext_ne _ _ _ _ (by simp; rintro rfl; exact hxA hy)]
  intro k
  simp only [front, setNext_self]
  exact cycle_iter this (by simp) k

/-- **C120** `MoveAfter` with a mark in another list moves the node over to that list. -/
theorem C120_move_across {h : Mem α} {l o x m : Nat} {A B C D : List Nat} (hlo : l ≠ o)
    (hl : Seg h (front h l) (A ++ x :: B) none) (ho : Seg h (front h o) (C ++ m :: D) none)
    (hnd : (A ++ x :: B ++ (C ++ m :: D)).Nodup) (fuel : Nat) (hf : A.length < fuel) :
    ∃ h', moveAfter fuel h l (some (.nd x)) (some (.nd m)) = some (h', some (.nd x)) ∧
      Seg h' (front h' l) (A ++ B) none ∧ Seg h' (front h' o) (C ++ m :: x :: D) none := by
  obtain ⟨r, ha, rfl, hb⟩ := Seg.append.1 hl
  obtain ⟨r, hc, rfl, hd⟩ := Seg.append.1 ho
  rw [List.nodup_append] at hnd
  obtain ⟨n1, n2, n3⟩ := hnd
  rw [List.nodup_append] at n1 n2
  obtain ⟨nA, nxB, nAx⟩ := n1
  obtain ⟨nC, nmD, nCm⟩ := n2
  simp only [List.nodup_cons] at nxB nmD
  have hxA : x ∉ A := fun hm => nAx x hm x (by simp) rfl
  have hxm : x ≠ m := n3 x (by simp) m (by simp)
  have hmA : m ∉ A := fun hm => n3 m (by simp [hm]) m (by simp) rfl
  have hmB : m ∉ B := fun hm => n3 m (by simp [hm]) m (by simp) rfl
  have hmC : m ∉ C := fun hm => nCm m hm m (by simp) rfl
  have hxC : x ∉ C := fun hm => n3 x (by simp) x (by simp [hm]) rfl
  have hxD : x ∉ D := fun hm => n3 x (by simp) x (by simp [hm]) rfl
  have hAB : ∀ y ∈ B, y ∉ A := fun y hy hm => nAx y hm y (by simp [hy]) rfl
  have hAC : ∀ y ∈ C, y ∉ A := fun y hy hm => n3 y (by simp [hm]) y (by simp [hy]) rfl
  have hAD : ∀ y ∈ D, y ∉ A := fun y hy hm => n3 y (by simp [hm]) y (by simp [hy]) rfl
  have hscan := scanMove_found (h := h) (x := x) (B := B) A (.hd l) fuel hl hxA hf
  have hbm : lastOr (.hd l) A ≠ .nd m := lastOr_notMem (by simp) hmA
  have hbx : lastOr (.hd l) A ≠ .nd x := lastOr_notMem (by simp) hxA
  have hbo : lastOr (.hd l) A ≠ .hd o := by
    rcases lastOr_cases (.hd l) A with ⟨e, _⟩ | ⟨z, _, e⟩ <;> rw [e] <;> simp [hlo]
  have hby : ∀ y, y ∉ A → lastOr (.hd l) A ≠ .nd y := fun y hy => lastOr_notMem (by simp) hy
  have s1 := Seg.retarget (h := h) (b := .hd l) (A := A) (h (.nd x)).next ha (by simp) nA
  generalize hg : lastOr (.hd l) A = b at *
  let h1 := setNext h b (h (.nd x)).next
  let h2 := setNext h1 (.nd x) (h1 (.nd m)).next
  let h3 := setNext h2 (.nd m) (some (.nd x))
  have e1m : (h1 (.nd m)).next = (h (.nd m)).next := by simp only [h1]; rw [setNext_ne _ _ _ _ hbm.symm]
  have e3 : ∀ y, y ≠ x → y ≠ m → (h3 (.nd y)).next = (h1 (.nd y)).next := fun y hy hym => by
    simp only [h3, h2]
    rw [setNext_ne _ _ _ _ (by simpa using hym), setNext_ne _ _ _ _ (by simpa using hy)]
  have e3h : ∀ j, (h3 (.hd j)).next = (h1 (.hd j)).next := fun j => by
    simp only [h3, h2]
    rw [setNext_ne _ _ _ _ (by simp), setNext_ne _ _ _ _ (by simp)]
  have e1 : ∀ y, y ∉ A → (h1 (.nd y)).next = (h (.nd y)).next := fun y hy => by
    simp only [h1]; rw [setNext_ne _ _ _ _ (hby y hy).symm]
  have e3x : (h3 (.nd x)).next = (h (.nd m)).next := by
    simp only [h3]; rw [setNext_ne _ _ _ _ (by simpa using hxm)]; simp only [h2, setNext_self]; exact e1m
  have e3m : (h3 (.nd m)).next = some (.nd x) := by simp only [h3, setNext_self]
  refine ⟨h3, ?_, ?_, ?_⟩
  · simp only [moveAfter, ne_eq, Addr.nd.injEq, hxm, not_false_eq_true, if_true, hscan, hbm]
    rfl
  · refine Seg.append.2 ⟨_, Seg.frame (h := h1) ?_ fun y hy => e3 y (fun e => hxA (e ▸ hy)) (fun e => hmA (e ▸ hy)),
      Seg.frame hb fun y hy => ?_⟩
    · simp only [front, e3h]; exact s1
    · rw [e3 y (fun e => nxB.1 (e ▸ hy)) (fun e => hmB (e ▸ hy)), e1 y (hAB y hy)]
  · have ef : front h3 o = front h o := by
      simp only [front, e3h, h1]; rw [setNext_ne _ _ _ _ hbo.symm]
    rw [ef]
    refine Seg.append.2 ⟨_, Seg.frame hc fun y hy => ?_, rfl, ?_⟩
    · rw [e3 y (fun e => hxC (e ▸ hy)) (fun e => hmC (e ▸ hy)), e1 y (hAC y hy)]
    · rw [e3m]
      refine ⟨rfl, ?_⟩
      rw [e3x]
      exact Seg.frame hd fun y hy => by
        rw [e3 y (fun e => hxD (e ▸ hy)) (fun e => nmD.1 (e ▸ hy)), e1 y (hAD y hy)]

-- the two lists 4 and 7, 8: the node 8 is moved behind the node 4 of the other list
example : ∃ h', moveAfter 3 twoMem 1 (some (.nd 8)) (some (.nd 4)) = some (h', some (.nd 8)) ∧
    Seg h' (front h' 1) [7] none ∧ Seg h' (front h' 0) [4, 8] none :=
  C120_move_across (A := [7]) (B := []) (C := []) (D := []) (by decide) (by decide) (by decide) (by decide) 3 (by decide)

example : ∃ h', insertFront twoMem 1 (some (.nd 8)) = (h', some (.nd 8)) ∧ (nodeNext h')^[5] (front h' 1) = some (.nd 7) := by
  obtain ⟨h', a, b⟩ := C120_insert_again (h := twoMem) (l := 1) (x := 8) (A := [7]) (B := []) (by decide) (by decide)
  exact ⟨h', a, b 5⟩

example : ∃ h', pushFrontList 2 twoMem 1 1 = some h' ∧ (nodeNext h')^[4] (front h' 1) = some (.nd 7) ∧
    ∀ fuel, remove fuel h' 1 (some (.nd 4)) = none := by
  obtain ⟨h', a, b, c⟩ := C120_self_list (h := twoMem) (l := 1) (xs := [7, 8]) (by decide) (by decide) (by decide) 2 (by decide)
  exact ⟨h', a, b 4, c 4 (by decide)⟩

end Verif.SList
