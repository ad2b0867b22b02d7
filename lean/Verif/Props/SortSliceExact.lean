import Verif.Spec.Table
import Verif.Props.SortProg
/-!
# C134: the sort slice exactly, over whole histories
-/

set_option linter.unusedSectionVars false

namespace Verif.SortProg
open Verif.Spec Verif.SliceMem

/-- The call of C113 behind a call that is neither `Less` nor `Sort`. -/
def asCall : TableOp → Option (Call Int)
  | .push v => some (.op (.push v))
  | .insert v idx => some (.op (.insert v idx))
  | .remove idx => some (.op (.remove idx))
  | .pop => some (.op .pop)
  | .get idx => some (.op (.get idx))
  | .mustGet idx => some (.op (.mustGet idx))
  | .len => some (.op .len)
  | .swap i j => some (.swap i j)
  | .less _ _ => none
  | .sort => none

/-- One call on an `IntSortSlice` whose slice is `d`, the panic recovered: memory and slice afterwards, and what was
returned (`none`: the call panicked). -/
def intCall (A : SortAlg) (g : Grow) (m : Mem Int) (d : Slice) (op : TableOp) : Mem Int × Slice × Option (Out Int) :=
  match op with
  | .less i j =>
    match SliceMem.lessAt intLt m d i j with
    | .ok b => (m, d, some (.bool b))
    | .panic => (m, d, none)
  | .sort => ((sort A intLt m d).1, d, if (sort A intLt m d).2 then some .unit else none)
  | op =>
    match asCall op with
    | none => (m, d, none)
    | some c =>
      match memCall g m d c with
      | .ok (m', d', o) => (m', d', some o)
      | .panic => (m, d, none)

/-- A history of calls. -/
def intRun (A : SortAlg) (g : Grow) (m : Mem Int) (d : Slice) : List TableOp → Mem Int × Slice × List (Option (Out Int))
  | [] => (m, d, [])
  | op :: ops =>
    let r := intCall A g m d op
    let t := intRun A g r.1 r.2.1 ops
    (t.1, t.2.1, r.2.2 :: t.2.2)

theorem sorted_unique (l r : List Int) (hp : r.Perm l) (hs : SortedBy intLt r) :
    r = l.mergeSort (fun a b => decide (a ≤ b)) := by
  have q1 : r.Pairwise (· ≤ ·) := hs.imp (by intro a b; simp [intLt])
  have q2 : (l.mergeSort (fun a b => decide (a ≤ b))).Pairwise (· ≤ ·) :=
    (List.pairwise_mergeSort (le := fun a b : Int => decide (a ≤ b)) (by simp; omega) (by simp; omega) l).imp (by simp)
  exact List.Perm.eq_of_pairwise (fun a b _ _ => Int.le_antisymm) q1 q2 (hp.trans (List.mergeSort_perm l _).symm)

theorem insert_list (l : List Int) (v idx : Int) :
    SortSlice.insert (⟨l⟩ : SortSlice.SortSlice Int) v idx =
      (match pos? l idx with
      | some i => (⟨l.set i v⟩, l.length)
      | none => (⟨l ++ [v]⟩, l.length + 1)) := by
  unfold SortSlice.insert pos? SortSlice.len
  by_cases h : 0 ≤ idx ∧ idx < (l.length : Int)
  · have hi : idx.toNat < l.length := by omega
    rw [if_pos h, if_pos h]
    simp only [Prod.mk.injEq]
    refine ⟨?_, by simp; omega⟩
    rw [List.set_eq_take_append_cons_drop, if_pos hi]; simp
  · rw [if_neg h, if_neg h]; simp

/-- What the list model of C14 says of a call, in terms of the table. -/
theorem listCall_real (l : List Int) (op : TableOp) (c : Call Int) (hc : asCall op = some c) :
    (match listCall l c with
      | .ok (l', o) => (l', some o)
      | .panic => (l, none)) = tableReal l op := by
  have fine : ∀ (o : SeqOp Int), SortSlice.Fine l o →
      (match listCall l (.op o) with
        | .ok (l', o) => (l', some o)
        | .panic => (l, none)) = match seqStep l o with
          | some (l', o) => (l', some o)
          | none => (l, none) := by
    intro o h
    have := SortSlice.step_fine ⟨l⟩ o h
    simp only at this
    rw [← this]
    simp only [listCall]
    cases e : SortSlice.step ⟨l⟩ o with
    | panic => rfl
    | ok r => rfl
  cases op with
  | push v => cases hc; rw [fine (.push v) trivial]; rfl
  | insert v idx =>
    cases hc
    simp only [listCall, SortSlice.step, insert_list, tableReal]
    cases pos? l idx <;> rfl
  | remove idx =>
    cases hc; rw [fine (.remove idx) trivial]
    simp only [seqStep, tableReal, tableIdeal]
    cases pos? l idx <;> rfl
  | pop =>
    cases hc
    by_cases h : l = []
    · subst h; rfl
    · rw [fine .pop h]; simp [seqStep, tableReal, h]
  | get idx => cases hc; rw [fine (.get idx) trivial]; rfl
  | mustGet idx =>
    cases hc; rw [fine (.mustGet idx) trivial]
    simp only [seqStep, tableReal, tableIdeal]
    cases (pos? l idx).bind fun i => l[i]? <;> rfl
  | len => cases hc; rfl
  | less i j => cases hc
  | sort => cases hc
  | swap i j =>
    cases hc
    simp only [listCall, SortSlice.swap, Go.get, Go.set, tableReal, tableIdeal]
    cases hi : l[i]? with
    | none => rfl
    | some a =>
      cases hj : l[j]? with
      | none => rfl
      | some b =>
        obtain ⟨h1, _⟩ := List.getElem?_eq_some_iff.1 hi
        obtain ⟨h2, _⟩ := List.getElem?_eq_some_iff.1 hj
        simp [h1, h2]

/-- **C134** (one call).  For every slice in every memory, every growth policy and every sorting algorithm: a call on an
`IntSortSlice` does to its elements, and returns, exactly what `tableReal` says, and panics exactly where it says so;
after a panic memory is as before. -/
theorem C134_call (A : SortAlg) (g : Grow) (m : Mem Int) (d : Slice) (h : WF m d) (op : TableOp) :
    WF (intCall A g m d op).1 (intCall A g m d op).2.1 ∧
    (toList (intCall A g m d op).1 (intCall A g m d op).2.1, (intCall A g m d op).2.2) = tableReal (toList m d) op ∧
    ((intCall A g m d op).2.2 = none → (intCall A g m d op).1 = m ∧ (intCall A g m d op).2.1 = d) := by
  cases hc : asCall op with
  | some c =>
    have e : intCall A g m d op = match memCall g m d c with
        | .ok (m', d', o) => (m', d', some o)
        | .panic => (m, d, none) := by
      cases op <;> first | cases hc; done | (simp only [intCall, hc])
    have hl := listCall_real (toList m d) op c hc
    have hm := C113_call g m d h c
    rw [e]
    cases hr : memCall g m d c with
    | panic =>
      rw [hr] at hm
      simp only at hm ⊢
      rw [hm] at hl
      exact ⟨h, hl, fun _ => by simp⟩
    | ok r =>
      obtain ⟨m', d', o⟩ := r
      rw [hr] at hm
      obtain ⟨l', hl', ha⟩ := hm
      rw [hl'] at hl
      simp only at hl ⊢
      exact ⟨ha.wf, by rw [ha.list]; exact hl, fun e => by cases e⟩
  | none =>
    cases op with
    | less i j =>
      simp only [intCall, C129_less, tableReal, tableIdeal]
      cases hi : (toList m d)[i]? with
      | none => exact ⟨h, rfl, fun _ => ⟨rfl, rfl⟩⟩
      | some a =>
        cases hj : (toList m d)[j]? with
        | none => exact ⟨h, rfl, fun _ => ⟨rfl, rfl⟩⟩
        | some b => exact ⟨h, rfl, fun _ => ⟨rfl, rfl⟩⟩
    | sort =>
      obtain ⟨s1, s2, s3, s4, _⟩ := C129_sort A intLt_strictWeak m d
      simp only [intCall, s1, if_true, tableReal, tableIdeal]
      refine ⟨⟨h.len_le, by rw [s4]; exact h.arr_lt⟩, ?_, fun e => by cases e⟩
      rw [sorted_unique _ _ s3 s2]
    | _ => cases hc

/-- **C134.**  For every history of calls on an `IntSortSlice` (panics recovered), from any slice in any memory, with any
growth policy and any sorting algorithm: results and panics are those of `tableReal`, and so are the elements at the
end. -/
theorem C134_history (A : SortAlg) (g : Grow) (m : Mem Int) (d : Slice) (h : WF m d) (ops : List TableOp) :
    (toList (intRun A g m d ops).1 (intRun A g m d ops).2.1, (intRun A g m d ops).2.2) =
      runSpec tableReal (toList m d) ops := by
  induction ops generalizing m d with
  | nil => rfl
  | cons op ops ih =>
    obtain ⟨hw, he, _⟩ := C134_call A g m d h op
    have := ih _ _ hw
    simp only [intRun, runSpec]
    rw [← he]
    simp only
    rw [← this]

/-- A call where the code does what it ought to: not an `Insert` at a position, not a `Pop` of the empty sequence. -/
def Right (l : List Int) : TableOp → Prop
  | .insert _ idx => pos? l idx = none
  | .pop => l ≠ []
  | _ => True

/-- Every call of a history comes at a moment where it is right. -/
def RightRun (l : List Int) : List TableOp → Prop
  | [] => True
  | op :: ops => Right l op ∧ RightRun (tableIdeal l op).1 ops

/-- **C134** (one call, agreement).  A call does and returns what it ought to exactly when it is neither an `Insert` at a
position nor a `Pop` of the empty sequence; a wrong call always shows in what it returns. -/
theorem C134_right (l : List Int) (op : TableOp) :
    (tableReal l op = tableIdeal l op ↔ Right l op) ∧ ((tableReal l op).2 = (tableIdeal l op).2 ↔ Right l op) := by
  cases op with
  | insert v idx =>
    simp only [tableReal, tableIdeal, Right]
    cases pos? l idx with
    | none => simp
    | some i => simp
  | pop =>
    simp only [tableReal, tableIdeal, Right]
    by_cases h : l = []
    · subst h; simp
    · simp [h]
  | _ => simp [tableReal, Right]

/-- **C134** (agreement).  The results of a history are those of an ideal sequence exactly when no `Insert` of the history
names a position of the sequence at that moment and no `Pop` comes when it is empty. -/
theorem C134_agreement (A : SortAlg) (g : Grow) (m : Mem Int) (d : Slice) (h : WF m d) (ops : List TableOp) :
    (intRun A g m d ops).2.2 = (runSpec tableIdeal (toList m d) ops).2 ↔ RightRun (toList m d) ops := by
  have e := congrArg Prod.snd (C134_history A g m d h ops)
  simp only at e
  rw [e]
  generalize toList m d = l
  clear e h
  induction ops generalizing l with
  | nil => simp [runSpec, RightRun]
  | cons op ops ih =>
    simp only [runSpec, RightRun, List.cons.injEq]
    constructor
    · rintro ⟨h1, h2⟩
      have hr := (C134_right l op).2.1 h1
      rw [(C134_right l op).1.2 hr] at h2
      exact ⟨hr, (ih _).1 h2⟩
    · rintro ⟨hr, hrest⟩
      rw [(C134_right l op).1.2 hr]
      exact ⟨rfl, (ih _).2 hrest⟩

/-- **C134** (sorting forgets the order).  After `Sort` the results of all further calls depend only on which elements
there were, not on their order. -/
theorem C134_sort_forgets (A B : SortAlg) (g g' : Grow) (m m' : Mem Int) (d d' : Slice) (h : WF m d) (h' : WF m' d')
    (hp : (toList m d).Perm (toList m' d')) (ops : List TableOp) :
    (intRun A g m d (.sort :: ops)).2.2 = (intRun B g' m' d' (.sort :: ops)).2.2 := by
  have e := congrArg Prod.snd (C134_history A g m d h (.sort :: ops))
  have e' := congrArg Prod.snd (C134_history B g' m' d' h' (.sort :: ops))
  simp only at e e'
  rw [e, e']
  have : (toList m d).mergeSort (fun a b => decide (a ≤ b)) = (toList m' d').mergeSort (fun a b => decide (a ≤ b)) := by
    apply sorted_unique
    · exact (List.mergeSort_perm _ _).trans hp
    · exact (List.pairwise_mergeSort (le := fun a b : Int => decide (a ≤ b)) (by simp; omega) (by simp; omega) _).imp
        (by simp [intLt])
  simp only [runSpec, tableReal, tableIdeal, this]

/-- Instance: a history with a wrong insert, a recovered panic and a sort. -/
example : runSpec tableReal [] [.pop, .push 5, .push 3, .insert 9 0, .insert 1 7, .sort, .mustGet 0, .less 0 1, .mustGet 4] =
    ([1, 3, 9], [none, some (.nat 1), some (.nat 2), some (.nat 2), some (.nat 3), some .unit, some (.val 1 true),
      some (.bool true), none]) := by
  simp [runSpec, tableReal, tableIdeal, pos?, List.mergeSort, List.MergeSort.Internal.splitInTwo]

example : RightRun [4, 2] [.push 1, .insert 5 (-1), .sort, .pop, .remove 0] := by
  simp [RightRun, Right, tableIdeal, pos?, List.mergeSort, List.MergeSort.Internal.splitInTwo]

example : ¬ RightRun [4, 2] [.push 1, .insert 5 2] := by
  simp [RightRun, Right, tableIdeal, pos?]

example := C134_history insertion ⟨fun _ n => n, fun _ _ => Nat.le_refl _⟩ (⟨fun _ q => (q : Int), 1⟩ : Mem Int) ⟨0, 2, 3, 4⟩
  ⟨by decide, by decide⟩ [.insert 7 1, .sort, .pop]

end Verif.SortProg
