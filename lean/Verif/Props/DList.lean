import Verif.Lemmas.DList
import Verif.Spec.ListWorld
import Verif.Spec.Containers
import Mathlib.Data.List.Nodup
/-!
# Properties C18 and C19: core operations and traversal of the doubly linked list
-/

set_option linter.unusedSectionVars false

namespace Verif.DList
open Verif.Spec
variable {α : Type} [Inhabited α]

/-! ## C18 -/

/-- A program state: memory, the `head` field of every list object, the next free address. -/
structure W (α : Type) where
  mem : Mem α
  heads : Nat → Ptr
  count : Nat

/-- Run one call (each line is the call of the method of `IntList` / `IntListNode`,
list.gp_int.go:39-60, 117-270, 331-333). -/
def step (w : W α) : ListOp α → Res (W α × ListOut α)
  | .pushFront i v => do
    let (h, hd, n) ← pushFront w.mem (w.heads i) w.count v
    return (⟨h, setAt w.heads i hd, w.count + 1⟩, .node n)
  | .pushBack i v => do
    let (h, hd, n) ← pushBack w.mem (w.heads i) w.count v
    return (⟨h, setAt w.heads i hd, w.count + 1⟩, .node n)
  | .insertFront i x => do
    let (h, hd, n) ← insertFront w.mem (w.heads i) (some x)
    return ({ w with mem := h, heads := setAt w.heads i hd }, .node n)
  | .insertBack i x => do
    let (h, hd, n) ← insertBack w.mem (w.heads i) (some x)
    return ({ w with mem := h, heads := setAt w.heads i hd }, .node n)
  | .pushBefore i v m => do
    let (h, hd, n) ← pushBefore w.mem (w.heads i) w.count v (some m)
    return (⟨h, setAt w.heads i hd, w.count + 1⟩, .node n)
  | .insertBefore i x m => do
    let (h, hd, n) ← insertBefore w.mem (w.heads i) (some x) (some m)
    return ({ w with mem := h, heads := setAt w.heads i hd }, .node n)
  | .popFront i => do
    let (h, hd, v, ok) ← popFront w.mem (w.heads i)
    return ({ w with mem := h, heads := setAt w.heads i hd }, .val v ok)
  | .popBack i => do
    let (h, hd, v, ok) ← popBack w.mem (w.heads i)
    return ({ w with mem := h, heads := setAt w.heads i hd }, .val v ok)
  | .removeFront i => do
    let (h, hd, n) ← removeFront w.mem (w.heads i)
    return ({ w with mem := h, heads := setAt w.heads i hd }, .node n)
  | .removeBack i => do
    let (h, hd, n) ← removeBack w.mem (w.heads i)
    return ({ w with mem := h, heads := setAt w.heads i hd }, .node n)
  | .remove i x => do
    let (h, hd, n) ← remove w.mem (w.heads i) (some x)
    return ({ w with mem := h, heads := setAt w.heads i hd }, .node n)
  | .rotateForward i => do
    let hd ← rotateForward w.mem (w.heads i)
    return ({ w with heads := setAt w.heads i hd }, .unit)
  | .rotateBackward i => do
    let hd ← rotateBackward w.mem (w.heads i)
    return ({ w with heads := setAt w.heads i hd }, .unit)
  | .insertBackList i j => do
    let (h, hd, ohd, ok) ← insertBackList w.mem (w.heads i) (w.heads j)
    return ({ w with mem := h, heads := setAt (setAt w.heads i hd) j ohd }, .bool ok)
  | .clear i => return ({ w with heads := setAt w.heads i none }, .unit)
  | .front i => return (w, .node (front (w.heads i)))
  | .back i => do
    let p ← back w.mem (w.heads i)
    return (w, .node p)
  | .empty i => return (w, .bool (empty (w.heads i)))
  | .get x => do
    let v ← get w.mem (some x)
    return (w, .val v true)
  | .set x v => do
    let (h, old) ← setVal w.mem (some x) v
    return ({ w with mem := h }, .val old true)
  | .next _ x => return (w, .node (nodeNext w.mem (some x)))
  | .prev _ x => return (w, .node (nodePrev w.mem (some x)))

/-- Run a history. -/
def run (w : W α) : List (ListOp α) → Res (W α × List (ListOut α))
  | [] => return (w, [])
  | op :: ops => do
    let (w, o) ← step w op
    let (w, os) ← run w ops
    return (w, o :: os)

/-- The empty program state. -/
def W.init : W α := ⟨fun _ => ⟨default, none, none⟩, fun _ => none, 0⟩

/-- The program state represents the client's view. -/
structure Inv (s : LWorld α) (w : W α) : Prop where
  cnt : w.count = s.count
  holds : ∀ i, Holds w.mem (w.heads i) (s.lists i)
  disj : ∀ i j x, x ∈ s.lists i → x ∈ s.lists j → i = j
  lt : ∀ i x, x ∈ s.lists i → x < s.count
  val : ∀ x, x < s.count → (w.mem x).val = s.val x

theorem setAt_same {β : Type} (f : Nat → β) (i : Nat) (v : β) : setAt f i v i = v := by simp [setAt]
theorem setAt_ne {β : Type} (f : Nat → β) (i j : Nat) (v : β) (hj : j ≠ i) : setAt f i v j = f j := by
  simp [setAt, hj]

/-- Replacing the contents of one list. -/
theorem Inv.update {s : LWorld α} {w : W α} (hI : Inv s w) (i : Nat) (l' : List Nat) (h' : Mem α) (hd' : Ptr)
    (c : Nat) (vl : Nat → α) (hh : Holds h' hd' l') (hc : s.count ≤ c)
    (hm : ∀ x ∈ l', x ∈ s.lists i ∨ (x < c ∧ ∀ j, x ∉ s.lists j))
    (hf : ∀ y, y ∉ s.lists i → y ∉ l' → h' y = w.mem y)
    (hv : ∀ x, x < c → (h' x).val = vl x) :
    Inv ⟨setAt s.lists i l', vl, c⟩ ⟨h', setAt w.heads i hd', c⟩ := by
  have hsep : ∀ j x, j ≠ i → x ∈ l' → x ∉ s.lists j := by
    intro j x hj hx hxj
    rcases hm x hx with h1 | ⟨_, h1⟩
    · exact hj (hI.disj j i x hxj h1)
    · exact h1 j hxj
  refine ⟨rfl, ?_, ?_, ?_, hv⟩
  · intro j
    by_cases hj : j = i
    · subst hj; simpa [setAt_same] using hh
    · simp only [setAt_ne _ _ _ _ hj]
      refine holds_frame (hI.holds j) ?_
      intro x hx
      exact hf x (fun h1 => hj (hI.disj j i x hx h1)) (fun h1 => hsep j x hj h1 hx)
  · intro j k x hxj hxk
    by_cases hj : j = i <;> by_cases hk : k = i
    · rw [hj, hk]
    · subst hj
      simp only [setAt_same, setAt_ne _ _ _ _ hk] at hxj hxk
      exact absurd hxk (hsep k x hk hxj)
    · subst hk
      simp only [setAt_same, setAt_ne _ _ _ _ hj] at hxj hxk
      exact absurd hxj (hsep j x hj hxk)
    · simp only [setAt_ne _ _ _ _ hj, setAt_ne _ _ _ _ hk] at hxj hxk
      exact hI.disj j k x hxj hxk
  · intro j x hx
    by_cases hj : j = i
    · subst hj
      simp only [setAt_same] at hx
      rcases hm x hx with h1 | ⟨h1, _⟩
      · exact Nat.lt_of_lt_of_le (hI.lt _ x h1) hc
      · exact h1
    · simp only [setAt_ne _ _ _ _ hj] at hx
      exact Nat.lt_of_lt_of_le (hI.lt _ x hx) hc

/-- The same without a new node. -/
theorem Inv.update' {s : LWorld α} {w : W α} (hI : Inv s w) (i : Nat) (l' : List Nat) (h' : Mem α) (hd' : Ptr)
    (hh : Holds h' hd' l')
    (hm : ∀ x ∈ l', x ∈ s.lists i ∨ (x < s.count ∧ ∀ j, x ∉ s.lists j))
    (hf : ∀ y, y ∉ s.lists i → y ∉ l' → h' y = w.mem y)
    (hv : ∀ x, (h' x).val = (w.mem x).val) :
    Inv { s with lists := setAt s.lists i l' } { w with mem := h', heads := setAt w.heads i hd' } := by
  have := hI.update i l' h' hd' s.count s.val hh (Nat.le_refl _) hm hf (fun x hx => by rw [hv, hI.val x hx])
  have hc := hI.cnt
  cases w; simp at hc; subst hc
  exact this

theorem setAt_self {β : Type} (f : Nat → β) (i : Nat) : setAt f i (f i) = f := by
  funext j; by_cases hj : j = i <;> simp [setAt, hj]

theorem insBefore_split (n m : Nat) (l : List Nat) (hm : m ∈ l) :
    ∃ A B, l = A ++ m :: B ∧ insBefore n m l = A ++ n :: m :: B := by
  induction l with
  | nil => simp at hm
  | cons a t ih =>
    by_cases ha : a = m
    · subst ha; exact ⟨[], t, rfl, by simp [insBefore]⟩
    · obtain ⟨A, B, h1, h2⟩ := ih (by simpa [Ne.symm ha] using hm)
      exact ⟨a :: A, B, by simp [h1], by simp [insBefore, ha, h2]⟩

theorem newNode_other (h : Mem α) (a : Nat) (v : α) (y : Nat) (hy : y ≠ a) : newNode h a v y = h y :=
  upd_ne _ _ _ _ hy

theorem newNode_val (h : Mem α) (a : Nat) (v : α) (y : Nat) :
    (newNode h a v y).val = if y = a then v else (h y).val := by
  by_cases hy : y = a <;> simp [newNode, upd, hy]

theorem Inv.fresh {s : LWorld α} {w : W α} (hI : Inv s w) (i : Nat) : s.count ∉ s.lists i :=
  fun h => Nat.lt_irrefl _ (hI.lt i _ h)

theorem Inv.holdsNew {s : LWorld α} {w : W α} (hI : Inv s w) (i : Nat) (v : α) :
    Holds (newNode w.mem s.count v) (w.heads i) (s.lists i) :=
  holds_frame (hI.holds i) (fun x hx => newNode_other _ _ _ _ (Nat.ne_of_lt (hI.lt i x hx)))

/-- Successors and predecessors on a ring. -/
theorem ring_next_at {h : Mem α} {A B : List Nat} {x : Nat} (hr : Ring h (A ++ x :: B)) :
    (h x).next = ringNext (A ++ x :: B) x := by
  have hx : x ∉ A := by
    intro hx; have := hr.1; rw [List.nodup_append] at this; exact this.2.2 x hx x (by simp) rfl
  have hidx : (A ++ x :: B).idxOf x = A.length := by
    rw [List.idxOf_append_of_notMem hx]; simp
  have hrot := ring_rotate A (x :: B) hr
  unfold ringNext
  rw [hidx]
  cases B with
  | nil =>
    have hlen : (A ++ [x]).length = A.length + 1 := by simp
    rw [hlen, Nat.mod_self]
    cases A with
    | nil => simpa using (ring_single hr).1
    | cons a A => simpa using ring_next_head hrot
  | cons b B =>
    have hlen : (A ++ x :: b :: B).length = A.length + 1 + (B.length + 1) := by simp; omega
    rw [hlen, Nat.mod_eq_of_lt (by omega), List.getElem?_append_right (by omega)]
    simp
    exact ring_next_head (by simpa using hrot)

theorem ring_prev_at {h : Mem α} {A B : List Nat} {x : Nat} (hr : Ring h (A ++ x :: B)) :
    (h x).prev = ringPrev (A ++ x :: B) x := by
  have hx : x ∉ A := by
    intro hx; have := hr.1; rw [List.nodup_append] at this; exact this.2.2 x hx x (by simp) rfl
  have hidx : (A ++ x :: B).idxOf x = A.length := by
    rw [List.idxOf_append_of_notMem hx]; simp
  have hrot := ring_rotate A (x :: B) hr
  obtain ⟨D, z, hz⟩ := exists_concat x (B ++ A)
  have hp := ring_prev_head hz hrot
  rw [hp]
  unfold ringPrev
  rw [hidx]
  have hlen : (A ++ x :: B).length = A.length + B.length + 1 := by simp; omega
  have hzl : (x :: (B ++ A)).getLast? = some z := by rw [hz]; simp
  rw [hlen]
  rcases List.eq_nil_or_concat A with hA | ⟨A', a, hA⟩
  · subst hA
    simp only [List.length_nil, Nat.zero_add, List.nil_append, List.append_nil] at hzl ⊢
    rw [Nat.mod_eq_of_lt (by omega), ← hzl, List.getLast?_eq_getElem?]
    simp
  · rw [List.concat_eq_append] at hA
    subst hA
    have hza : z = a := by
      rw [← List.append_assoc, ← List.cons_append, List.getLast?_concat] at hzl
      exact (Option.some.inj hzl).symm
    subst hza
    have e : (A' ++ [z]).length + ((A' ++ [z]).length + B.length + 1 - 1)
        = A'.length + ((A' ++ [z]).length + B.length + 1) := by simp; omega
    rw [e, Nat.add_mod_right, Nat.mod_eq_of_lt (by simp; omega)]
    simp

/-- One call. -/
theorem step_ok (s : LWorld α) (w : W α) (hI : Inv s w) (op : ListOp α) (ha : op.allowed s) :
    ∃ w', step w op = .ok (w', (listStep s op).2) ∧ Inv (listStep s op).1 w' := by
  have hc := hI.cnt
  cases op with
  | pushFront i v =>
    obtain ⟨h', e, hh, f, vl⟩ := insertFront_spec s.count (hI.holdsNew i v) (hI.fresh i)
    refine ⟨_, by simp [step, hc, pushFront, e]; exact ⟨rfl, rfl⟩, ?_⟩
    refine hI.update i _ h' _ _ _ hh (Nat.le_succ _) ?_ ?_ ?_
    · intro x hx
      rcases List.mem_cons.mp hx with rfl | hx
      · right; exact ⟨by omega, fun j => hI.fresh j⟩
      · left; exact hx
    · intro y hy hy'
      have hyn : y ≠ s.count := fun e => hy' (by simp [e])
      rw [f y hy hyn, newNode_other _ _ _ _ hyn]
    · intro x hx
      rw [vl, newNode_val]
      by_cases hxc : x = s.count
      · simp [hxc, setAt_same]
      · rw [if_neg hxc, setAt_ne _ _ _ _ hxc, hI.val x (by omega)]
  | pushBack i v =>
    obtain ⟨h', hd, e, hh, f, vl⟩ := insertBack_spec s.count (hI.holdsNew i v) (hI.fresh i)
    refine ⟨_, by simp [step, hc, pushBack, e]; exact ⟨rfl, rfl⟩, ?_⟩
    refine hI.update i _ h' _ _ _ hh (Nat.le_succ _) ?_ ?_ ?_
    · intro x hx
      rcases List.mem_append.mp hx with hx | hx
      · left; exact hx
      · right; simp at hx; subst hx; exact ⟨by omega, fun j => hI.fresh j⟩
    · intro y hy hy'
      have hyn : y ≠ s.count := fun e => hy' (by simp [e])
      rw [f y hy hyn, newNode_other _ _ _ _ hyn]
    · intro x hx
      rw [vl, newNode_val]
      by_cases hxc : x = s.count
      · simp [hxc, setAt_same]
      · rw [if_neg hxc, setAt_ne _ _ _ _ hxc, hI.val x (by omega)]
  | insertFront i x =>
    obtain ⟨h', e, hh, f, vl⟩ := insertFront_spec x (hI.holds i) (ha.2 i)
    refine ⟨_, by simp [step, e]; exact ⟨rfl, rfl⟩, ?_⟩
    refine hI.update' i _ h' _ hh ?_ ?_ vl
    · intro y hy
      rcases List.mem_cons.mp hy with rfl | hy
      · right; exact ha
      · left; exact hy
    · intro y hy hy'
      exact f y hy (fun e => hy' (by simp [e]))
  | insertBack i x =>
    obtain ⟨h', hd, e, hh, f, vl⟩ := insertBack_spec x (hI.holds i) (ha.2 i)
    refine ⟨_, by simp [step, e]; exact ⟨rfl, rfl⟩, ?_⟩
    refine hI.update' i _ h' _ hh ?_ ?_ vl
    · intro y hy
      rcases List.mem_append.mp hy with hy | hy
      · left; exact hy
      · right; simp at hy; subst hy; exact ha
    · intro y hy hy'
      exact f y hy (fun e => hy' (by simp [e]))
  | pushBefore i v m =>
    obtain ⟨A, B, h1, h2⟩ := insBefore_split s.count m (s.lists i) ha
    have hN := hI.holdsNew i v
    have hF := hI.fresh i
    rw [h1] at hN hF
    obtain ⟨h', hd, e, hh, f, vl⟩ := insertBefore_spec s.count hN hF
    refine ⟨_, by simp [step, hc, pushBefore, e]; exact ⟨rfl, rfl⟩, ?_⟩
    rw [← h2] at hh
    rw [← h1] at f
    refine hI.update i _ h' _ _ _ hh (Nat.le_succ _) ?_ ?_ ?_
    · intro x hx
      rw [h2] at hx
      by_cases hxc : x = s.count
      · right; subst hxc; exact ⟨by omega, fun j => hI.fresh j⟩
      · left; rw [h1]; simp at hx ⊢; tauto
    · intro y hy hy'
      have hyn : y ≠ s.count := fun e => hy' (by rw [h2]; simp [e])
      rw [f y hy hyn, newNode_other _ _ _ _ hyn]
    · intro x hx
      rw [vl, newNode_val]
      by_cases hxc : x = s.count
      · simp [hxc, setAt_same]
      · rw [if_neg hxc, setAt_ne _ _ _ _ hxc, hI.val x (by omega)]
  | insertBefore i x m =>
    obtain ⟨A, B, h1, h2⟩ := insBefore_split x m (s.lists i) ha.1
    have hN := hI.holds i
    have hF := ha.2.2 i
    rw [h1] at hN hF
    obtain ⟨h', hd, e, hh, f, vl⟩ := insertBefore_spec x hN hF
    refine ⟨_, by simp [step, e]; exact ⟨rfl, rfl⟩, ?_⟩
    rw [← h2] at hh
    rw [← h1] at f
    refine hI.update' i _ h' _ hh ?_ ?_ vl
    · intro y hy
      rw [h2] at hy
      by_cases hyc : y = x
      · right; subst hyc; exact ha.2
      · left; rw [h1]; simp at hy ⊢; tauto
    · intro y hy hy'
      exact f y hy (fun e => hy' (by rw [h2]; simp [e]))
  | popFront i =>
    have hh := hI.holds i
    cases hl : s.lists i with
    | nil =>
      rw [hl] at hh
      have hhd : w.heads i = none := hh.1
      refine ⟨w, ?_, ?_⟩
      · simp only [step, popFront, front, hhd, remove_none, listStep, hl]
        have := setAt_self w.heads i
        rw [hhd] at this
        simp [this]
      · simpa [listStep, hl] using hI
    | cons x t =>
      rw [hl] at hh
      have hhd : w.heads i = some x := hh.1
      obtain ⟨h', hd, e, hh', n1, n2, f, vl⟩ := remove_spec (A := []) hh
      have hx := hI.lt i x (by simp [hl])
      refine ⟨{ w with mem := h', heads := setAt w.heads i hd }, ?_, ?_⟩
      · rw [hhd] at e
        simp only [step, popFront, front, hhd, e, listStep, hl]
        simp [get, rd, vl, hI.val x hx]
      · simp only [listStep, hl, List.head?_cons, List.tail_cons]
        refine hI.update' i _ h' _ hh' ?_ ?_ vl
        · intro y hy; left; rw [hl]; simp at hy ⊢; exact Or.inr hy
        · intro y hy _; exact f y (by rw [← show s.lists i = [] ++ x :: t from hl]; exact hy)
  | popBack i =>
    have hh := hI.holds i
    rcases List.eq_nil_or_concat (s.lists i) with hl | ⟨t, x, hl⟩
    · rw [hl] at hh
      have hhd : w.heads i = none := hh.1
      refine ⟨w, ?_, ?_⟩
      · simp only [step, popBack, back, hhd, listStep, hl]
        have := setAt_self w.heads i
        rw [hhd] at this
        simp [remove_none, this]
      · simpa [listStep, hl] using hI
    · rw [List.concat_eq_append] at hl
      rw [hl] at hh
      have hb := back_spec hh
      obtain ⟨h', hd, e, hh', n1, n2, f, vl⟩ := remove_spec (B := []) hh
      have hx := hI.lt i x (by simp [hl])
      refine ⟨{ w with mem := h', heads := setAt w.heads i hd }, ?_, ?_⟩
      · simp only [step, popBack, hb, listStep, hl]
        simp [e, get, rd, vl, hI.val x hx]
      · simp only [listStep, hl, List.getLast?_concat, List.dropLast_concat]
        refine hI.update' i _ h' _ (by simpa using hh') ?_ ?_ vl
        · intro y hy; left; rw [hl]; simp [hy]
        · intro y hy _; exact f y (by rw [← hl]; exact hy)
  | removeFront i =>
    have hh := hI.holds i
    cases hl : s.lists i with
    | nil =>
      rw [hl] at hh
      have hhd : w.heads i = none := hh.1
      refine ⟨w, ?_, ?_⟩
      · simp only [step, removeFront, front, hhd, remove_none, listStep, hl]
        have := setAt_self w.heads i
        rw [hhd] at this
        simp [this]
      · have := setAt_self s.lists i
        rw [hl] at this
        simpa [listStep, hl, this] using hI
    | cons x t =>
      rw [hl] at hh
      have hhd : w.heads i = some x := hh.1
      obtain ⟨h', hd, e, hh', n1, n2, f, vl⟩ := remove_spec (A := []) hh
      refine ⟨{ w with mem := h', heads := setAt w.heads i hd }, ?_, ?_⟩
      · rw [hhd] at e
        simp [step, removeFront, front, hhd, e, listStep, hl]
      · simp only [listStep, hl, List.tail_cons]
        refine hI.update' i _ h' _ hh' ?_ ?_ vl
        · intro y hy; left; rw [hl]; simp at hy ⊢; exact Or.inr hy
        · intro y hy _; exact f y (by rw [← show s.lists i = [] ++ x :: t from hl]; exact hy)
  | removeBack i =>
    have hh := hI.holds i
    rcases List.eq_nil_or_concat (s.lists i) with hl | ⟨t, x, hl⟩
    · rw [hl] at hh
      have hhd : w.heads i = none := hh.1
      refine ⟨w, ?_, ?_⟩
      · simp only [step, removeBack, back, hhd, listStep, hl]
        have := setAt_self w.heads i
        rw [hhd] at this
        simp [remove_none, this]
      · have := setAt_self s.lists i
        rw [hl] at this
        simpa [listStep, hl, this] using hI
    · rw [List.concat_eq_append] at hl
      rw [hl] at hh
      have hb := back_spec hh
      obtain ⟨h', hd, e, hh', n1, n2, f, vl⟩ := remove_spec (B := []) hh
      refine ⟨{ w with mem := h', heads := setAt w.heads i hd }, ?_, ?_⟩
      · simp only [step, removeBack, hb, listStep, hl]
        simp [e]
      · simp only [listStep, hl, List.dropLast_concat]
        refine hI.update' i _ h' _ (by simpa using hh') ?_ ?_ vl
        · intro y hy; left; rw [hl]; simp [hy]
        · intro y hy _; exact f y (by rw [← hl]; exact hy)
  | remove i x =>
    have hh := hI.holds i
    obtain ⟨A, B, hl⟩ := List.append_of_mem (show x ∈ s.lists i from ha)
    rw [hl] at hh
    have hxA : x ∉ A := by
      intro hx; have := hh.2.1; rw [List.nodup_append] at this; exact this.2.2 x hx x (by simp) rfl
    obtain ⟨h', hd, e, hh', n1, n2, f, vl⟩ := remove_spec hh
    refine ⟨{ w with mem := h', heads := setAt w.heads i hd }, by simp [step, e, listStep], ?_⟩
    have he : (s.lists i).erase x = A ++ B := by
      rw [hl, List.erase_append_right _ hxA]; simp
    simp only [listStep, he]
    refine hI.update' i _ h' _ hh' ?_ ?_ vl
    · intro y hy; left; rw [hl]; simp at hy ⊢; tauto
    · intro y hy _; exact f y (by rw [← hl]; exact hy)
  | rotateForward i =>
    have hh := hI.holds i
    cases hl : s.lists i with
    | nil =>
      rw [hl] at hh
      have hhd : w.heads i = none := hh.1
      have e1 := setAt_self w.heads i
      have e2 := setAt_self s.lists i
      rw [hhd] at e1
      rw [hl] at e2
      exact ⟨w, by simp [step, rotateForward, hhd, e1, listStep], by simpa [listStep, hl, rotL, e2] using hI⟩
    | cons x t =>
      rw [hl] at hh
      obtain ⟨hd, e, hh'⟩ := rotateForward_spec x hh
      refine ⟨{ w with heads := setAt w.heads i hd }, by simp [step, e, listStep], ?_⟩
      have hr : rotL (s.lists i) = t ++ [x] := by simp [hl, rotL]
      simp only [listStep, hr]
      refine hI.update' i _ w.mem _ hh' ?_ (fun _ _ _ => rfl) (fun _ => rfl)
      intro y hy; left; rw [hl]; simp at hy ⊢; tauto
  | rotateBackward i =>
    have hh := hI.holds i
    rcases List.eq_nil_or_concat (s.lists i) with hl | ⟨t, x, hl⟩
    · rw [hl] at hh
      have hhd : w.heads i = none := hh.1
      have e1 := setAt_self w.heads i
      have e2 := setAt_self s.lists i
      rw [hhd] at e1
      rw [hl] at e2
      exact ⟨w, by simp [step, rotateBackward, hhd, e1, listStep], by simpa [listStep, hl, rotR, e2] using hI⟩
    · rw [List.concat_eq_append] at hl
      rw [hl] at hh
      obtain ⟨e, hh'⟩ := rotateBackward_spec x hh
      refine ⟨{ w with heads := setAt w.heads i (some x) }, by simp [step, e, listStep], ?_⟩
      have hr : rotR (s.lists i) = x :: t := by simp [hl, rotR]
      simp only [listStep, hr]
      refine hI.update' i _ w.mem _ hh' ?_ (fun _ _ _ => rfl) (fun _ => rfl)
      intro y hy; left; rw [hl]; simp at hy ⊢; tauto
  | insertBackList i j =>
    have hij : i ≠ j := ha
    obtain ⟨h', hd, e, hh', f, vl⟩ := insertBackList_spec (hI.holds i) (hI.holds j)
      (fun x hx hx' => hij (hI.disj i j x hx hx'))
    refine ⟨{ w with mem := h', heads := setAt (setAt w.heads i hd) j none }, by simp [step, e, listStep], ?_⟩
    have hsub : ∀ k x, x ∈ setAt (setAt s.lists i (s.lists i ++ s.lists j)) j [] k →
        ∃ k', x ∈ s.lists k' ∧ (k = i ∧ (k' = i ∨ k' = j) ∨ k ≠ i ∧ k ≠ j ∧ k' = k) := by
      intro k x hx
      by_cases hkj : k = j
      · subst hkj; simp [setAt_same] at hx
      · rw [setAt_ne _ _ _ _ hkj] at hx
        by_cases hki : k = i
        · subst hki
          rw [setAt_same, List.mem_append] at hx
          rcases hx with hx | hx
          · exact ⟨k, hx, Or.inl ⟨rfl, Or.inl rfl⟩⟩
          · exact ⟨j, hx, Or.inl ⟨rfl, Or.inr rfl⟩⟩
        · rw [setAt_ne _ _ _ _ hki] at hx
          exact ⟨k, hx, Or.inr ⟨hki, hkj, rfl⟩⟩
    refine ⟨hc, ?_, ?_, ?_, ?_⟩
    · intro k
      show Holds h' (setAt (setAt w.heads i hd) j none k) (setAt (setAt s.lists i (s.lists i ++ s.lists j)) j [] k)
      by_cases hkj : k = j
      · subst hkj; rw [setAt_same, setAt_same]; exact ⟨rfl, ring_nil h'⟩
      · rw [setAt_ne _ _ _ _ hkj, setAt_ne _ _ _ _ hkj]
        by_cases hki : k = i
        · subst hki; rw [setAt_same, setAt_same]; exact hh'
        · rw [setAt_ne _ _ _ _ hki, setAt_ne _ _ _ _ hki]
          refine holds_frame (hI.holds k) ?_
          intro x hx
          exact f x (fun h1 => hki (hI.disj k i x hx h1)) (fun h1 => hkj (hI.disj k j x hx h1))
    · intro k l x hk hl
      obtain ⟨k', hk', hk2⟩ := hsub k x hk
      obtain ⟨l', hl', hl2⟩ := hsub l x hl
      have := hI.disj k' l' x hk' hl'
      subst this
      omega
    · intro k x hx
      obtain ⟨k', hk', _⟩ := hsub k x hx
      exact hI.lt k' x hk'
    · intro x hx
      show (h' x).val = s.val x
      rw [vl, hI.val x hx]
  | clear i =>
    refine ⟨{ w with heads := setAt w.heads i none }, rfl, ?_⟩
    exact hI.update' i [] w.mem none ⟨rfl, ring_nil _⟩ (by simp) (fun _ _ _ => rfl) (fun _ => rfl)
  | front i =>
    exact ⟨w, by simp [step, front, listStep, (hI.holds i).1], hI⟩
  | back i =>
    exact ⟨w, by simp [step, back_spec (hI.holds i), listStep], hI⟩
  | empty i =>
    refine ⟨w, ?_, hI⟩
    simp only [step, empty, listStep, (hI.holds i).1]
    cases s.lists i <;> rfl
  | get x =>
    exact ⟨w, by simp [step, get, rd, listStep, hI.val x ha], hI⟩
  | set x v =>
    refine ⟨{ w with mem := upd w.mem x { w.mem x with val := v } },
      by simp [step, setVal, listStep, hI.val x ha], ?_⟩
    refine ⟨hc, ?_, hI.disj, hI.lt, ?_⟩
    · intro i
      obtain ⟨h1, h2, h3⟩ := hI.holds i
      refine ⟨h1, h2, ?_⟩
      show match s.lists i with | [] => True | a :: t => Chain (upd w.mem x { w.mem x with val := v }) (a :: t ++ [a])
      cases hl : s.lists i with
      | nil => trivial
      | cons a t =>
        rw [hl] at h3
        refine chain_frame _ h3 ?_ ?_ <;> intro y _ <;> by_cases hy : y = x <;> simp [upd, hy]
    · intro y hy
      by_cases hyx : y = x
      · simp [listStep, hyx, setAt_same]
      · simp only [listStep, setAt_ne _ _ _ _ hyx, upd_ne _ _ _ _ hyx]; exact hI.val y hy
  | next i x =>
    refine ⟨w, ?_, hI⟩
    obtain ⟨A, B, hl⟩ := List.append_of_mem (show x ∈ s.lists i from ha)
    have hr := (hI.holds i).2
    rw [hl] at hr
    simp [step, nodeNext, listStep, hl, ring_next_at hr]
  | prev i x =>
    refine ⟨w, ?_, hI⟩
    obtain ⟨A, B, hl⟩ := List.append_of_mem (show x ∈ s.lists i from ha)
    have hr := (hI.holds i).2
    rw [hl] at hr
    simp [step, nodePrev, listStep, hl, ring_prev_at hr]

theorem run_ok (ops : List (ListOp α)) : ∀ (s : LWorld α) (w : W α), Inv s w → ListHistory s ops →
    ∃ w', run w ops = .ok (w', (runSpec listStep s ops).2) ∧ Inv (runSpec listStep s ops).1 w' := by
  induction ops with
  | nil => intro s w hI _; exact ⟨w, rfl, hI⟩
  | cons op ops ih =>
    intro s w hI hh
    obtain ⟨w1, e1, hI1⟩ := step_ok s w hI op hh.1
    obtain ⟨w2, e2, hI2⟩ := ih _ w1 hI1 hh.2
    exact ⟨w2, by simp [run, e1, e2, runSpec], hI2⟩

/-- **C18.**  In every history of allowed calls on any number of lists nothing panics, every returned node,
value and flag — including the neighbours reported by `Next` and `Prev` — is the one of the mathematical
sequences, and at the end every list is a consistent ring holding exactly its specified nodes with their
specified values. -/
theorem C18_list_history (ops : List (ListOp α)) (hh : ListHistory LWorld.init ops) :
    ∃ w', run W.init ops = .ok (w', (runSpec listStep LWorld.init ops).2) ∧
      (∀ i, Holds w'.mem (w'.heads i) ((runSpec listStep LWorld.init ops).1.lists i)) ∧
      (∀ x, x < (runSpec listStep (LWorld.init : LWorld α) ops).1.count →
        (w'.mem x).val = (runSpec listStep LWorld.init ops).1.val x) := by
  obtain ⟨w', e, hI⟩ := run_ok ops LWorld.init W.init
    ⟨rfl, fun _ => ⟨rfl, ring_nil _⟩, fun _ _ _ h => by simp [LWorld.init] at h,
      fun _ _ h => by simp [LWorld.init] at h, fun x h => by simp [LWorld.init] at h⟩ hh
  exact ⟨w', e, hI.holds, hI.val⟩

/-- Two lists, six nodes, moves in the middle, a concatenation. -/
def exOps : List (ListOp Int) :=
  [.pushBack 0 10, .pushFront 0 20, .pushBack 0 30, .pushBefore 0 40 0, .remove 0 0, .pushBack 1 50,
   .insertFront 1 0, .insertBackList 0 1, .rotateForward 0, .next 0 4, .prev 0 1, .popBack 0, .back 0, .empty 1]

example : ListHistory LWorld.init exOps := by
  simp [exOps, ListHistory, ListOp.allowed, listStep, LWorld.init, setAt, insBefore, rotL]
  intro i; split <;> [skip; split] <;> simp_all
example : (runSpec listStep LWorld.init exOps).2 =
    [.node (some 0), .node (some 1), .node (some 2), .node (some 3), .node (some 0), .node (some 4),
     .node (some 0), .bool true, .unit, .node (some 1), .node (some 4), .val 20 true, .node (some 4), .bool true] := by
  decide

/-- Inserting the nodes of a cleared list elsewhere is allowed. -/
example : ListHistory (LWorld.init : LWorld Int)
    [.pushBack 0 1, .pushBack 0 2, .clear 0, .insertBack 1 1, .insertBack 0 0, .next 0 0] := by
  simp [ListHistory, ListOp.allowed, listStep, LWorld.init, setAt]
  refine ⟨fun i hi => by simp [hi], fun i => ?_⟩
  split <;> [skip; split] <;> simp_all

/-! ## C19 -/

/-- The place a visitor is at: before everything, or on position `i`. -/
def At (l : List Nat) (head : Ptr) (v : Visitor) (i : Option Nat) : Prop :=
  v.head = head ∧ match i with
    | none => v.node = none
    | some i => i < l.length ∧ v.node = l[i]?

/-- Moving forward on a ring of `n` places: the new place and the reported flag. -/
def visNext (n : Nat) : Option Nat → Option Nat × Bool
  | none => (if n = 0 then none else some 0, decide (n ≠ 0))
  | some i => (some ((i + 1) % n), decide (i + 1 < n))

/-- Moving backward on a ring of `n` places. -/
def visPrev (n : Nat) : Option Nat → Option Nat × Bool
  | none => (if n = 0 then none else some (n - 1), decide (n ≠ 0))
  | some i => (some ((i + (n - 1)) % n), decide (0 < i))

/-- **C19**, exact semantics of `Next`: from the start to position 0, from position `i` to `i+1`; it reports
false exactly when it wrapped around to position 0, or the list is empty. -/
theorem C19_next {h : Mem α} {head : Ptr} {l : List Nat} (hh : Holds h head l) (v : Visitor) (i : Option Nat)
    (hv : At l head v i) :
    ∃ v', vNext h v = .ok (v', (visNext l.length i).2) ∧ At l head v' (visNext l.length i).1 := by
  obtain ⟨hhd, hr⟩ := hh
  obtain ⟨hv1, hv2⟩ := hv
  obtain ⟨vn, vh⟩ := v
  simp only at hv1 hv2
  subst hv1
  cases i with
  | none =>
    simp only at hv2; subst hv2
    cases l with
    | nil => simp at hhd; subst hhd; exact ⟨⟨none, none⟩, rfl, rfl, rfl⟩
    | cons a A => simp at hhd; subst hhd; exact ⟨⟨some a, some a⟩, rfl, rfl, by simp [visNext]⟩
  | some i =>
    obtain ⟨hi, hn⟩ := hv2
    rw [List.getElem?_eq_getElem hi] at hn
    subst hn
    have hsplit : l = l.take i ++ l[i] :: l.drop (i + 1) := by
      rw [List.getElem_cons_drop, List.take_append_drop]
    have hx : (h l[i]).next = l[(i + 1) % l.length]? := by
      have hr' := hr
      rw [hsplit] at hr'
      have hq := ring_next_at hr'
      rw [← hsplit] at hq
      rw [hq, ringNext, hr.1.idxOf_getElem i hi]
    have hlt : (i + 1) % l.length < l.length := Nat.mod_lt _ (by omega)
    refine ⟨⟨(h l[i]).next, vh⟩, ?_, rfl, hlt, hx⟩
    simp only [vNext, visNext, rd]
    simp only [reduceCtorEq, if_false, Res.bind_ok, Res.pure_eq, Res.ok.injEq, Prod.mk.injEq, true_and,
      decide_eq_decide]
    rw [hx, hhd, List.head?_eq_getElem?]
    by_cases hw : i + 1 < l.length
    · simp only [hw, iff_true]
      rw [Nat.mod_eq_of_lt hw, List.getElem?_eq_getElem hw, List.getElem?_eq_getElem (by omega)]
      intro e
      have := (List.Nodup.getElem_inj_iff hr.1).mp (Option.some.inj e)
      omega
    · have : i + 1 = l.length := by omega
      simp [this]

/-- **C19**, exact semantics of `Prev`: from the start to the last position, from position `i` to `i-1`; it
reports false exactly when it wrapped around to the last position, or the list is empty. -/
theorem C19_prev {h : Mem α} {head : Ptr} {l : List Nat} (hh : Holds h head l) (v : Visitor) (i : Option Nat)
    (hv : At l head v i) :
    ∃ v', vPrev h v = .ok (v', (visPrev l.length i).2) ∧ At l head v' (visPrev l.length i).1 := by
  obtain ⟨hhd, hr⟩ := hh
  obtain ⟨hv1, hv2⟩ := hv
  obtain ⟨vn, vh⟩ := v
  simp only at hv1 hv2
  subst hv1
  have hlast : ∀ a, vh = some a → (h a).prev = l[l.length - 1]? := by
    intro a ha
    have := back_spec (h := h) (head := vh) (l := l) ⟨hhd, hr⟩
    subst ha
    simp [back, rd] at this
    rw [this, List.getLast?_eq_getElem?]
  cases i with
  | none =>
    simp only at hv2; subst hv2
    cases l with
    | nil => simp at hhd; subst hhd; exact ⟨⟨none, none⟩, rfl, rfl, rfl⟩
    | cons a A =>
      simp only [List.head?_cons] at hhd; subst hhd
      exact ⟨⟨(h a).prev, some a⟩, rfl, rfl, by simp, hlast a rfl⟩
  | some i =>
    obtain ⟨hi, hn⟩ := hv2
    rw [List.getElem?_eq_getElem hi] at hn
    subst hn
    have hsplit : l = l.take i ++ l[i] :: l.drop (i + 1) := by
      rw [List.getElem_cons_drop, List.take_append_drop]
    have hx : (h l[i]).prev = l[(i + (l.length - 1)) % l.length]? := by
      have hr' := hr
      rw [hsplit] at hr'
      have hq := ring_prev_at hr'
      rw [← hsplit] at hq
      rw [hq, ringPrev, hr.1.idxOf_getElem i hi]
    have hlt : (i + (l.length - 1)) % l.length < l.length := Nat.mod_lt _ (by omega)
    obtain ⟨a, ha⟩ : ∃ a, vh = some a := by
      cases l with
      | nil => simp at hi
      | cons a A => exact ⟨a, by simpa using hhd⟩
    subst ha
    refine ⟨⟨(h l[i]).prev, some a⟩, ?_, rfl, hlt, hx⟩
    simp only [vPrev, visPrev, rd]
    simp only [reduceCtorEq, if_false, Res.bind_ok, Res.pure_eq, Res.ok.injEq, Prod.mk.injEq, true_and,
      decide_eq_decide]
    rw [hx, hlast a rfl]
    by_cases hw : 0 < i
    · simp only [hw, iff_true]
      have e1 : (i + (l.length - 1)) % l.length = i - 1 := by
        have : i + (l.length - 1) = (i - 1) + l.length := by omega
        rw [this, Nat.add_mod_right, Nat.mod_eq_of_lt (by omega)]
      rw [e1, List.getElem?_eq_getElem (by omega), List.getElem?_eq_getElem (by omega)]
      intro e
      have := (List.Nodup.getElem_inj_iff hr.1).mp (Option.some.inj e)
      omega
    · have : i = 0 := by omega
      subst this
      have e1 : (0 + (l.length - 1)) % l.length = l.length - 1 := by
        rw [Nat.zero_add, Nat.mod_eq_of_lt (by omega)]
      rw [e1]; simp

/-- Call `Next` (or `Prev`) `k` times, collecting the nodes while it reports true (`for v.Next() {..}`). -/
def walk (mv : Visitor → Res (Visitor × Bool)) : Nat → Visitor → Res (List Nat)
  | 0, _ => return []
  | k + 1, v => do
    let (v, ok) ← mv v
    if ok then
      match v.node with
      | some x => do
        let r ← walk mv k v
        return x :: r
      | none => .panic
    else return []

theorem walk_next {h : Mem α} {head : Ptr} {l : List Nat} (hh : Holds h head l) (k : Nat) :
    ∀ (i : Nat) (v : Visitor), At l head v (some i) → l.length - (i + 1) < k →
      walk (vNext h) k v = .ok (l.drop (i + 1)) := by
  induction k with
  | zero => intro i v _ hk; omega
  | succ k ih =>
    intro i v hv hk
    obtain ⟨v', e, hv'⟩ := C19_next hh v (some i) hv
    simp only [visNext] at e hv'
    simp only [walk, e, Res.bind_ok]
    by_cases hi : i + 1 < l.length
    · simp only [hi, decide_true, if_true]
      have hm : (i + 1) % l.length = i + 1 := Nat.mod_eq_of_lt hi
      simp only [hm] at hv'
      have hn := hv'.2.2
      rw [List.getElem?_eq_getElem hi] at hn
      rw [hn]
      simp only
      rw [ih (i + 1) v' hv' (by omega)]
      simp only [Res.bind_ok, Res.pure_eq, List.getElem_cons_drop]
    · simp only [hi, decide_false]
      rw [List.drop_of_length_le (by omega)]
      rfl

theorem walk_prev {h : Mem α} {head : Ptr} {l : List Nat} (hh : Holds h head l) (k : Nat) :
    ∀ (i : Nat) (v : Visitor), At l head v (some i) → i < k →
      walk (vPrev h) k v = .ok (l.take i).reverse := by
  induction k with
  | zero => intro i v _ hk; omega
  | succ k ih =>
    intro i v hv hk
    obtain ⟨v', e, hv'⟩ := C19_prev hh v (some i) hv
    simp only [visPrev] at e hv'
    simp only [walk, e, Res.bind_ok]
    have hil := hv.2.1
    by_cases hi : 0 < i
    · simp only [hi, decide_true, if_true]
      have e1 : (i + (l.length - 1)) % l.length = i - 1 := by
        have : i + (l.length - 1) = (i - 1) + l.length := by omega
        rw [this, Nat.add_mod_right, Nat.mod_eq_of_lt (by omega)]
      simp only [e1] at hv'
      have hn := hv'.2.2
      rw [List.getElem?_eq_getElem (by omega)] at hn
      rw [hn]
      simp only
      rw [ih (i - 1) v' hv' (by omega)]
      obtain ⟨j, rfl⟩ : ∃ j, i = j + 1 := ⟨i - 1, by omega⟩
      have : l.take (j + 1) = l.take j ++ [l[j]] := (List.take_append_getElem (by omega)).symm
      rw [this, List.reverse_concat]
      simp only [Nat.add_sub_cancel, Res.bind_ok, Res.pure_eq]
    · have : i = 0 := by omega
      subst this
      simp

/-- **C19.**  `for v.Next()` from a fresh visitor lists the nodes in order and stops, for every list. -/
theorem C19_enumerates {h : Mem α} {head : Ptr} {l : List Nat} (hh : Holds h head l) (k : Nat)
    (hk : l.length < k) : walk (vNext h) k (visitor head) = .ok l := by
  obtain ⟨k, rfl⟩ : ∃ j, k = j + 1 := ⟨k - 1, by omega⟩
  obtain ⟨v', e, hv'⟩ := C19_next hh (visitor head) none ⟨rfl, rfl⟩
  simp only [visNext] at e hv'
  simp only [walk, e, Res.bind_ok]
  cases l with
  | nil => rfl
  | cons a A =>
    rw [if_neg (by simp)] at hv'
    have hn : v'.node = some a := by simpa using hv'.2.2
    rw [if_pos (by simp), hn]
    simp only
    rw [walk_next hh k 0 v' (by simpa using hv') (by simp at hk ⊢; omega)]
    rfl

/-- **C19.**  `for v.Prev()` from a fresh visitor lists the nodes in reverse order and stops. -/
theorem C19_enumerates_back {h : Mem α} {head : Ptr} {l : List Nat} (hh : Holds h head l) (k : Nat)
    (hk : l.length < k) : walk (vPrev h) k (visitor head) = .ok l.reverse := by
  obtain ⟨k, rfl⟩ : ∃ j, k = j + 1 := ⟨k - 1, by omega⟩
  obtain ⟨v', e, hv'⟩ := C19_prev hh (visitor head) none ⟨rfl, rfl⟩
  simp only [visPrev] at e hv'
  simp only [walk, e, Res.bind_ok]
  cases l with
  | nil => rfl
  | cons a A =>
    rw [if_neg (by simp)] at hv'
    rw [if_pos (by simp)]
    have hn := hv'.2.2
    rw [List.getElem?_eq_getElem (by simp)] at hn
    rw [hn]
    simp only
    rw [walk_prev hh k _ v' hv' (by simp at hk ⊢; omega)]
    have := List.dropLast_concat_getLast (l := a :: A) (by simp)
    rw [List.dropLast_eq_take, List.getLast_eq_getElem] at this
    rw [← congrArg List.reverse this, List.reverse_concat]
    rfl

/-- A three-node ring to which the traversal theorems apply. -/
def exMem : Mem Int := fun a => if a = 5 then ⟨1, some 7, some 6⟩ else if a = 6 then ⟨2, some 5, some 7⟩
  else ⟨3, some 6, some 5⟩

example : Holds exMem (some 5) [5, 6, 7] := by
  simp [Holds, Ring, Chain, Link, exMem]
example : walk (vNext exMem) 9 (visitor (some 5)) = .ok [5, 6, 7] := by decide

theorem exMem_holds : Holds exMem (some 5) [5, 6, 7] := by simp [Holds, Ring, Chain, Link, exMem]

/-- C19_next, C19_prev and C19_enumerates on the ring 5, 6, 7, with the visitor at its last node. -/
example : ∃ v', vNext exMem ⟨some 7, some 5⟩ = .ok (v', false) ∧ At [5, 6, 7] (some 5) v' (some 0) :=
  C19_next exMem_holds _ (some 2) ⟨rfl, by decide, rfl⟩
example : ∃ v', vPrev exMem ⟨some 7, some 5⟩ = .ok (v', true) ∧ At [5, 6, 7] (some 5) v' (some 1) :=
  C19_prev exMem_holds _ (some 2) ⟨rfl, by decide, rfl⟩
example : walk (vNext exMem) 4 (visitor (some 5)) = .ok [5, 6, 7] := C19_enumerates exMem_holds 4 (by decide)

end Verif.DList
