import Verif.Lemmas.SList
import Verif.Spec.Containers
import Mathlib.Logic.Function.Iterate
/-!
# Properties C26 and C27: the singly linked list
-/

set_option linter.unusedSectionVars false

namespace Verif.SList
open Verif.Spec
variable {α : Type} [Inhabited α]

/-! ## C26 -/

/-- A program state: memory and the next free address. -/
structure W (α : Type) where
  mem : Mem α
  count : Nat

/-- What the client sees of a returned pointer. -/
def outPtr : Ptr → SListOut α
  | none => .node none
  | some (.nd k) => .node (some k)
  | some (.hd _) => .unit

/-- What the client sees of the result of `Tail`. -/
def outLast : Ptr × Nat → SListOut α
  | (none, n) => .last none n
  | (some (.nd k), n) => .last (some k) n
  | (some (.hd _), _) => .unit

/-- Run one call (each line is the call of the method of `IntSList` / `IntSListNode`,
slist.gp_int.go:39-61, 111-238).  The result `none`: a loop in the call has not ended within `fuel`
rounds. -/
def step (fuel : Nat) (w : W α) : SListOp α → Res (Option (W α × SListOut α))
  | .pushFront i v =>
    let (h, n) := pushFront w.mem i w.count v
    return some (⟨h, w.count + 1⟩, outPtr n)
  | .popFront i => return (popFront fuel w.mem i).map fun (h, v, ok) => ({ w with mem := h }, .val v ok)
  | .pushAfter _ v m =>
    let (h, n) := pushAfter w.mem w.count v (some (.nd m))
    return some (⟨h, w.count + 1⟩, outPtr n)
  | .insertAfter _ x m =>
    let (h, n) := insertAfter w.mem (some (.nd x)) (some (.nd m))
    return some ({ w with mem := h }, outPtr n)
  | .insertFront i x =>
    let (h, n) := insertFront w.mem i (some (.nd x))
    return some ({ w with mem := h }, outPtr n)
  | .removeFront i => return (removeFront fuel w.mem i).map fun (h, n) => ({ w with mem := h }, outPtr n)
  | .remove i x =>
    return (remove fuel w.mem i (some (.nd x))).map fun (h, n) => ({ w with mem := h }, outPtr n)
  | .moveFront i x =>
    return (moveFront fuel w.mem i (some (.nd x))).map fun (h, n) => ({ w with mem := h }, outPtr n)
  | .moveAfter i x m =>
    return (moveAfter fuel w.mem i (some (.nd x)) (some (.nd m))).map
      fun (h, n) => ({ w with mem := h }, outPtr n)
  | .reverse i => return (reverse fuel w.mem i).map fun h => ({ w with mem := h }, .unit)
  | .clear i => return some ({ w with mem := clear w.mem i }, .unit)
  | .front i => return some (w, outPtr (front w.mem i))
  | .tail i => return (tail fuel w.mem (front w.mem i)).map fun r => (w, outLast r)
  | .get x => do
    let v ← get w.mem (some (.nd x))
    return some (w, .val v true)
  | .set x v => do
    let (h, old) ← setVal w.mem (some (.nd x)) v
    return some ({ w with mem := h }, .val old true)
  | .next _ x => return some (w, outPtr (nodeNext w.mem (some (.nd x))))

/-- Run a history. -/
def run (fuel : Nat) (w : W α) : List (SListOp α) → Res (Option (W α × List (SListOut α)))
  | [] => return some (w, [])
  | op :: ops => do
    match ← step fuel w op with
    | none => return none
    | some (w, o) =>
      match ← run fuel w ops with
      | none => return none
      | some (w, os) => return some (w, o :: os)

/-- The empty program state: every list object is the zero value. -/
def W.init : W α := ⟨fun _ => ⟨default, none⟩, 0⟩

/-- The program state represents the client's view. -/
structure Inv (s : LWorld α) (w : W α) : Prop where
  cnt : w.count = s.count
  holds : ∀ i, Seg w.mem (w.mem (.hd i)).next (s.lists i) none
  nodup : ∀ i, (s.lists i).Nodup
  disj : ∀ i j x, x ∈ s.lists i → x ∈ s.lists j → i = j
  lt : ∀ i x, x ∈ s.lists i → x < s.count
  val : ∀ x, x < s.count → (w.mem (.nd x)).val = s.val x

theorem setAt_same {β : Type} (f : Nat → β) (i : Nat) (v : β) : setAt f i v i = v := by simp [setAt]
theorem setAt_ne {β : Type} (f : Nat → β) (i j : Nat) (v : β) (hj : j ≠ i) : setAt f i v j = f j := by
  simp [setAt, hj]
theorem setAt_self {β : Type} (f : Nat → β) (i : Nat) : setAt f i (f i) = f := by
  funext j; by_cases h : j = i <;> simp [setAt, h]

theorem Inv.update {s : LWorld α} {w : W α} (hI : Inv s w) (i : Nat) (l' : List Nat) (h' : Mem α)
    (val' : Nat → α) (c' : Nat)
    (h1 : Seg h' (h' (.hd i)).next l' none) (nd : l'.Nodup)
    (own : ∀ x ∈ l', x ∈ s.lists i ∨ ∀ j, x ∉ s.lists j)
    (lt : ∀ x ∈ l', x < c') (le : s.count ≤ c')
    (frame : ∀ j, j ≠ i → (h' (.hd j)).next = (w.mem (.hd j)).next ∧
      ∀ x ∈ s.lists j, (h' (.nd x)).next = (w.mem (.nd x)).next)
    (val : ∀ x, x < c' → (h' (.nd x)).val = val' x) :
    Inv ⟨setAt s.lists i l', val', c'⟩ ⟨h', c'⟩ := by
  constructor
  · rfl
  · intro j
    by_cases hj : j = i
    · subst hj; simpa [setAt_same] using h1
    · simp only [setAt_ne _ _ _ _ hj]
      obtain ⟨f1, f2⟩ := frame j hj
      rw [f1]
      exact (hI.holds j).frame f2
  · intro j
    by_cases hj : j = i
    · subst hj; simpa [setAt_same] using nd
    · simpa [setAt_ne _ _ _ _ hj] using hI.nodup j
  · intro j k x hj hk
    by_cases e1 : j = i <;> by_cases e2 : k = i
    · rw [e1, e2]
    · subst e1
      simp only [setAt_same, setAt_ne _ _ _ _ e2] at hj hk
      rcases own x hj with h | h
      · exact hI.disj _ _ _ h hk
      · exact absurd hk (h k)
    · subst e2
      simp only [setAt_same, setAt_ne _ _ _ _ e1] at hj hk
      rcases own x hk with h | h
      · exact hI.disj _ _ _ hj h
      · exact absurd hj (h j)
    · simp only [setAt_ne _ _ _ _ e1, setAt_ne _ _ _ _ e2] at hj hk
      exact hI.disj _ _ _ hj hk
  · intro j x hx
    by_cases hj : j = i
    · subst hj; simp only [setAt_same] at hx; exact lt x hx
    · simp only [setAt_ne _ _ _ _ hj] at hx
      exact Nat.lt_of_lt_of_le (hI.lt _ _ hx) le
  · exact val

theorem insAfter_split (n m : Nat) (l : List Nat) (hm : m ∈ l) :
    ∃ A B, l = A ++ m :: B ∧ m ∉ A ∧ insAfter n m l = A ++ m :: n :: B := by
  induction l with
  | nil => simp at hm
  | cons a t ih =>
    by_cases h : a = m
    · subst h; exact ⟨[], t, rfl, by simp, by simp [insAfter]⟩
    · obtain ⟨A, B, e1, e2, e3⟩ := ih (by simpa [Ne.symm h] using hm)
      exact ⟨a :: A, B, by simp [e1], by simp [e2, Ne.symm h], by simp [insAfter, h, e3]⟩

theorem erase_split {A B : List Nat} {x : Nat} (hx : x ∉ A) : (A ++ x :: B).erase x = A ++ B := by
  rw [List.erase_append_right _ hx]; simp

/-- Inserting a node that is in no list behind `b`, the last node of `A`. -/
theorem insert_mem {h : Mem α} {i n : Nat} {A B : List Nat}
    (hs : Seg h (h (.hd i)).next (A ++ B) none) (hnd : (A ++ B).Nodup) (hn : n ∉ A ++ B) :
    let h' := setNext (setNext h (.nd n) (h (lastOr (.hd i) A)).next) (lastOr (.hd i) A) (some (.nd n))
    Seg h' (h' (.hd i)).next (A ++ n :: B) none := by
  intro h'
  obtain ⟨r, s1, s2⟩ := Seg.append.1 hs
  have hr := s1.last
  simp only [List.mem_append, not_or] at hn
  rw [List.nodup_append] at hnd
  have s1' : Seg (setNext h (.nd n) (h (lastOr (.hd i) A)).next)
      ((setNext h (.nd n) (h (lastOr (.hd i) A)).next) (.hd i)).next A r := by
    rw [setNext_ne _ _ _ _ (by simp)]
    exact s1.frame (fun x hx => by rw [setNext_ne _ _ _ _ (by intro e; cases e; exact hn.1 hx)])
  refine Seg.append.2 ⟨some (.nd n), s1'.retarget _ (by simp) hnd.1, rfl, ?_⟩
  have hl : (.nd n : Addr) ≠ lastOr (.hd i) A := (lastOr_notMem (by simp) hn.1).symm
  show Seg (setNext _ _ _) (setNext _ _ _ _).next _ _
  rw [setNext_ne _ _ _ _ hl, setNext_self, hr]
  refine s2.frame (fun x hx => ?_)
  rw [setNext_ne, setNext_ne]
  · intro e; cases e; exact hn.2 hx
  · exact (lastOr_notMem (by simp) (fun hA => hnd.2.2 x hA x hx rfl)).symm

/-- Unlinking a node. -/
theorem unlink_mem {h : Mem α} {i x : Nat} {A B : List Nat} (q : Ptr)
    (hs : Seg h (h (.hd i)).next (A ++ x :: B) none) (hnd : (A ++ x :: B).Nodup) :
    let h' := setNext (setNext h (lastOr (.hd i) A) (h (.nd x)).next) (.nd x) q
    Seg h' (h' (.hd i)).next (A ++ B) none := by
  intro h'
  obtain ⟨r, s1, rfl, s2⟩ := Seg.append.1 hs
  rw [List.nodup_append, List.nodup_cons] at hnd
  obtain ⟨n1, ⟨n2, n3⟩, n4⟩ := hnd
  have hxA : x ∉ A := fun hA => n4 x hA x (by simp) rfl
  have s3 := s1.retarget (h (.nd x)).next (by simp) n1
  refine Seg.append.2 ⟨(h (.nd x)).next, ?_, ?_⟩
  · show Seg (setNext _ _ _) (setNext _ _ _ _).next _ _
    rw [setNext_ne _ _ _ _ (by simp)]
    exact s3.frame (fun y hy => by rw [setNext_ne _ _ _ _ (by intro e; cases e; exact hxA hy)])
  · refine s2.frame (fun y hy => ?_)
    show (setNext _ _ _ _).next = _
    rw [setNext_ne, setNext_ne]
    · exact (lastOr_notMem (by simp) (fun hA => n4 y hA y (by simp [hy]) rfl)).symm
    · intro e; cases e; exact n2 hy

theorem remove_found {h : Mem α} {i x : Nat} {A B : List Nat} (fuel : Nat)
    (hs : Seg h (h (.hd i)).next (A ++ x :: B) none) (hnd : (A ++ x :: B).Nodup) (hf : A.length < fuel) :
    remove fuel h i (some (.nd x)) =
      some (setNext (setNext h (lastOr (.hd i) A) (h (.nd x)).next) (.nd x) none, some (.nd x)) := by
  have hxA : x ∉ A := by
    rw [List.nodup_append] at hnd
    exact fun hA => hnd.2.2 x hA x (by simp) rfl
  simp [remove, scanRemove_found A (.hd i) fuel hs hxA hf]

theorem lastOr_frame {i : Nat} {A : List Nat} {s : LWorld α} {w : W α} (hI : Inv s w)
    (hA : ∀ x ∈ A, x ∈ s.lists i) (j : Nat) (hj : j ≠ i) :
    Addr.hd j ≠ lastOr (.hd i) A ∧ ∀ x ∈ s.lists j, Addr.nd x ≠ lastOr (.hd i) A := by
  rcases lastOr_cases (.hd i) A with ⟨e, _⟩ | ⟨y, hy, e⟩
  · rw [e]; exact ⟨by simpa using hj, fun x _ => by simp⟩
  · rw [e]; exact ⟨by simp, fun x hx e => by cases e; exact hj (hI.disj _ _ _ hx (hA _ hy))⟩

theorem nd_frame {i x : Nat} {s : LWorld α} {w : W α} (hI : Inv s w)
    (hx : x ∈ s.lists i ∨ ∀ j, x ∉ s.lists j) (j : Nat) (hj : j ≠ i) :
    Addr.hd j ≠ .nd x ∧ ∀ y ∈ s.lists j, Addr.nd y ≠ .nd x := by
  refine ⟨by simp, fun y hy e => ?_⟩
  cases e
  rcases hx with hx | hx
  · exact hj (hI.disj _ _ _ hy hx)
  · exact hx j hy

theorem outPtr_head (l : List Nat) : (outPtr (l.head?.map .nd) : SListOut α) = .node l.head? := by
  cases l <;> rfl

theorem mem_split {x : Nat} {l : List Nat} (hx : x ∈ l) : ∃ A B, l = A ++ x :: B ∧ x ∉ A := by
  obtain ⟨A, B, e1, e2, _⟩ := insAfter_split 0 x l hx
  exact ⟨A, B, e1, e2⟩

theorem Inv.removed {s : LWorld α} {w : W α} (hI : Inv s w) (i x : Nat) (A B : List Nat)
    (e : s.lists i = A ++ x :: B) :
    Inv { s with lists := setAt s.lists i (A ++ B) }
      ⟨setNext (setNext w.mem (lastOr (.hd i) A) (w.mem (.nd x)).next) (.nd x) none, w.count⟩ := by
  have hs := hI.holds i
  have hnd := hI.nodup i
  rw [e] at hs hnd
  have := hI.update i (A ++ B) _ s.val s.count (unlink_mem none hs hnd)
    (hnd.sublist (by simp))
    (fun y hy => .inl (by rw [e]; simp only [List.mem_append, List.mem_cons] at hy ⊢; tauto))
    (fun y hy => hI.lt i y (by rw [e]; simp only [List.mem_append, List.mem_cons] at hy ⊢; tauto))
    (Nat.le_refl _)
    (fun j hj => by
      obtain ⟨f1, f2⟩ := lastOr_frame hI (i := i) (A := A) (fun y hy => by rw [e]; simp [hy]) j hj
      obtain ⟨g1, g2⟩ := nd_frame hI (i := i) (x := x) (.inl (by rw [e]; simp)) j hj
      refine ⟨by rw [setNext_ne _ _ _ _ g1, setNext_ne _ _ _ _ f1],
        fun y hy => by rw [setNext_ne _ _ _ _ (g2 y hy), setNext_ne _ _ _ _ (f2 y hy)]⟩)
    (fun y hy => by simpa using hI.val y hy)
  simpa [hI.cnt] using this

theorem newNode_ne (h : Mem α) (k : Nat) (v : α) (q : Ptr) (x : Addr) (hx : x ≠ .nd k) :
    newNode h k v q x = h x := by simp [newNode, hx]

theorem Inv.fresh {s : LWorld α} {w : W α} (hI : Inv s w) (i : Nat) : s.count ∉ s.lists i :=
  fun h => Nat.lt_irrefl _ (hI.lt i _ h)

theorem Inv.inserted {s : LWorld α} {w : W α} (hI : Inv s w) (i n : Nat) (A B : List Nat)
    (e : s.lists i = A ++ B) (hn : n < s.count) (hfree : ∀ j, n ∉ s.lists j) :
    Inv { s with lists := setAt s.lists i (A ++ n :: B) }
      ⟨setNext (setNext w.mem (.nd n) (w.mem (lastOr (.hd i) A)).next) (lastOr (.hd i) A) (some (.nd n)),
        w.count⟩ := by
  have hs := hI.holds i
  have hnd := hI.nodup i
  have hf := hfree i
  rw [e] at hs hnd hf
  have hmem : ∀ y ∈ A ++ n :: B, y = n ∨ y ∈ s.lists i := fun y hy => by
    rw [e]; simp only [List.mem_append, List.mem_cons] at hy ⊢; tauto
  have := hI.update i (A ++ n :: B) _ s.val s.count (insert_mem hs hnd hf)
    (by rw [List.nodup_middle]; exact List.nodup_cons.2 ⟨hf, hnd⟩)
    (fun y hy => by
      rcases hmem y hy with rfl | h
      · exact .inr hfree
      · exact .inl h)
    (fun y hy => by
      rcases hmem y hy with rfl | h
      · exact hn
      · exact hI.lt i y h)
    (Nat.le_refl _)
    (fun j hj => by
      obtain ⟨f1, f2⟩ := lastOr_frame hI (i := i) (A := A) (fun y hy => by rw [e]; simp [hy]) j hj
      obtain ⟨g1, g2⟩ := nd_frame hI (i := i) (x := n) (.inr hfree) j hj
      exact ⟨by rw [setNext_ne _ _ _ _ f1, setNext_ne _ _ _ _ g1],
        fun y hy => by rw [setNext_ne _ _ _ _ (f2 y hy), setNext_ne _ _ _ _ (g2 y hy)]⟩)
    (fun y hy => by simpa using hI.val y hy)
  simpa [hI.cnt] using this

/-- A created node, in no list yet. -/
theorem Inv.created {s : LWorld α} {w : W α} (hI : Inv s w) (v : α) (q : Ptr) :
    Inv ⟨s.lists, setAt s.val s.count v, s.count + 1⟩ ⟨newNode w.mem s.count v q, s.count + 1⟩ := by
  have := hI.update 0 (s.lists 0) (newNode w.mem s.count v q) (setAt s.val s.count v) (s.count + 1)
    (by
      rw [newNode_ne _ _ _ _ _ (by simp)]
      exact (hI.holds 0).frame (fun y hy => by
        rw [newNode_ne _ _ _ _ _ (by intro e; cases e; exact hI.fresh 0 hy)]))
    (hI.nodup 0) (fun y hy => .inl hy) (fun y hy => Nat.lt_succ_of_lt (hI.lt 0 y hy)) (Nat.le_succ _)
    (fun j _ => ⟨by rw [newNode_ne _ _ _ _ _ (by simp)], fun y hy => by
        rw [newNode_ne _ _ _ _ _ (by intro e; cases e; exact hI.fresh j hy)]⟩)
    (fun y hy => by
      by_cases hc : y = s.count
      · subst hc; simp [newNode, setAt]
      · rw [newNode_ne _ _ _ _ _ (by simpa using hc), setAt_ne _ _ _ _ hc]
        exact hI.val y (by omega))
  simpa [setAt_self] using this

theorem Inv.moved {s : LWorld α} {w : W α} (hI : Inv s w) (i x : Nat) (A B C D : List Nat)
    (e : s.lists i = A ++ x :: B) (e' : A ++ B = C ++ D)
    (h' : Mem α)
    (hh : h' = setNext (setNext (setNext (setNext w.mem (lastOr (.hd i) A) (w.mem (.nd x)).next) (.nd x) none)
      (.nd x) ((setNext (setNext w.mem (lastOr (.hd i) A) (w.mem (.nd x)).next) (.nd x) none)
        (lastOr (.hd i) C)).next) (lastOr (.hd i) C) (some (.nd x))) :
    Inv { s with lists := setAt s.lists i (C ++ x :: D) } ⟨h', w.count⟩ := by
  have h1 := hI.removed i x A B e
  have hnd := hI.nodup i
  rw [e, List.nodup_middle, List.nodup_cons] at hnd
  have h2 := h1.inserted i x C D (by simp [setAt_same, e'])
    (hI.lt i x (by rw [e]; simp))
    (fun j => by
      by_cases hj : j = i
      · subst hj; simp only [setAt_same]; exact hnd.1
      · simp only [setAt_ne _ _ _ _ hj]
        exact fun hx => hj (hI.disj _ _ _ hx (by rw [e]; simp)))
  subst hh
  have e3 : setAt (setAt s.lists i (A ++ B)) i (C ++ x :: D) = setAt s.lists i (C ++ x :: D) := by
    funext j; by_cases hj : j = i <;> simp [setAt, hj]
  simpa [e3] using h2

theorem setNext_twice (h : Mem α) (a : Addr) (p q : Ptr) : setNext (setNext h a p) a q = setNext h a q := by
  funext x; by_cases hx : x = a <;> simp [setNext, hx]

theorem nd_lastOr {b : Addr} {A : List Nat} {m : Nat} : lastOr b (A ++ [m]) = .nd m := lastOr_append b A m

/-- The list a call works on. -/
def opList : SListOp α → Nat
  | .pushFront i _ | .popFront i | .pushAfter i _ _ | .insertAfter i _ _ | .insertFront i _ | .removeFront i
  | .remove i _ | .moveFront i _ | .moveAfter i _ _ | .reverse i | .clear i | .front i | .tail i | .next i _ => i
  | .get _ | .set _ _ => 0

theorem step_ok (s : LWorld α) (w : W α) (hI : Inv s w) (op : SListOp α) (ha : op.allowed s) (fuel : Nat)
    (hf : (s.lists (opList op)).length + 2 ≤ fuel) :
    ∃ w', step fuel w op = .ok (some (w', (slistStep s op).2)) ∧ Inv (slistStep s op).1 w' := by
  cases op with
  | pushFront i v =>
    simp only [opList] at hf
    have h1 := (hI.created v (w.mem (.hd i)).next).inserted i s.count [] (s.lists i) rfl
      (Nat.lt_succ_self _) (fun j => hI.fresh j)
    simp only [step, pushFront, hI.cnt, Res.pure_eq]
    refine ⟨_, rfl, ?_⟩
    have e : setNext (setNext (newNode w.mem s.count v (w.mem (.hd i)).next) (.nd s.count)
        ((newNode w.mem s.count v (w.mem (.hd i)).next) (.hd i)).next) (.hd i) (some (.nd s.count)) =
        setNext (newNode w.mem s.count v (w.mem (.hd i)).next) (.hd i) (some (.nd s.count)) := by
      congr 1
      funext x
      by_cases hx : x = .nd s.count
      · subst hx; simp [setNext, newNode]
      · simp [setNext, newNode, hx]
    simp only [lastOr, e] at h1
    simpa [slistStep] using h1
  | popFront i =>
    simp only [opList] at hf
    have hs := hI.holds i
    have hnd := hI.nodup i
    cases e : s.lists i with
    | nil =>
      rw [e] at hs
      have : (w.mem (.hd i)).next = none := hs
      exact ⟨w, by simp [step, popFront, front, this, remove, slistStep, e], by simpa [slistStep, e] using hI⟩
    | cons a t =>
      rw [e] at hs hnd
      have hr := remove_found (A := []) fuel hs hnd (by simp; omega)
      have h1 := hI.removed i a [] t e
      have hfr : front w.mem i = some (.nd a) := hs.1
      have hv := hI.val a (hI.lt i a (by simp [e]))
      refine ⟨_, by simp only [step, popFront, hfr, hr, Res.pure_eq, Option.map_some, slistStep, e,
        List.head?_cons, List.tail_cons, setNext_val, hv]; rfl, ?_⟩
      simpa [slistStep, e] using h1
  | pushAfter i v m =>
    simp only [opList] at hf
    obtain ⟨A, B, e1, e2, e3⟩ := insAfter_split s.count m (s.lists i) ha
    have h1 := (hI.created v (w.mem (.nd m)).next).inserted i s.count (A ++ [m]) B
      (by simpa using e1) (Nat.lt_succ_self _) (fun j => hI.fresh j)
    have hne : s.count ≠ m := fun e => hI.fresh i (e ▸ ha)
    simp only [nd_lastOr] at h1
    refine ⟨_, by simp only [step, pushAfter, hI.cnt, insertAfter, Res.pure_eq]; rw [if_pos (by simpa using hne)]; rfl, ?_⟩
    simpa [slistStep, e3] using h1
  | insertAfter i x m =>
    simp only [opList] at hf
    obtain ⟨hm, hx, hfree⟩ := ha
    obtain ⟨A, B, e1, e2, e3⟩ := insAfter_split x m (s.lists i) hm
    have h1 := hI.inserted i x (A ++ [m]) B (by simpa using e1) hx hfree
    have hne : x ≠ m := fun e => hfree i (e ▸ hm)
    simp only [nd_lastOr] at h1
    refine ⟨_, by simp only [step, insertAfter, Res.pure_eq]; rw [if_pos (by simpa using hne)]; rfl, ?_⟩
    simpa [slistStep, e3] using h1
  | insertFront i x =>
    simp only [opList] at hf
    obtain ⟨hx, hfree⟩ := ha
    have h1 := hI.inserted i x [] (s.lists i) rfl hx hfree
    refine ⟨_, by simp only [step, insertFront, insertAfter, Res.pure_eq]; rw [if_pos (by simp)]; rfl, ?_⟩
    simpa [slistStep, lastOr] using h1
  | removeFront i =>
    simp only [opList] at hf
    have hs := hI.holds i
    have hnd := hI.nodup i
    cases e : s.lists i with
    | nil =>
      rw [e] at hs
      have : (w.mem (.hd i)).next = none := hs
      refine ⟨w, by simp [step, removeFront, this, remove, slistStep, e, outPtr], ?_⟩
      have : setAt s.lists i [] = s.lists := by rw [← e]; exact setAt_self _ _
      simpa [slistStep, e, this] using hI
    | cons a t =>
      rw [e] at hs hnd
      have hr := remove_found (A := []) fuel hs hnd (by simp; omega)
      have h1 := hI.removed i a [] t e
      have hfr : (w.mem (.hd i)).next = some (.nd a) := hs.1
      refine ⟨_, by simp only [step, removeFront, hfr, hr, Res.pure_eq, Option.map_some, slistStep, e, outPtr,
        List.head?_cons]; rfl, ?_⟩
      simpa [slistStep, e] using h1
  | remove i x =>
    simp only [opList] at hf
    have hs := hI.holds i
    have hnd := hI.nodup i
    by_cases hx : x ∈ s.lists i
    · obtain ⟨A, B, e, hxA⟩ := mem_split hx
      have h1 := hI.removed i x A B e
      rw [e] at hs hnd hf
      have hr := remove_found fuel hs hnd (by simp at hf; omega)
      refine ⟨_, by simp only [step, hr, Res.pure_eq, Option.map_some, slistStep, if_pos hx, outPtr]; rfl, ?_⟩
      simp only [slistStep, if_pos hx]
      rw [e, erase_split hxA]; exact h1
    · refine ⟨w, ?_, by simpa [slistStep, hx] using hI⟩
      simp [step, remove, scanRemove_absent _ (.hd i) fuel hs hx (by omega), slistStep, hx, outPtr]
  | moveFront i x =>
    simp only [opList] at hf
    have hs := hI.holds i
    have hnd := hI.nodup i
    cases e : s.lists i with
    | nil =>
      rw [e] at hs
      have : (w.mem (.hd i)).next = none := hs
      obtain ⟨f, rfl⟩ : ∃ f, fuel = f + 1 := ⟨fuel - 1, by omega⟩
      exact ⟨w, by simp [step, moveFront, this, scanMove, slistStep, e, outPtr], by simpa [slistStep, e] using hI⟩
    | cons a t =>
      rw [e] at hs hnd hf
      rw [List.nodup_cons] at hnd
      by_cases hx : x ∈ t
      · obtain ⟨A, B, rfl, hxA⟩ := mem_split hx
        have hax : a ≠ x := fun h => hnd.1 (h ▸ hx)
        have hsc := scanMove_found (h := w.mem) (x := x) (B := B) A (.nd a) fuel hs.2 hxA (by simp at hf; omega)
        have h1 := hI.moved i x (a :: A) B [] (a :: A ++ B) (by simpa using e) rfl _ rfl
        have hb : lastOr (.hd i) (a :: A) = lastOr (.nd a) A := rfl
        have hbx : lastOr (.nd a) A ≠ .nd x := lastOr_notMem (by simpa using hax) hxA
        have hbi : lastOr (.nd a) A ≠ .hd i := by
          rcases lastOr_cases (.nd a) A with ⟨h, _⟩ | ⟨y, _, h⟩ <;> rw [h] <;> simp
        refine ⟨_, by simp only [step, moveFront, hs.1, hsc, Res.pure_eq, Option.map_some, slistStep, e, List.tail_cons,
          if_pos hx, outPtr]; rfl, ?_⟩
        simp only [slistStep, e, List.tail_cons, if_pos hx]
        rw [← List.cons_append, erase_split (by simp [hxA, Ne.symm hax])]
        simp only [lastOr, List.nil_append] at h1
        rw [setNext_twice] at h1
        convert h1 using 4
        rw [setNext_ne _ (.nd x) (.hd i) _ (by simp)]
      · refine ⟨w, ?_, by simpa [slistStep, e, hx] using hI⟩
        simp [step, moveFront, hs.1, scanMove_absent t (.nd a) fuel hs.2 hx (by simp at hf; omega), slistStep, e,
          hx, outPtr]
  | moveAfter i x m =>
    simp only [opList] at hf
    have hs := hI.holds i
    have hnd := hI.nodup i
    have hm : m ∈ s.lists i := ha
    by_cases hxm : x = m
    · subst hxm
      exact ⟨w, by simp [step, moveAfter, slistStep, outPtr], by simpa [slistStep] using hI⟩
    by_cases hx : x ∈ s.lists i
    · obtain ⟨A, B, e, hxA⟩ := mem_split hx
      have hs' := hs
      rw [e] at hs'
      have hnd' := hnd
      rw [e] at hnd'
      have hsc := scanMove_found (h := w.mem) (x := x) (B := B) A (.hd i) fuel hs' hxA
        (by rw [e] at hf; simp at hf; omega)
      by_cases hadj : lastOr (.hd i) A = .nd m
      · -- already behind the mark
        have hin : [m, x] <:+: s.lists i := by
          rcases List.eq_nil_or_concat A with rfl | ⟨A', z, rfl⟩
          · cases hadj
          · rw [List.concat_eq_append, nd_lastOr] at hadj
            cases hadj
            exact ⟨A', B, by rw [e]; simp⟩
        refine ⟨w, ?_, by simpa [slistStep, hin] using hI⟩
        simp [step, moveAfter, hxm, hsc, hadj, slistStep, hin, outPtr]
      · have hin : ¬ [m, x] <:+: s.lists i := by
          rintro ⟨P, Q, h⟩
          have h' : (P ++ [m]) ++ x :: Q = A ++ x :: B := by rw [← e, ← h]; simp
          have hxP : x ∉ P ++ [m] := by
            have := hnd; rw [← h] at this
            have h2 : ((P ++ [m]) ++ x :: Q).Nodup := by simpa using this
            rw [List.nodup_append] at h2
            exact fun hA => h2.2.2 x hA x (by simp) rfl
          have : P ++ [m] = A := by
            have := congrArg (List.takeWhile (· ≠ x)) h'
            rwa [List.takeWhile_append_of_pos (by intro y hy; simp; rintro rfl; exact hxP hy),
              List.takeWhile_append_of_pos (by intro y hy; simp; rintro rfl; exact hxA hy),
              List.takeWhile_cons_of_neg (by simp), List.append_nil, List.takeWhile_cons_of_neg (by simp),
              List.append_nil] at this
          exact hadj (by rw [← this, nd_lastOr])
        have hm' : m ∈ A ++ B := by
          rw [e] at hm; simp only [List.mem_append, List.mem_cons] at hm ⊢
          rcases hm with h | h | h
          · exact .inl h
          · exact absurd h.symm hxm
          · exact .inr h
        obtain ⟨C, D, e1, e2, e3⟩ := insAfter_split x m (A ++ B) hm'
        have h1 := hI.moved i x A B (C ++ [m]) D e (by simpa using e1) _ rfl
        simp only [nd_lastOr] at h1
        rw [setNext_twice] at h1
        have hc : x ∈ s.lists i ∧ x ≠ m ∧ ¬ [m, x] <:+: s.lists i := ⟨hx, hxm, hin⟩
        have hmx : Addr.nd m ≠ .nd x := by simpa using Ne.symm hxm
        refine ⟨_, by simp only [step, moveAfter]; rw [if_pos (by simpa using hxm)]; simp only [hsc]; rw [if_pos hadj]; simp only [Res.pure_eq, Option.map_some, slistStep, if_pos hc, outPtr]; rfl, ?_⟩
        simp only [slistStep, if_pos hc]
        rw [e, erase_split hxA, e3]
        rw [setNext_ne _ (.nd x) (.nd m) _ hmx] at h1
        simpa using h1
    · refine ⟨w, ?_, by simpa [slistStep, hx] using hI⟩
      simp [step, moveAfter, hxm, scanMove_absent _ (.hd i) fuel hs hx (by omega), slistStep, hx, outPtr]
  | reverse i =>
    simp only [opList] at hf
    have hs := hI.holds i
    obtain ⟨h', e1, e2, e3, e4⟩ := reverseLoop_ok (l := i) (s.lists i) [] (clear w.mem i) (w.mem (.hd i)).next fuel
      (hs.frame (fun x _ => by unfold clear; rw [setNext_ne _ _ _ _ (by simp)]))
      (by simp [clear, Seg]) (by simpa using hI.nodup i) (by omega)
    refine ⟨⟨h', w.count⟩, by simp [step, reverse, e1, slistStep], ?_⟩
    have := hI.update i (s.lists i).reverse h' s.val s.count (by simpa using e2)
      (List.nodup_reverse.2 (hI.nodup i)) (fun x hx => .inl (by simpa using hx))
      (fun x hx => hI.lt i x (by simpa using hx)) (Nat.le_refl _)
      (fun j hj => by
        refine ⟨?_, fun x hx => ?_⟩
        · rw [e4 _ (by simpa using hj) (by simp), clear, setNext_ne _ _ _ _ (by simpa using hj)]
        · rw [e4 _ (by simp) (fun a haa e => by cases e; exact hj (hI.disj _ _ _ hx haa)), clear,
            setNext_ne _ _ _ _ (by simp)])
      (fun x hx => by rw [e3]; simpa [clear] using hI.val x hx)
    simpa [slistStep, hI.cnt] using this
  | clear i =>
    refine ⟨⟨clear w.mem i, w.count⟩, rfl, ?_⟩
    have := hI.update i [] (clear w.mem i) s.val s.count (by simp [clear, Seg]) List.nodup_nil
      (by simp) (by simp) (Nat.le_refl _)
      (fun j hj => ⟨by rw [clear, setNext_ne _ _ _ _ (by simpa using hj)],
        fun x _ => by rw [clear, setNext_ne _ _ _ _ (by simp)]⟩)
      (fun x hx => by simpa [clear] using hI.val x hx)
    simpa [slistStep, hI.cnt] using this
  | front i =>
    refine ⟨w, ?_, hI⟩
    simp [step, front, (hI.holds i).head?, slistStep, outPtr_head]
  | tail i =>
    simp only [opList] at hf; refine ⟨w, ?_, hI⟩
    have hs := hI.holds i
    cases e : s.lists i with
    | nil =>
      rw [e] at hs
      have : (w.mem (.hd i)).next = none := hs
      simp [step, front, this, tail, slistStep, e, outLast]
    | cons a t =>
      rw [e] at hs hf
      have := tailLoop_ok t (.nd a) fuel 1 hs.2 (by simp at hf; omega)
      have hl : lastOr (.nd a) t = .nd ((a :: t).getLast (by simp)) := by
        clear * -
        induction t generalizing a with
        | nil => rfl
        | cons b t ih => rw [List.getLast_cons (by simp)]; exact ih b
      simp [step, front, hs.1, tail, this, hl, slistStep, e, outLast, List.getLast?_eq_some_getLast]
      omega
  | get x =>
    refine ⟨w, ?_, hI⟩
    simp [step, get, slistStep, hI.val x ha]
  | set x v =>
    simp only [opList] at hf
    have hx : x < s.count := ha
    refine ⟨_, by simp only [step, setVal, Res.bind_ok, Res.pure_eq, slistStep, hI.val x hx]; rfl, ?_⟩
    have hn : ∀ y, ((fun y => if y = Addr.nd x then { w.mem (.nd x) with val := v } else w.mem y) y).next =
        (w.mem y).next := by
      intro y; by_cases hy : y = .nd x <;> simp [hy]
    constructor
    · exact hI.cnt
    · intro i
      show Seg _ (_ : Ptr) (s.lists i) none
      rw [hn]
      exact (hI.holds i).frame (fun y _ => hn _)
    · exact hI.nodup
    · exact hI.disj
    · exact hI.lt
    · intro y hy
      by_cases h : y = x
      · subst h; simp [slistStep, setAt]
      · simp only [slistStep, setAt_ne _ _ _ _ h, Addr.nd.injEq, h, if_false]; exact hI.val y hy
  | next i x =>
    refine ⟨w, ?_, hI⟩
    obtain ⟨A, B, e, hxA⟩ := mem_split (show x ∈ s.lists i from ha)
    have hs := hI.holds i
    rw [e] at hs
    obtain ⟨r, _, _, s2⟩ := Seg.append.1 hs
    have h1 := s2.head?
    have h2 : (A ++ x :: B)[(A ++ x :: B).idxOf x + 1]? = B.head? := by
      rw [List.idxOf_append_of_notMem hxA, List.getElem?_append_right (by omega)]; simp [List.head?_eq_getElem?]
    simp only [step, nodeNext, h1, outPtr_head, slistStep, e, h2, Res.pure_eq]

theorem run_ok (ops : List (SListOp α)) : ∀ (s : LWorld α), SListHistory s ops →
    ∃ F, ∀ fuel, F ≤ fuel → ∀ w, Inv s w → ∃ w', run fuel w ops = .ok (some (w', (runSpec slistStep s ops).2)) ∧
      Inv (runSpec slistStep s ops).1 w' := by
  induction ops with
  | nil => intro s _; exact ⟨0, fun fuel _ w hI => ⟨w, rfl, hI⟩⟩
  | cons op ops ih =>
    intro s hh
    obtain ⟨F, h2⟩ := ih _ hh.2
    refine ⟨max F ((s.lists (opList op)).length + 2), fun fuel hF w hI => ?_⟩
    obtain ⟨w1, e1, i1⟩ := step_ok s w hI op hh.1 fuel (by omega)
    obtain ⟨w2, e2, i2⟩ := h2 fuel (by omega) w1 i1
    exact ⟨w2, by simp [run, e1, e2, runSpec], i2⟩

theorem Inv.init : Inv (LWorld.init : LWorld α) (W.init : W α) := by
  constructor <;> simp [LWorld.init, W.init, Seg]

theorem follow {h : Mem α} {l : List Nat} {p : Ptr} (hs : Seg h p l none) (k : Nat) :
    (nodeNext h)^[k] p = l[k]?.map .nd := by
  induction l generalizing p k with
  | nil =>
    have : p = none := hs
    subst this
    induction k with
    | zero => rfl
    | succ k ih => rw [Function.iterate_succ_apply]; simpa [nodeNext] using ih
  | cons a t ih =>
    obtain ⟨rfl, hs⟩ := hs
    cases k with
    | zero => rfl
    | succ k =>
      rw [Function.iterate_succ_apply]
      simpa [nodeNext] using ih hs k

/-- C26.  Every history of allowed calls on any number of singly linked lists terminates without panic (for
every large enough fuel), returns exactly what the specification returns, and afterwards `Front` followed by
`k` times `Next` reaches the `k`-th node of the sequence, or nil behind its end: the chain is finite and
acyclic; the values are those of the specification. -/
theorem C26_slist_history (ops : List (SListOp α)) (hh : SListHistory LWorld.init ops) :
    ∃ F, ∀ fuel, F ≤ fuel → ∃ w, run fuel W.init ops = .ok (some (w, (runSpec slistStep LWorld.init ops).2)) ∧
      (∀ i k, (nodeNext w.mem)^[k] (front w.mem i) = ((runSpec slistStep LWorld.init ops).1.lists i)[k]?.map .nd) ∧
      (∀ i, ((runSpec slistStep LWorld.init ops).1.lists i).Nodup) ∧
      ∀ i, ∀ x ∈ (runSpec slistStep LWorld.init ops).1.lists i,
        get w.mem (some (.nd x)) = .ok ((runSpec slistStep LWorld.init ops).1.val x) := by
  obtain ⟨F, h⟩ := run_ok ops LWorld.init hh
  refine ⟨F, fun fuel hF => ?_⟩
  obtain ⟨w, e, i⟩ := h fuel hF W.init Inv.init
  exact ⟨w, e, fun j k => follow (i.holds j) k, i.nodup, fun j x hx => by simp [get, i.val x (i.lt j x hx)]⟩

theorem step_other (s : LWorld α) (op : SListOp α) (j : Nat) (hj : j ≠ opList op) :
    (slistStep s op).1.lists j = s.lists j := by
  cases op <;> simp only [slistStep, opList] at * <;> (try split) <;> simp [setAt, hj]

/-- A history with every kind of call that changes a list. -/
def sampleOps : List (SListOp Int) :=
  [.pushFront 0 10, .pushFront 0 11, .pushAfter 0 12 1, .moveFront 0 0, .moveAfter 0 0 2, .reverse 0,
    .remove 0 1, .insertAfter 0 1 2, .pushFront 1 5, .removeFront 1, .insertFront 0 3, .popFront 0, .tail 0,
    .next 0 1, .set 2 7, .get 2, .clear 0, .front 0]

example : SListHistory (LWorld.init : LWorld Int) sampleOps := by
  have hl : ∀ (f : Nat → List Nat) (x : Nat), (∀ j, j ≤ 1 → x ∉ f j) → (∀ j, 1 < j → f j = []) →
      ∀ j, x ∉ f j := by
    intro f x h1 h2 j
    by_cases hj : j ≤ 1
    · exact h1 j hj
    · rw [h2 j (by omega)]; simp
  refine ⟨trivial, trivial, (by decide : 1 ∈ _), trivial, (by decide : 2 ∈ _), trivial, trivial,
    ⟨by decide, by decide, ?_⟩, trivial, trivial, ⟨by decide, ?_⟩, trivial, trivial, (by decide : 1 ∈ _),
    (by decide : 2 < _), (by decide : 2 < _), trivial, trivial, trivial⟩
  all_goals
    refine hl _ _ (by decide) (fun j hj => ?_)
    have h0 : j ≠ 0 := by omega
    have h1 : j ≠ 1 := by omega
    repeat rw [step_other _ _ _ (by first | exact h0 | exact h1)]
    rfl

example : (runSpec slistStep (LWorld.init : LWorld Int) (sampleOps.take 13)).2.getLast? =
    some (.last (some 1) 3) := by decide

/-! ## C27 -/

/-- C27, the part that fails: `Empty` is inverted on every list. -/
theorem C27_empty_inverted {h : Mem α} {i : Nat} {l : List Nat}
    (hl : ∀ k, (nodeNext h)^[k] (front h i) = l[k]?.map .nd) : empty h i = !l.isEmpty := by
  have h0 : front h i = l[0]?.map .nd := hl 0
  cases l <;> simp_all [empty, front]

/-- C27, the part that fails: `Len` is 0 for every list object in every memory. -/
theorem C27_len_zero (h : Mem α) (i fuel : Nat) : len (fuel + 1) h i = some 0 := by
  simp [len, lenLoop, vNext, visitor]

/-- C27, the part that fails: the visitor's `Next` always returns false, so a loop `for v.Next()` never runs
its body. -/
theorem C27_next_false (h : Mem α) (v : Visitor) : (vNext h v).2 = false := by
  cases e : v.node <;> simp [vNext, e]

/-- C27, the part that holds (missing: `Len`, `Empty` and the boolean of `Next`): ignoring its result, the
`m`-th call of `Next` leaves the visitor at the `m`-th node; after the last node one call leaves it at no
node, then it starts again. -/
theorem C27_visitor_partial {h : Mem α} {i : Nat} {l : List Nat} (hs : Seg h (front h i) l none) (m : Nat) :
    ((fun v => (vNext h v).1)^[m] (visitor h i)).node =
      if m % (l.length + 1) = 0 then none else l[m % (l.length + 1) - 1]?.map .nd := by
  have hh : ∀ m, ((fun v => (vNext h v).1)^[m] (visitor h i)).head = front h i := by
    intro m
    induction m with
    | zero => rfl
    | succ m ih =>
      rw [Function.iterate_succ_apply']
      generalize (fun v => (vNext h v).1)^[m] (visitor h i) = v at *
      rw [← ih]
      show (vNext h v).1.head = v.head
      cases e : v.node with
      | none => simp only [vNext, e]; split <;> rfl
      | some a => simp only [vNext, e]
  induction m with
  | zero => simp [visitor]
  | succ m ih =>
    rw [Function.iterate_succ_apply']
    have hm : m % (l.length + 1) < l.length + 1 := Nat.mod_lt _ (by omega)
    have hsucc : (m + 1) % (l.length + 1) = if m % (l.length + 1) = l.length then 0 else m % (l.length + 1) + 1 := by
      rw [Nat.add_mod]
      by_cases h1 : l.length = 0
      · simp [h1, Nat.mod_one]
      · rw [Nat.mod_eq_of_lt (show 1 < l.length + 1 by omega)]
        split
        · rename_i e; rw [e]; simp
        · exact Nat.mod_eq_of_lt (by omega)
    have hh := hh m
    generalize hr : m % (l.length + 1) = r at *
    generalize (fun v => (vNext h v).1)^[m] (visitor h i) = v at *
    rw [hsucc]
    show (vNext h v).1.node = _
    by_cases h0 : r = 0
    · rw [if_pos h0] at ih
      simp only [vNext, ih, hh]
      have h1 := hs.head?
      cases l with
      | nil => simp [h0, h1, ih]
      | cons a t => simp [h0, h1]
    · rw [if_neg h0] at ih
      have hlt : r - 1 < l.length := by omega
      rw [List.getElem?_eq_getElem hlt] at ih
      simp only [Option.map_some] at ih
      simp only [vNext, ih]
      have f1 := follow hs (r - 1)
      have f2 := follow hs (r - 1 + 1)
      rw [Function.iterate_succ_apply', f1, List.getElem?_eq_getElem hlt] at f2
      simp only [Option.map_some, nodeNext] at f2
      rw [f2, show r - 1 + 1 = r by omega]
      split
      · rename_i e; simp [e]
      · simp

/-- A memory with a two-node list 0 to which the statements apply. -/
def sampleMem : Mem Int := fun a =>
  if a = .hd 0 then ⟨0, some (.nd 4)⟩ else if a = .nd 4 then ⟨1, some (.nd 2)⟩ else ⟨2, none⟩

example : Seg sampleMem (front sampleMem 0) [4, 2] none := by decide
example : empty sampleMem 0 = true ∧ len 9 sampleMem 0 = some 0 := by decide
example : ((fun v => (vNext sampleMem v).1)^[2] (visitor sampleMem 0)).node = some (.nd 2) := by decide

example := C27_empty_inverted (h := sampleMem) (i := 0) (l := [4, 2])
  (follow (show Seg sampleMem (front sampleMem 0) [4, 2] none by decide))

end Verif.SList
