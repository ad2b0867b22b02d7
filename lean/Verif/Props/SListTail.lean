import Verif.Model.SListTail
import Verif.Spec.SListTailWorld
import Verif.Props.SList
/-!
# Property C95: the singly linked list with a tail pointer
-/

set_option linter.unusedSectionVars false

namespace Verif.SListTail
open Verif.SList
open Verif.Spec
variable {α : Type} [Inhabited α]

/-- A program state. -/
structure TW (α : Type) where
  s : TM α
  count : Nat

/-- The state without the tails. -/
def TW.w (w : TW α) : W α := ⟨w.s.mem, w.count⟩

/-- A new state of the memory; the tails stay. -/
def TW.put (w : TW α) (v : W α) : TW α := ⟨⟨v.mem, w.s.tail⟩, v.count⟩

/-- Run one call.  The calls without a `GOGP_HasTail` part are those of the plain list. -/
def step (fuel : Nat) (w : TW α) : TListOp α → Res (Option (TW α × SListOut α))
  | .base (.pushFront i v) =>
    let (s, n) := pushFront w.s i w.count v
    return some (⟨s, w.count + 1⟩, outPtr n)
  | .base (.moveFront i x) =>
    return (moveFront fuel w.s i (some (.nd x))).map fun (s, n) => (⟨s, w.count⟩, outPtr n)
  | .base (.moveAfter i x m) =>
    return (moveAfter fuel w.s i (some (.nd x)) (some (.nd m))).map fun (s, n) => (⟨s, w.count⟩, outPtr n)
  | .base (.reverse i) => return (reverse fuel w.s i).map fun s => (⟨s, w.count⟩, .unit)
  | .base (.clear i) => return some (⟨clear w.s i, w.count⟩, .unit)
  | .base op => do
    let r ← SList.step fuel w.w op
    return r.map fun (v, o) => (w.put v, o)
  | .pushBack i v =>
    let (s, n) := pushBack w.s i w.count v
    return some (⟨s, w.count + 1⟩, outPtr n)
  | .popBack i => return (popBack fuel w.s i).map fun (s, v, ok) => (⟨s, w.count⟩, .val v ok)
  | .back i => return some (w, outPtr (back w.s i))
  | .moveBack i x => do
    let r ← moveBack fuel w.s i (some (.nd x))
    return r.map fun (s, n) => (⟨s, w.count⟩, outPtr n)
  | .pushBackList i j => return some (⟨pushBackList w.s i j, w.count⟩, .unit)

/-- Run a history. -/
def run (fuel : Nat) (w : TW α) : List (TListOp α) → Res (Option (TW α × List (SListOut α)))
  | [] => return some (w, [])
  | op :: ops => do
    match ← step fuel w op with
    | none => return none
    | some (w, o) =>
      match ← run fuel w ops with
      | none => return none
      | some (w, os) => return some (w, o :: os)

/-- The empty program state: every list object is the zero value. -/
def TW.init : TW α := ⟨⟨fun _ => ⟨default, none⟩, fun _ => none⟩, 0⟩

/-- The last node of a list. -/
def lastPtr (l : List Nat) : Ptr := l.getLast?.map .nd

/-- The program state represents the client's view. -/
structure TInv (s : LWorld α) (w : TW α) : Prop where
  inv : Inv s w.w
  tl : ∀ i, w.s.tail i = lastPtr (s.lists i)

theorem TInv.mem {s : LWorld α} {w : TW α} (h : TInv s w) (i : Nat) :
    Seg w.s.mem (w.s.mem (.hd i)).next (s.lists i) none := h.inv.holds i

theorem lastPtr_append (A : List Nat) (x : Nat) (B : List Nat) :
    lastPtr (A ++ x :: B) = lastPtr (x :: B) := by
  simp [lastPtr, List.getLast?_append, List.getLast?_cons]

theorem lastOr_eq (b : Addr) (l : List Nat) : some (lastOr b l) = (lastPtr l).or (some b) := by
  induction l generalizing b with
  | nil => rfl
  | cons a t ih =>
    rw [lastOr, ih]
    cases t with
    | nil => rfl
    | cons c t => rw [show a :: c :: t = [a] ++ c :: t from rfl, lastPtr_append]; simp [lastPtr, List.getLast?_cons]

theorem lastPtr_single (x : Nat) : lastPtr [x] = some (.nd x) := rfl

theorem lastPtr_none {l : List Nat} : lastPtr l = none ↔ l = [] := by simp [lastPtr]

theorem lastPtr_mem {l : List Nat} {x : Nat} (h : lastPtr l = some (.nd x)) : x ∈ l := by
  simp only [lastPtr, Option.map_eq_some_iff] at h
  obtain ⟨y, h1, h2⟩ := h
  cases h2
  exact List.mem_of_getLast? h1

theorem lastPtr_iff {l : List Nat} {x : Nat} : lastPtr l = some (.nd x) ↔ l.getLast? = some x := by
  simp [lastPtr]

theorem lastPtr_cons {x : Nat} {l : List Nat} (h : l ≠ []) : lastPtr (x :: l) = lastPtr l := by
  cases l with
  | nil => exact absurd rfl h
  | cons a t => exact lastPtr_append [x] a t

theorem lastPtr_insAfter {n m : Nat} {l : List Nat} (hm : m ∈ l) (hl : l.getLast? ≠ some m) :
    lastPtr (insAfter n m l) = lastPtr l := by
  obtain ⟨A, B, e1, -, e3⟩ := insAfter_split n m l hm
  cases B with
  | nil => rw [e1] at hl; simp at hl
  | cons b B =>
    rw [e3, e1, show A ++ m :: n :: b :: B = (A ++ [m, n]) ++ b :: B by simp,
      show A ++ m :: b :: B = (A ++ [m]) ++ b :: B by simp, lastPtr_append, lastPtr_append]

theorem tl_set {s : LWorld α} {w : TW α} (h : TInv s w) (i : Nat) (l : List Nat) (j : Nat) :
    setAt w.s.tail i (lastPtr l) j = lastPtr (setAt s.lists i l j) := by
  by_cases hj : j = i
  · subst hj; simp [setAt]
  · simp [setAt, hj, h.tl j]

theorem tl_same {s : LWorld α} {w : TW α} (h : TInv s w) (i : Nat) (l : List Nat) (j : Nat)
    (hl : lastPtr l = lastPtr (s.lists i)) : w.s.tail j = lastPtr (setAt s.lists i l j) := by
  by_cases hj : j = i
  · subst hj; simp [setAt, h.tl, hl]
  · simp [setAt, hj, h.tl j]

/-- The list a call works on (for `PushBackList` the length does not matter). -/
def topList : TListOp α → Nat
  | .base op => opList op
  | .pushBack i _ | .popBack i | .back i | .moveBack i _ | .pushBackList i _ => i

/-- Calls that leave the tails: the result is that of the plain list. -/
theorem TInv.plain {s : LWorld α} {w : TW α} (h : TInv s w) (op : SListOp α) (ha : op.allowed s) (fuel : Nat)
    (hf : (s.lists (opList op)).length + 2 ≤ fuel)
    (hstep : step fuel w (.base op) = do
      let r ← SList.step fuel w.w op
      return r.map fun (v, o) => (w.put v, o))
    (htl : lastPtr ((slistStep s op).1.lists (opList op)) = lastPtr (s.lists (opList op))) :
    ∃ w', step fuel w (.base op) = .ok (some (w', (slistStep s op).2)) ∧ TInv (slistStep s op).1 w' := by
  obtain ⟨v, e, i⟩ := step_ok s w.w h.inv op ha fuel hf
  refine ⟨w.put v, by rw [hstep, e]; rfl, i, fun j => ?_⟩
  show w.s.tail j = _
  rw [h.tl]
  by_cases hj : j = opList op
  · subst hj; exact htl.symm
  · rw [step_other s op j hj]

theorem getLast?_ne_append {A B : List Nat} {x : Nat} (hnd : (A ++ x :: B).Nodup) (hB : B ≠ []) :
    (A ++ x :: B).getLast? ≠ some x := by
  intro h
  cases B with
  | nil => exact hB rfl
  | cons b B =>
    rw [List.getLast?_append_of_ne_nil _ (by simp), List.getLast?_cons_cons] at h
    have := List.mem_of_getLast? h
    rw [List.nodup_append, List.nodup_cons] at hnd
    exact hnd.2.1.1 this

theorem base_ok (s : LWorld α) (w : TW α) (h : TInv s w) (op : SListOp α) (ha : op.allowed s)
    (hsafe : (TListOp.base op).safe s) (fuel : Nat) (hf : (s.lists (opList op)).length + 2 ≤ fuel) :
    ∃ w', step fuel w (.base op) = .ok (some (w', (slistStep s op).2)) ∧ TInv (slistStep s op).1 w' := by
  cases op with
  | pushFront i v =>
    obtain ⟨u, e, hi⟩ := step_ok s w.w h.inv (.pushFront i v) ha fuel hf
    simp only [SList.step, Res.pure_eq, Res.ok.injEq, Option.some.injEq, Prod.mk.injEq] at e
    refine ⟨⟨(pushFront w.s i w.count v).1, w.count + 1⟩, ?_, ?_, fun j => ?_⟩
    · simp only [step, Res.pure_eq, ← e.2]; rfl
    · obtain ⟨rfl, -⟩ := e; exact hi
    · simp only [pushFront, slistStep]
      have hc : w.count = s.count := h.inv.cnt
      by_cases ht : s.lists i = []
      · rw [if_pos (by rw [h.tl, ht]; rfl), hc, ← lastPtr_single, tl_set h, ht]
      · rw [if_neg (by rw [h.tl, lastPtr_none]; exact ht)]
        exact tl_same h i _ j (lastPtr_cons ht)
  | popFront i =>
    refine h.plain _ ha fuel hf rfl ?_
    simp only [TListOp.safe] at hsafe
    simp only [slistStep, opList]
    cases e : s.lists i with
    | nil => simp [e]
    | cons a t =>
      simp only [List.head?_cons, setAt_same, List.tail_cons]
      rw [lastPtr_cons]; rintro rfl; simp [e] at hsafe
  | removeFront i =>
    refine h.plain _ ha fuel hf rfl ?_
    simp only [TListOp.safe] at hsafe
    simp only [slistStep, opList, setAt_same]
    cases e : s.lists i with
    | nil => simp
    | cons a t =>
      rw [List.tail_cons, lastPtr_cons]; rintro rfl; simp [e] at hsafe
  | remove i x =>
    refine h.plain _ ha fuel hf rfl ?_
    simp only [TListOp.safe] at hsafe
    simp only [slistStep, opList]
    split
    · rename_i hx
      obtain ⟨A, B, e, hxA⟩ := mem_split hx
      simp only [setAt_same]
      rw [e, erase_split hxA]
      cases B with
      | nil => rw [e] at hsafe; simp at hsafe
      | cons b B =>
        rw [show A ++ x :: b :: B = (A ++ [x]) ++ b :: B by simp, lastPtr_append, lastPtr_append]
    · rfl
  | pushAfter i v m =>
    refine h.plain _ ha fuel hf rfl ?_
    simp only [slistStep, opList, setAt_same]
    exact lastPtr_insAfter ha hsafe
  | insertAfter i x m =>
    refine h.plain _ ha fuel hf rfl ?_
    simp only [slistStep, opList, setAt_same]
    exact lastPtr_insAfter ha.1 hsafe
  | insertFront i x =>
    refine h.plain _ ha fuel hf rfl ?_
    simp only [slistStep, opList, setAt_same]
    exact lastPtr_cons hsafe
  | front i => exact h.plain _ ha fuel hf rfl rfl
  | tail i => exact h.plain _ ha fuel hf rfl rfl
  | get x => exact h.plain _ ha fuel hf rfl rfl
  | set x v => exact h.plain _ ha fuel hf rfl rfl
  | next i x => exact h.plain _ ha fuel hf rfl rfl
  | clear i =>
    obtain ⟨u, e, hi⟩ := step_ok s w.w h.inv (.clear i) ha fuel hf
    simp only [SList.step, Res.pure_eq, Res.ok.injEq, Option.some.injEq, Prod.mk.injEq] at e
    refine ⟨⟨clear w.s i, w.count⟩, rfl, ?_, fun j => ?_⟩
    · obtain ⟨rfl, -⟩ := e; exact hi
    · exact tl_set h i [] j
  | reverse i =>
    obtain ⟨u, e, hi⟩ := step_ok s w.w h.inv (.reverse i) ha fuel hf
    simp only [SList.step, Res.pure_eq, Res.ok.injEq, Option.map_eq_some_iff, Prod.mk.injEq, SList.reverse,
      SList.clear] at e
    obtain ⟨h', e1, rfl, -⟩ := e
    refine ⟨⟨⟨h', setAt (setAt w.s.tail i none) i (w.s.mem (.hd i)).next⟩, w.count⟩, ?_, hi, fun j => ?_⟩
    · simp only [step, reverse, clear, Res.pure_eq]
      have e1' : reverseLoop fuel (setNext w.s.mem (.hd i) none) i (w.s.mem (.hd i)).next = some h' := e1
      rw [e1']; rfl
    · have : (w.s.mem (.hd i)).next = lastPtr (s.lists i).reverse := by
        rw [(h.mem i).head?, lastPtr, List.getLast?_reverse]
      show setAt (setAt w.s.tail i none) i _ j = _
      rw [this]
      simp only [slistStep]
      by_cases hj : j = i
      · subst hj; simp [setAt]
      · simp [setAt, hj, h.tl j]
  | moveFront i x =>
    obtain ⟨u, e, hi⟩ := step_ok s w.w h.inv (.moveFront i x) ha fuel hf
    have hs := h.mem i
    have hnd := h.inv.nodup i
    simp only [opList] at hf
    cases el : s.lists i with
    | nil =>
      rw [el] at hs
      have : (w.s.mem (.hd i)).next = none := hs
      obtain ⟨f, rfl⟩ : ∃ f, fuel = f + 1 := ⟨fuel - 1, by omega⟩
      exact ⟨w, by simp [step, moveFront, this, scanMove, slistStep, el, outPtr], by simpa [slistStep, el] using h⟩
    | cons a t =>
      rw [el] at hs hnd hf
      rw [List.nodup_cons] at hnd
      by_cases hx : x ∈ t
      · obtain ⟨A, B, rfl, hxA⟩ := mem_split hx
        have hax : a ≠ x := fun h => hnd.1 (h ▸ hx)
        have hsc := scanMove_found (h := w.s.mem) (x := x) (B := B) A (.nd a) fuel hs.2 hxA (by simp at hf; omega)
        simp only [SList.step, TW.w, SList.moveFront, hs.1, hsc, Res.pure_eq, Option.map_some, Res.ok.injEq,
          Option.some.injEq, Prod.mk.injEq] at e
        obtain ⟨rfl, e2⟩ := e
        refine ⟨_, by simp only [step, moveFront, hs.1, hsc, Res.pure_eq, Option.map_some, ← e2]; rfl, ?_, fun j => ?_⟩
        · exact hi
        simp only [slistStep, el, List.tail_cons, if_pos hx]
        rw [← List.cons_append, erase_split (by simp [hxA, Ne.symm hax])]
        have hlo : some (lastOr (.nd a) A) = lastPtr (a :: A) := by
          have := lastOr_eq (.hd i) (a :: A)
          rw [show lastOr (.hd i) (a :: A) = lastOr (.nd a) A from rfl] at this
          rw [this]
          cases hl : lastPtr (a :: A) with
          | none => rw [lastPtr_none] at hl; cases hl
          | some y => rfl
        cases B with
        | nil =>
          rw [if_pos (by rw [h.tl, el, ← List.cons_append, lastPtr_append]; rfl), hlo]
          rw [List.append_nil, ← lastPtr_cons (x := x) (l := a :: A) (by simp)]
          exact tl_set h i _ j
        | cons b B =>
          have hnd' : ((a :: A) ++ x :: b :: B).Nodup := by
            rw [← el.trans (List.cons_append ..).symm]; exact h.inv.nodup i
          rw [if_neg (by rw [h.tl, el, ← List.cons_append, lastPtr_iff]; exact getLast?_ne_append hnd' (by simp))]
          refine tl_same h i _ j ?_
          rw [lastPtr_cons (by simp), el, ← List.cons_append,
            show (a :: A) ++ x :: b :: B = (a :: A ++ [x]) ++ b :: B by simp, lastPtr_append, lastPtr_append]
      · refine ⟨w, ?_, by simpa [slistStep, el, hx] using h⟩
        simp [step, moveFront, hs.1, scanMove_absent t (.nd a) fuel hs.2 hx (by simp at hf; omega), slistStep, el,
          hx, outPtr]
  | moveAfter i x m =>
    obtain ⟨u, e, hi⟩ := step_ok s w.w h.inv (.moveAfter i x m) ha fuel hf
    have hs := h.mem i
    have hnd := h.inv.nodup i
    simp only [opList] at hf
    have hm : m ∈ s.lists i := ha
    by_cases hxm : x = m
    · subst hxm
      exact ⟨w, by simp [step, moveAfter, slistStep, outPtr], by simpa [slistStep] using h⟩
    by_cases hx : x ∈ s.lists i
    · have hml : (s.lists i).getLast? ≠ some m := hsafe hx hxm
      obtain ⟨A, B, el, hxA⟩ := mem_split hx
      have hs' := hs
      rw [el] at hs'
      have hsc := scanMove_found (h := w.s.mem) (x := x) (B := B) A (.hd i) fuel hs' hxA
        (by rw [el] at hf; simp at hf; omega)
      simp only [SList.step, TW.w, SList.moveAfter] at e
      rw [if_pos (by simpa using hxm), hsc] at e
      simp only at e
      by_cases hadj : lastOr (.hd i) A = .nd m
      · rw [if_neg (by simpa using hadj)] at e
        simp only [Res.pure_eq, Option.map_some, Res.ok.injEq, Option.some.injEq, Prod.mk.injEq] at e
        refine ⟨w, ?_, ?_, ?_⟩
        · rw [← e.2]
          simp [step, moveAfter, hxm, hsc, hadj]
        · rw [show w.w = u from e.1]; exact hi
        · intro j
          have hin : [m, x] <:+: s.lists i := by
            rcases List.eq_nil_or_concat A with rfl | ⟨A', z, rfl⟩
            · cases hadj
            · rw [List.concat_eq_append, nd_lastOr] at hadj
              cases hadj
              exact ⟨A', B, by rw [el]; simp⟩
          simp only [slistStep]
          rw [if_neg (by simp [hin])]
          exact h.tl j
      · rw [if_pos hadj] at e
        simp only [Res.pure_eq, Option.map_some, Res.ok.injEq, Option.some.injEq, Prod.mk.injEq] at e
        obtain ⟨rfl, e2⟩ := e
        refine ⟨_, by simp only [step, moveAfter]; rw [if_pos (by simpa using hxm)]; simp only [hsc]; rw [if_pos hadj]; simp only [Res.pure_eq, Option.map_some, ← e2]; rfl, ?_, fun j => ?_⟩
        · exact hi
        have hin : x ∈ s.lists i ∧ x ≠ m ∧ ¬ [m, x] <:+: s.lists i := by
          by_contra hc
          simp only [slistStep, if_neg hc, outPtr] at e2
          cases e2
        simp only [slistStep, if_pos hin]
        rw [el, erase_split hxA]
        have hmAB : m ∈ A ++ B := by
          rw [el] at hm; simp only [List.mem_append, List.mem_cons] at hm ⊢
          rcases hm with h | h | h
          · exact .inl h
          · exact absurd h.symm hxm
          · exact .inr h
        cases B with
        | nil =>
          rw [List.append_nil] at hmAB ⊢
          have hlo : some (lastOr (.hd i) A) = lastPtr A := by
            rw [lastOr_eq]
            cases hl : lastPtr A with
            | none => rw [lastPtr_none] at hl; subst hl; cases hmAB
            | some y => rfl
          have hmA : A.getLast? ≠ some m := by
            rw [Ne, ← lastPtr_iff, ← hlo]; simpa using hadj
          rw [if_pos (by rw [h.tl, el, lastPtr_append]; rfl), hlo, ← lastPtr_insAfter hmAB hmA]
          exact tl_set h i _ j
        | cons b B =>
          rw [if_neg (by rw [h.tl, lastPtr_iff, el]; exact getLast?_ne_append (el ▸ hnd) (by simp))]
          refine tl_same h i _ j ?_
          have e3 : lastPtr (A ++ b :: B) = lastPtr (s.lists i) := by
            rw [el, show A ++ x :: b :: B = (A ++ [x]) ++ b :: B by simp, lastPtr_append, lastPtr_append]
          rw [lastPtr_insAfter hmAB, e3]
          rw [Ne, ← lastPtr_iff, e3, lastPtr_iff]; exact hml
    · refine ⟨w, ?_, by simpa [slistStep, hx] using h⟩
      simp [step, moveAfter, hxm, scanMove_absent _ (.hd i) fuel hs hx (by omega), slistStep, hx, outPtr]

theorem setNext_id (h : Mem α) (a : Addr) (q : Ptr) (hq : (h a).next = q) : setNext h a q = h := by
  funext x
  by_cases hx : x = a
  · subst hx; simp only [setNext, if_true, ← hq]
  · simp [setNext, hx]

/-- `PushBack` when `tail` is the last node: memory of the plain insertion at the end. -/
theorem pushBack_inv {s : LWorld α} {w : TW α} (h : Inv s w.w) (i : Nat) (v : α)
    (ht : w.s.tail i = lastPtr (s.lists i)) :
    Inv ⟨setAt s.lists i (s.lists i ++ [s.count]), setAt s.val s.count v, s.count + 1⟩
      ⟨(pushBack w.s i w.count v).1.mem, w.count + 1⟩ := by
  have hc : w.count = s.count := h.cnt
  have h0 := h.created v none
  have h1 := h0.inserted i s.count (s.lists i) [] (by simp) (Nat.lt_succ_self _) (fun j => h.fresh j)
  have hlast := (h0.holds i).last
  simp only at hlast h1
  rw [hlast, setNext_id _ (.nd s.count) none (by simp [newNode])] at h1
  have hl := lastOr_eq (.hd i) (s.lists i)
  have : (pushBack w.s i w.count v).1.mem =
      setNext (newNode w.s.mem s.count v none) (lastOr (.hd i) (s.lists i)) (some (.nd s.count)) := by
    simp only [pushBack, hc]
    rw [← ht] at hl
    cases hw : w.s.tail i with
    | none => rw [hw] at hl; simp only [Option.none_or, Option.some.injEq] at hl; simp [hl]
    | some t => rw [hw] at hl; simp only [Option.some_or, Option.some.injEq] at hl; simp [hl]
  rw [this, hc]
  exact h1

theorem splitLast {l : List Nat} {x : Nat} (h : l.getLast? = some x) : l = l.dropLast ++ [x] := by
  rw [List.getLast?_eq_some_iff] at h
  obtain ⟨ys, rfl⟩ := h
  simp

theorem step_ok (s : LWorld α) (w : TW α) (h : TInv s w) (op : TListOp α) (ha : op.allowed s)
    (hsafe : op.safe s) (fuel : Nat) (hf : (s.lists (topList op)).length + 2 ≤ fuel) :
    ∃ w', step fuel w op = .ok (some (w', (tlistStep s op).2)) ∧ TInv (tlistStep s op).1 w' := by
  cases op with
  | base op => exact base_ok s w h op ha hsafe fuel hf
  | pushBack i v =>
    refine ⟨⟨(pushBack w.s i w.count v).1, w.count + 1⟩, ?_, ?_, fun j => ?_⟩
    · simp [step, pushBack, outPtr, tlistStep, show w.count = s.count from h.inv.cnt]
    · exact pushBack_inv h.inv i v (h.tl i)
    · simp only [pushBack, tlistStep, show w.count = s.count from h.inv.cnt]
      rw [← lastPtr_single, ← lastPtr_append (s.lists i) s.count []]
      exact tl_set h i _ j
  | popBack i =>
    have hl : s.lists i = [] := hsafe
    have ht : w.s.tail i = none := by rw [h.tl, hl]; rfl
    exact ⟨w, by simp [step, popBack, back, ht, remove, tlistStep, hl], by simpa [tlistStep, hl] using h⟩
  | back i =>
    refine ⟨w, ?_, h⟩
    simp only [step, back, h.tl, tlistStep, Res.pure_eq, lastPtr]
    cases (s.lists i).getLast? <;> rfl
  | moveBack i x =>
    simp only [topList] at hf
    simp only [TListOp.safe] at hsafe
    have hs := h.mem i
    have hnd := h.inv.nodup i
    by_cases hx : x ∈ s.lists i
    · obtain ⟨A, B, el, hxA⟩ := mem_split hx
      have hs' := hs
      rw [el] at hs' hnd
      obtain ⟨r, s1, rfl, s2⟩ := Seg.append.1 hs'
      cases B with
      | nil =>
        have : (w.s.mem (.nd x)).next = none := s2
        refine ⟨w, ?_, by simpa [tlistStep, el] using h⟩
        simp [step, moveBack, this, tlistStep, el, outPtr]
      | cons b B =>
        have hnx : (w.s.mem (.nd x)).next ≠ none := by rw [s2.1]; simp
        cases A with
        | nil =>
          exfalso
          rw [el] at hsafe
          simp at hsafe
        | cons a A =>
          have hax : a ≠ x := by
            rw [List.cons_append, List.nodup_cons] at hnd
            rintro rfl; exact hnd.1 (by simp)
          rw [List.mem_cons, not_or] at hxA
          have hsc := scanMove_found (h := w.s.mem) (x := x) (B := b :: B) A (.nd a) fuel hs'.2 hxA.2
            (by rw [el] at hf; simp at hf; omega)
          have hc : x ∈ s.lists i ∧ (s.lists i).getLast? ≠ some x :=
            ⟨hx, by rw [el]; exact getLast?_ne_append hnd (by simp)⟩
          have h1 := h.inv.moved i x (a :: A) (b :: B) (a :: A ++ b :: B) [] el (by simp) _ rfl
          have hrem := h.inv.removed i x (a :: A) (b :: B) el
          have hl := (hrem.holds i).last
          simp only [setAt_same] at hl
          rw [setNext_twice] at h1
          have hto : w.s.tail i = some (lastOr (.hd i) (a :: A ++ b :: B)) := by
            rw [h.tl, el, lastOr_eq, lastPtr_append, show x :: b :: B = [x] ++ b :: B from rfl, lastPtr_append,
              lastPtr_append]
            cases hq : lastPtr (b :: B) with
            | none => rw [lastPtr_none] at hq; cases hq
            | some y => rfl
          rw [show (setNext (setNext w.w.mem (lastOr (.hd i) (a :: A)) (w.w.mem (.nd x)).next) (.nd x) none
            (lastOr (.hd i) (a :: A ++ b :: B))).next = none from hl] at h1
          refine ⟨⟨⟨setNext (setNext (setNext w.s.mem (lastOr (.nd a) A) (w.s.mem (.nd x)).next) (.nd x) none)
            (lastOr (.hd i) (a :: A ++ b :: B)) (some (.nd x)), setAt w.s.tail i (some (.nd x))⟩, w.count⟩, ?_, ?_,
            fun j => ?_⟩
          · simp only [step, moveBack]
            rw [if_pos hnx]
            have hfr : (w.s.mem (.hd i)).next = some (.nd a) := hs'.1
            simp only [hfr, hsc, hto, tlistStep, if_pos hc, Res.pure_eq, Res.bind_ok, Option.map_some, outPtr]
          · simp only [tlistStep, if_pos hc]
            rw [el, erase_split (by simp [hxA.2, Ne.symm hax])]
            exact h1
          · simp only [tlistStep, if_pos hc]
            rw [← lastPtr_single, ← lastPtr_append ((s.lists i).erase x) x []]
            exact tl_set h i _ j
    · refine ⟨w, ?_, by simpa [tlistStep, hx] using h⟩
      simp only [step, moveBack]
      split
      · cases el : s.lists i with
        | nil =>
          rw [el] at hs
          have : (w.s.mem (.hd i)).next = none := hs
          obtain ⟨f, rfl⟩ : ∃ f, fuel = f + 1 := ⟨fuel - 1, by omega⟩
          simp [this, scanMove, tlistStep, el, outPtr]
        | cons a t =>
          rw [el] at hs hx hf
          have hxt : x ∉ t := fun h => hx (by simp [h])
          have hsc := scanMove_absent t (.nd a) fuel hs.2 hxt (by simp at hf; omega)
          simp only [hs.1, hsc, Res.pure_eq, Res.bind_ok, Option.map_some, tlistStep, el, hx, false_and, if_false,
            outPtr]
      · simp [tlistStep, hx, outPtr]
  | pushBackList i j =>
    by_cases hij : i = j
    · subst hij
      have hl : s.lists i = [] := hsafe rfl
      have ht : w.s.tail i = none := by rw [h.tl, hl]; rfl
      exact ⟨w, by simp [step, pushBackList, ht, tlistStep], by simpa [tlistStep] using h⟩
    · refine ⟨⟨pushBackList w.s i j, w.count⟩, by simp [step, tlistStep, hij], ?_⟩
      simp only [tlistStep, if_neg hij]
      by_cases hj : s.lists j = []
      · have ht : w.s.tail j = none := by rw [h.tl, hj]; rfl
        have e : setAt (setAt s.lists i (s.lists i ++ s.lists j)) j [] = s.lists := by
          funext k; by_cases h1 : k = j
          · subst h1; simp [setAt, hj]
          · by_cases h2 : k = i
            · subst h2; simp [setAt, h1, hj]
            · simp [setAt, h1, h2]
        rw [e]
        simp only [pushBackList, ht]; exact h
      · obtain ⟨t, ht⟩ : ∃ t, w.s.tail j = some t := by
          rw [h.tl]; cases hq : lastPtr (s.lists j) with
          | none => rw [lastPtr_none] at hq; exact absurd hq hj
          | some t => exact ⟨t, rfl⟩
        have hl := lastOr_eq (.hd i) (s.lists i)
        rw [← h.tl i] at hl
        have hp : pushBackList w.s i j = ⟨setNext (setNext w.s.mem (lastOr (.hd i) (s.lists i)) (w.s.mem (.hd j)).next)
            (.hd j) none, setAt (setAt w.s.tail i (some t)) j none⟩ := by
          simp only [pushBackList, ht]
          cases hw : w.s.tail i with
          | none => rw [hw] at hl; simp only [Option.none_or, Option.some.injEq] at hl; simp [hl, clear]
          | some t => rw [hw] at hl; simp only [Option.some_or, Option.some.injEq] at hl; simp [hl, clear]
        rw [hp]
        have hlo := lastOr_cases (.hd i) (s.lists i)
        have hlj : ∀ k x, k ≠ i → x ∈ s.lists k → Addr.nd x ≠ lastOr (.hd i) (s.lists i) := by
          intro k x hk hx
          exact (lastOr_notMem (by simp) (fun hx' => hk (h.inv.disj _ _ _ hx hx'))).symm
        have hhd : ∀ k, k ≠ i → Addr.hd k ≠ lastOr (.hd i) (s.lists i) := by
          intro k hk e
          rcases hlo with ⟨e1, -⟩ | ⟨y, -, e1⟩ <;> rw [e1] at e <;> cases e
          exact hk rfl
        have hij' : Addr.hd i ≠ .hd j := by simpa using hij
        refine ⟨⟨h.inv.cnt, fun k => ?_, fun k => ?_, ?_, ?_, ?_⟩, fun k => ?_⟩
        · show Seg (setNext _ _ _) (setNext _ _ _ (.hd k)).next (setAt _ _ _ k) none
          by_cases hk : k = j
          · subst hk; simp [setAt, Seg]
          rw [setNext_ne _ _ _ _ (by simpa using hk), setAt_ne _ _ _ _ hk]
          have fr : ∀ l : List Nat, ∀ x ∈ l, (setNext (setNext w.s.mem (lastOr (.hd i) (s.lists i))
              (w.s.mem (.hd j)).next) (.hd j) none (.nd x)).next =
              (setNext w.s.mem (lastOr (.hd i) (s.lists i)) (w.s.mem (.hd j)).next (.nd x)).next :=
            fun l x _ => by rw [setNext_ne _ _ _ _ (by simp)]
          by_cases hki : k = i
          · subst hki
            rw [setAt_same]
            refine Seg.append.2 ⟨(w.s.mem (.hd j)).next, ?_, ?_⟩
            · exact ((h.mem k).retarget _ (by simp) (h.inv.nodup k)).frame (fr _)
            · refine (h.mem j).frame (fun x hx => ?_)
              rw [fr _ x hx, setNext_ne _ _ _ _ (hlj j x (Ne.symm hij) hx)]
          · rw [setAt_ne _ _ _ _ hki, setNext_ne _ _ _ _ (hhd k hki)]
            refine (h.mem k).frame (fun x hx => ?_)
            rw [fr _ x hx, setNext_ne _ _ _ _ (hlj k x hki hx)]
        · by_cases hk : k = j
          · subst hk; simp [setAt]
          · by_cases hki : k = i
            · subst hki
              simp only [setAt_ne _ _ _ _ hk, setAt_same]
              rw [List.nodup_append]
              exact ⟨h.inv.nodup _, h.inv.nodup _, fun x hx y hy e => hij (h.inv.disj _ _ _ hx (e ▸ hy))⟩
            · simp only [setAt_ne _ _ _ _ hk, setAt_ne _ _ _ _ hki]; exact h.inv.nodup k
        · have own : ∀ k x, x ∈ setAt (setAt s.lists i (s.lists i ++ s.lists j)) j [] k →
              k ≠ j ∧ (x ∈ s.lists k ∨ (k = i ∧ x ∈ s.lists j)) := by
            intro k x hx
            by_cases hk : k = j
            · subst hk; simp [setAt] at hx
            · refine ⟨hk, ?_⟩
              by_cases hki : k = i
              · subst hki; simp only [setAt_ne _ _ _ _ hk, setAt_same, List.mem_append] at hx
                rcases hx with hx | hx
                · exact .inl hx
                · exact .inr ⟨rfl, hx⟩
              · simp only [setAt_ne _ _ _ _ hk, setAt_ne _ _ _ _ hki] at hx; exact .inl hx
          intro k k' x hx hx'
          obtain ⟨n1, o1⟩ := own k x hx
          obtain ⟨n2, o2⟩ := own k' x hx'
          rcases o1 with o1 | ⟨rfl, o1⟩ <;> rcases o2 with o2 | ⟨rfl, o2⟩
          · exact h.inv.disj _ _ _ o1 o2
          · exact absurd (h.inv.disj _ _ _ o1 o2) n1
          · exact absurd (h.inv.disj _ _ _ o2 o1) n2
          · rfl
        · intro k x hx
          by_cases hk : k = j
          · subst hk; simp [setAt] at hx
          · by_cases hki : k = i
            · subst hki; simp only [setAt_ne _ _ _ _ hk, setAt_same, List.mem_append] at hx
              rcases hx with hx | hx <;> exact h.inv.lt _ _ hx
            · simp only [setAt_ne _ _ _ _ hk, setAt_ne _ _ _ _ hki] at hx; exact h.inv.lt _ _ hx
        · intro x hx
          show (setNext _ _ _ _).val = _
          rw [setNext_val]
          exact h.inv.val x hx
        · show setAt _ _ _ k = lastPtr (setAt _ _ _ k)
          by_cases hk : k = j
          · subst hk; simp [setAt, lastPtr]
          · rw [setAt_ne _ _ _ _ hk, setAt_ne _ _ _ _ hk]
            by_cases hki : k = i
            · subst hki
              rw [setAt_same, setAt_same, ← ht, h.tl]
              cases el : s.lists j with
              | nil => exact absurd el hj
              | cons b B => rw [lastPtr_append]
            · rw [setAt_ne _ _ _ _ hki, setAt_ne _ _ _ _ hki, h.tl]

theorem run_ok (ops : List (TListOp α)) : ∀ (s : LWorld α), TListHistory s ops →
    ∃ F, ∀ fuel, F ≤ fuel → ∀ w, TInv s w → ∃ w', run fuel w ops = .ok (some (w', (runSpec tlistStep s ops).2)) ∧
      TInv (runSpec tlistStep s ops).1 w' := by
  induction ops with
  | nil => intro s _; exact ⟨0, fun fuel _ w hI => ⟨w, rfl, hI⟩⟩
  | cons op ops ih =>
    intro s hh
    obtain ⟨F, h2⟩ := ih _ hh.2.2
    refine ⟨max F ((s.lists (topList op)).length + 2), fun fuel hF w hI => ?_⟩
    obtain ⟨w1, e1, i1⟩ := step_ok s w hI op hh.1 hh.2.1 fuel (by omega)
    obtain ⟨w2, e2, i2⟩ := h2 fuel (by omega) w1 i1
    exact ⟨w2, by simp [run, e1, e2, runSpec], i2⟩

theorem TInv.init : TInv (LWorld.init : LWorld α) (TW.init : TW α) := ⟨Inv.init, fun _ => rfl⟩

/-- What the client sees after a history. -/
abbrev after (ops : List (TListOp α)) : LWorld α := (runSpec tlistStep LWorld.init ops).1

/-- **C95**, as far as it holds.  Every history of allowed calls on any number of lists in which no call takes away the
last node, puts a node behind the last one other than by a call at the back, inserts a node into an empty list, moves the
first node to the back, or appends a list to itself, terminates without panic, returns exactly what the specification
returns, and afterwards `Front` followed by `k` times `Next` reaches the `k`-th node, `Back` is the last node, and the
values are those of the specification.  Missing: the calls just named; what they do is stated below. -/
theorem C95_history_partial (ops : List (TListOp α)) (hh : TListHistory LWorld.init ops) :
    ∃ F, ∀ fuel, F ≤ fuel → ∃ w, run fuel TW.init ops = .ok (some (w, (runSpec tlistStep LWorld.init ops).2)) ∧
      (∀ i k, (nodeNext w.s.mem)^[k] (front w.s.mem i) = ((after ops).lists i)[k]?.map .nd) ∧
      (∀ i, back w.s i = ((after ops).lists i).getLast?.map .nd) ∧
      (∀ i, ((after ops).lists i).Nodup) ∧
      ∀ i, ∀ x ∈ (after ops).lists i, SList.get w.s.mem (some (.nd x)) = .ok ((after ops).val x) := by
  obtain ⟨F, h⟩ := run_ok ops LWorld.init hh
  refine ⟨F, fun fuel hF => ?_⟩
  obtain ⟨w, e, i⟩ := h fuel hF TW.init TInv.init
  exact ⟨w, e, fun j k => follow (i.mem j) k, i.tl, i.inv.nodup,
    fun j x hx => by have := i.inv.val x (i.inv.lt j x hx); simp only [TW.w] at this; simp [SList.get, this]⟩

theorem run_append {fuel : Nat} {ops ops' : List (TListOp α)} {os os' : List (SListOut α)} {w1 w2 : TW α} :
    ∀ {w : TW α}, run fuel w ops = .ok (some (w1, os)) → run fuel w1 ops' = .ok (some (w2, os')) →
    run fuel w (ops ++ ops') = .ok (some (w2, os ++ os')) := by
  induction ops generalizing os with
  | nil => intro w h h'; simp only [run, Res.pure_eq, Res.ok.injEq, Option.some.injEq, Prod.mk.injEq] at h
           obtain ⟨rfl, rfl⟩ := h; simpa using h'
  | cons op ops ih =>
    intro w h h'
    simp only [run, List.cons_append] at h ⊢
    cases hs : step fuel w op with
    | panic => rw [hs] at h; simp at h
    | ok r =>
      cases r with
      | none => rw [hs] at h; simp at h
      | some p =>
        obtain ⟨w0, o⟩ := p
        rw [hs] at h
        simp only [Res.bind_ok] at h ⊢
        cases hr : run fuel w0 ops with
        | panic => rw [hr] at h; simp at h
        | ok r =>
          cases r with
          | none => rw [hr] at h; simp at h
          | some q =>
            obtain ⟨wq, oq⟩ := q
            rw [hr] at h
            simp only [Res.bind_ok, Res.pure_eq, Res.ok.injEq, Option.some.injEq, Prod.mk.injEq] at h
            obtain ⟨rfl, rfl⟩ := h
            rw [ih hr h']
            simp

/-- Two calls after a safe history. -/
theorem two_calls (ops : List (TListOp α)) (hh : TListHistory LWorld.init ops) (op op' : TListOp α) (n : Nat)
    (P : TW α → SListOut α → SListOut α → Prop)
    (h : ∀ fuel, n ≤ fuel → ∀ w, TInv (after ops) w → ∃ w1 o, step fuel w op = .ok (some (w1, o)) ∧
      ∃ w2 o', step fuel w1 op' = .ok (some (w2, o')) ∧ P w2 o o') :
    ∃ F, ∀ fuel, F ≤ fuel → ∃ w o o', run fuel TW.init (ops ++ [op, op']) =
      .ok (some (w, (runSpec tlistStep LWorld.init ops).2 ++ [o, o'])) ∧ P w o o' := by
  obtain ⟨F, hr⟩ := run_ok ops LWorld.init hh
  refine ⟨max F n, fun fuel hF => ?_⟩
  obtain ⟨w, e, hi⟩ := hr fuel (by omega) TW.init TInv.init
  obtain ⟨w1, o, e1, w2, o', e2, hP⟩ := h fuel (by omega) w hi
  exact ⟨w2, o, o', run_append e (by simp [run, e1, e2]), hP⟩

theorem pushBack_stray {s : LWorld α} {w : TW α} (h : Inv s w.w) (i y : Nat) (v : α)
    (ht : w.s.tail i = some (.nd y)) (hy : ∀ k, y ∉ s.lists k) (k : Nat) :
    Seg (pushBack w.s i w.count v).1.mem ((pushBack w.s i w.count v).1.mem (.hd k)).next (s.lists k) none := by
  simp only [pushBack, ht]
  rw [setNext_ne _ _ _ _ (by simp), newNode_ne _ _ _ _ _ (by simp)]
  refine (h.holds k).frame (fun x hx => ?_)
  rw [setNext_ne _ _ _ _ (by simp only [ne_eq, Addr.nd.injEq]; rintro rfl; exact hy k hx), newNode_ne]
  · rfl
  · simp only [ne_eq, Addr.nd.injEq]
    have := h.lt k x hx
    have hc : w.count = s.count := h.cnt
    omega

theorem pushBack_cut {s : LWorld α} {w : TW α} (h : Inv s w.w) (i m : Nat) (A B : List Nat) (v : α)
    (hl : s.lists i = A ++ m :: B) (ht : w.s.tail i = some (.nd m)) :
    Seg (pushBack w.s i w.count v).1.mem ((pushBack w.s i w.count v).1.mem (.hd i)).next (A ++ [m, w.count]) none := by
  have hs := h.holds i
  have hnd := h.nodup i
  have hc : w.count = s.count := h.cnt
  rw [hl, show A ++ m :: B = (A ++ [m]) ++ B by simp] at hs hnd
  obtain ⟨r, s1, -⟩ := Seg.append.1 hs
  have hlt : ∀ x ∈ A ++ [m], x < w.count := fun x hx => by
    rw [hc]; exact h.lt i x (by rw [hl]; simp only [List.mem_append, List.mem_cons, List.not_mem_nil, or_false] at hx ⊢; tauto)
  have s1' : Seg (newNode w.s.mem w.count v none) ((newNode w.s.mem w.count v none) (.hd i)).next (A ++ [m]) r := by
    rw [newNode_ne _ _ _ _ _ (by simp)]
    exact s1.frame (fun x hx => by
      rw [newNode_ne _ _ _ _ _ (by have := hlt x hx; simp only [ne_eq, Addr.nd.injEq]; omega)]; rfl)
  simp only [pushBack, ht]
  have s2 := s1'.retarget (some (.nd w.count)) (by simp) (List.nodup_append.1 hnd).1
  rw [nd_lastOr] at s2
  rw [show A ++ [m, w.count] = (A ++ [m]) ++ [w.count] by simp]
  refine Seg.append.2 ⟨_, s2, rfl, ?_⟩
  rw [setNext_ne _ _ _ _ (by have := hlt m (by simp); simp only [ne_eq, Addr.nd.injEq]; omega)]
  simp [newNode, Seg]

/-- **C95** is false once the last node is taken away (by `PopBack`, by `Remove`, or by `PopFront` or `RemoveFront` from a
list with one node): `Back` remains the node taken away, and the next `PushBack` returns a node, but the list does not
get it. -/
theorem C95_last_removed_false (ops : List (TListOp α)) (hh : TListHistory LWorld.init ops) (i x : Nat) (L : List Nat)
    (hl : (after ops).lists i = L ++ [x]) (v : α) (op : TListOp α)
    (hop : op = .popBack i ∨ op = .base (.remove i x) ∨ L = [] ∧ (op = .base (.popFront i) ∨ op = .base (.removeFront i))) :
    (∃ F, ∀ fuel, F ≤ fuel → ∃ w o o', run fuel TW.init (ops ++ [op, .back i]) =
      .ok (some (w, (runSpec tlistStep LWorld.init ops).2 ++ [o, o'])) ∧ o' = .node (some x)) ∧
    ∃ F, ∀ fuel, F ≤ fuel → ∃ w o o', run fuel TW.init (ops ++ [op, .pushBack i v]) =
      .ok (some (w, (runSpec tlistStep LWorld.init ops).2 ++ [o, o'])) ∧ o' = .node (some (after ops).count) ∧
        ∀ k, (nodeNext w.s.mem)^[k] (front w.s.mem i) = L[k]?.map .nd := by
  have key : ∀ fuel, L.length + 3 ≤ fuel → ∀ w, TInv (after ops) w → ∃ w1 o, step fuel w op = .ok (some (w1, o)) ∧
      Inv { after ops with lists := setAt (after ops).lists i L } w1.w ∧ w1.s.tail i = some (.nd x) := by
    intro fuel hF w hi
    have hnd := hi.inv.nodup i
    rw [hl, List.nodup_append] at hnd
    have hxL : x ∉ L := fun h => hnd.2.2 x h x (by simp) rfl
    have ht : w.s.tail i = some (.nd x) := by rw [hi.tl, hl, lastPtr_append]; rfl
    obtain ⟨v1, e1, i1⟩ := SList.step_ok (after ops) w.w hi.inv (.remove i x) trivial fuel
      (by simp only [opList, hl, List.length_append, List.length_cons, List.length_nil]; omega)
    have e2 := e1
    simp only [SList.step, slistStep, hl, List.mem_append, List.mem_singleton, or_true, if_true,
      show (L ++ [x]).erase x = L by rw [erase_split hxL]; simp] at e1 e2 i1
    rcases hop with rfl | rfl | ⟨rfl, rfl | rfl⟩
    · simp only [Res.pure_eq, Res.ok.injEq, Option.map_eq_some_iff, Prod.mk.injEq] at e1
      obtain ⟨⟨h', n'⟩, e3, rfl, e4⟩ := e1
      cases n' with
      | none => simp [outPtr] at e4
      | some a =>
        refine ⟨⟨⟨h', w.s.tail⟩, w.count⟩, .val (h' a).val true, ?_, i1, ht⟩
        have e3' : remove fuel w.s.mem i (some (.nd x)) = some (h', some a) := e3
        simp only [step, popBack, back, ht, e3', Option.map_some, Res.pure_eq]
    · exact ⟨w.put v1, _, by simp only [step, SList.step]; rw [e2]; rfl, i1, ht⟩
    · obtain ⟨v2, e5, i5⟩ := SList.step_ok (after ops) w.w hi.inv (.popFront i) trivial fuel
        (by simp only [opList, hl, List.length_append, List.length_cons, List.length_nil]; omega)
      simp only [slistStep, hl, List.nil_append, List.head?_cons, List.tail_cons] at e5 i5
      exact ⟨w.put v2, _, by simp only [step]; rw [e5]; rfl, i5, ht⟩
    · obtain ⟨v2, e5, i5⟩ := SList.step_ok (after ops) w.w hi.inv (.removeFront i) trivial fuel
        (by simp only [opList, hl, List.length_append, List.length_cons, List.length_nil]; omega)
      simp only [slistStep, hl, List.nil_append, List.head?_cons, List.tail_cons] at e5 i5
      exact ⟨w.put v2, _, by simp only [step]; rw [e5]; rfl, i5, ht⟩
  constructor
  · refine two_calls ops hh op _ (L.length + 3) _ (fun fuel hF w hi => ?_)
    obtain ⟨w1, o, e1, i1, ht⟩ := key fuel hF w hi
    exact ⟨w1, o, e1, w1, .node (some x), by simp [step, back, ht, outPtr], rfl⟩
  · refine two_calls ops hh op _ (L.length + 3) _ (fun fuel hF w hi => ?_)
    obtain ⟨w1, o, e1, i1, ht⟩ := key fuel hF w hi
    refine ⟨w1, o, e1, ⟨(pushBack w1.s i w1.count v).1, w1.count + 1⟩, .node (some (after ops).count), ?_, rfl, fun k => ?_⟩
    · have hc : w1.count = (after ops).count := i1.cnt
      simp [step, pushBack, outPtr, hc]
    · have hnd := hi.inv.nodup i
      rw [hl, List.nodup_append] at hnd
      have := pushBack_stray i1 i x v ht (fun k hk => by
        by_cases hki : k = i
        · subst hki; simp only [setAt_same] at hk; exact hnd.2.2 x hk x (by simp) rfl
        · simp only [setAt_ne _ _ _ _ hki] at hk
          exact hki (hi.inv.disj _ _ _ hk (by rw [hl]; simp))) i
      simp only [setAt_same] at this
      exact follow this k

/-- **C95** is false once a node `z` is put behind the last node `m` by `PushAfter`, `InsertAfter` or `MoveAfter`: `Back`
remains `m`, and the next `PushBack` puts its node directly behind `m`, so the list loses `z`. -/
theorem C95_behind_last_false (ops : List (TListOp α)) (hh : TListHistory LWorld.init ops) (i m : Nat) (L : List Nat)
    (hl : (after ops).lists i = L ++ [m]) (v : α) (op : SListOp α) (z n : Nat) (L' : List Nat)
    (hop : (∃ u, op = .pushAfter i u m ∧ z = (after ops).count ∧ n = z + 1 ∧ L' = L) ∨
      (op = .insertAfter i z m ∧ op.allowed (after ops) ∧ n = (after ops).count ∧ L' = L) ∨
      (op = .moveAfter i z m ∧ z ∈ L ∧ n = (after ops).count ∧ L' = L.erase z)) :
    (∃ F, ∀ fuel, F ≤ fuel → ∃ w o o', run fuel TW.init (ops ++ [.base op, .back i]) =
      .ok (some (w, (runSpec tlistStep LWorld.init ops).2 ++ [o, o'])) ∧ o = .node (some z) ∧ o' = .node (some m)) ∧
    ∃ F, ∀ fuel, F ≤ fuel → ∃ w o o', run fuel TW.init (ops ++ [.base op, .pushBack i v]) =
      .ok (some (w, (runSpec tlistStep LWorld.init ops).2 ++ [o, o'])) ∧ o = .node (some z) ∧ o' = .node (some n) ∧
        ∀ k, (nodeNext w.s.mem)^[k] (front w.s.mem i) = (L' ++ [m, n])[k]?.map .nd := by
  have key : ∀ fuel, L.length + 3 ≤ fuel → ∀ w, TInv (after ops) w → ∃ w1, step fuel w (.base op) = .ok (some (w1, .node (some z))) ∧
      ∃ s1, Inv s1 w1.w ∧ s1.lists i = L' ++ [m, z] ∧ w1.count = n ∧ w1.s.tail i = some (.nd m) := by
    intro fuel hF w hi
    have hc : w.count = (after ops).count := hi.inv.cnt
    have hnd := hi.inv.nodup i
    rw [hl, List.nodup_append] at hnd
    have hmL : m ∉ L := fun h => hnd.2.2 m h m (by simp) rfl
    have ht : w.s.tail i = some (.nd m) := by rw [hi.tl, hl, lastPtr_append]; rfl
    have hins : ∀ (z : Nat) (L : List Nat), m ∉ L → insAfter z m (L ++ [m]) = L ++ [m, z] := by
      intro z L hL
      induction L with
      | nil => simp [insAfter]
      | cons a t ih =>
        simp only [List.mem_cons, not_or] at hL
        simp [insAfter, Ne.symm hL.1, ih hL.2]
    have hlen : ((after ops).lists i).length + 2 ≤ fuel := by rw [hl]; simp; omega
    rcases hop with ⟨u, rfl, rfl, rfl, rfl⟩ | ⟨rfl, ha, rfl, rfl⟩ | ⟨rfl, hz, rfl, rfl⟩
    · obtain ⟨v1, e1, i1⟩ := SList.step_ok (after ops) w.w hi.inv (.pushAfter i u m) (by simp [SListOp.allowed, hl]) fuel hlen
      have hcv : v1.count = (after ops).count + 1 := i1.cnt
      exact ⟨w.put v1, by simp only [step]; rw [e1]; rfl, _, i1, by simp [slistStep, setAt_same, hl, hins _ _ hmL], hcv, ht⟩
    · obtain ⟨v1, e1, i1⟩ := SList.step_ok (after ops) w.w hi.inv (.insertAfter i z m) ha fuel hlen
      have hcv : v1.count = (after ops).count := i1.cnt
      exact ⟨w.put v1, by simp only [step]; rw [e1]; rfl, _, i1, by simp [slistStep, setAt_same, hl, hins _ _ hmL], hcv, ht⟩
    · obtain ⟨v1, e1, i1⟩ := SList.step_ok (after ops) w.w hi.inv (.moveAfter i z m) (by simp [SListOp.allowed, hl]) fuel hlen
      have hzm : z ≠ m := fun e => hmL (e ▸ hz)
      have hcond : z ∈ (after ops).lists i ∧ z ≠ m ∧ ¬ [m, z] <:+: (after ops).lists i := by
        refine ⟨by rw [hl]; simp [hz], hzm, ?_⟩
        rintro ⟨P, Q, e⟩
        have hnd2 := hi.inv.nodup i
        rw [← e] at hnd2
        have e' : P ++ m :: (z :: Q) = L ++ m :: [] := by rw [hl] at e; simpa using e
        have hmP : m ∉ P := by
          have : (P ++ m :: z :: Q).Nodup := by simpa using hnd2
          rw [List.nodup_append] at this
          exact fun h => this.2.2 m h m (by simp) rfl
        have h2 := congrArg List.length e'
        have hP : P = L := by
          have := congrArg (List.takeWhile (· ≠ m)) e'
          rwa [List.takeWhile_append_of_pos (by intro y hy; simp; rintro rfl; exact hmP hy),
            List.takeWhile_append_of_pos (by intro y hy; simp; rintro rfl; exact hmL hy),
            List.takeWhile_cons_of_neg (by simp), List.append_nil, List.takeWhile_cons_of_neg (by simp),
            List.append_nil] at this
        subst hP
        simp at h2
      simp only [slistStep, if_pos hcond] at e1 i1
      have hcv : v1.count = (after ops).count := i1.cnt
      have hL' : (L ++ [m]).erase z = L.erase z ++ [m] := List.erase_append_left _ hz
      have htl : w.s.tail i ≠ some (.nd z) := by rw [ht]; simpa using Ne.symm hzm
      refine ⟨w.put v1, ?_, _, i1, ?_, hcv, ht⟩
      · simp only [SList.step, SList.moveAfter] at e1
        simp only [step, moveAfter]
        rw [if_pos (by simpa using hzm)] at e1 ⊢
        have hsc : scanMove fuel w.w.mem (some (.hd i)) (.nd z) = scanMove fuel w.s.mem (some (.hd i)) (.nd z) := rfl
        rw [hsc] at e1
        cases hq : scanMove fuel w.s.mem (some (.hd i)) (.nd z) with
        | none => rw [hq] at e1; simp at e1
        | some q =>
          cases q with
          | none => rw [hq] at e1; simp [outPtr] at e1
          | some b =>
            rw [hq] at e1
            simp only at e1 ⊢
            split at e1
            · rename_i hb
              rw [if_pos hb, if_neg htl]
              simp only [Res.pure_eq, Option.map_some, Res.ok.injEq, Option.some.injEq, Prod.mk.injEq] at e1 ⊢
              exact ⟨by rw [← e1.1]; rfl, e1.2⟩
            · simp [outPtr] at e1
      · simp only [setAt_same]
        rw [hl, hL', hins]
        exact fun h => hmL (List.mem_of_mem_erase h)
  constructor
  · refine two_calls ops hh (.base op) _ (L.length + 3) _ (fun fuel hF w hi => ?_)
    obtain ⟨w1, e1, s1, i1, hl1, hc1, ht1⟩ := key fuel hF w hi
    exact ⟨w1, _, e1, w1, .node (some m), by simp [step, back, ht1, outPtr], rfl, rfl⟩
  · refine two_calls ops hh (.base op) _ (L.length + 3) _ (fun fuel hF w hi => ?_)
    obtain ⟨w1, e1, s1, i1, hl1, hc1, ht1⟩ := key fuel hF w hi
    refine ⟨w1, _, e1, ⟨(pushBack w1.s i w1.count v).1, w1.count + 1⟩, .node (some n), ?_, rfl, rfl, fun k => ?_⟩
    · simp [step, pushBack, outPtr, hc1]
    · have := pushBack_cut i1 i m L' [z] v (by simpa using hl1) ht1
      rw [hc1] at this ⊢
      exact follow this k

/-- **C95** is false once a node is inserted into an empty list by `InsertFront`: `Back` is nil, and the next `PushBack`
makes its node the only one. -/
theorem C95_insertFront_false (ops : List (TListOp α)) (hh : TListHistory LWorld.init ops) (i x : Nat)
    (hl : (after ops).lists i = []) (ha : (SListOp.insertFront i x : SListOp α).allowed (after ops)) (v : α) :
    (∃ F, ∀ fuel, F ≤ fuel → ∃ w o o', run fuel TW.init (ops ++ [.base (.insertFront i x), .back i]) =
      .ok (some (w, (runSpec tlistStep LWorld.init ops).2 ++ [o, o'])) ∧ o' = .node none) ∧
    ∃ F, ∀ fuel, F ≤ fuel → ∃ w o o', run fuel TW.init (ops ++ [.base (.insertFront i x), .pushBack i v]) =
      .ok (some (w, (runSpec tlistStep LWorld.init ops).2 ++ [o, o'])) ∧
        ∀ k, (nodeNext w.s.mem)^[k] (front w.s.mem i) = [(after ops).count][k]?.map .nd := by
  have key : ∀ fuel, 3 ≤ fuel → ∀ w, TInv (after ops) w → ∃ w1 o, step fuel w (.base (.insertFront i x)) = .ok (some (w1, o)) ∧
      w1.count = (after ops).count ∧ w1.s.tail i = none := by
    intro fuel hF w hi
    obtain ⟨v1, e1, i1⟩ := SList.step_ok (after ops) w.w hi.inv (.insertFront i x) ha fuel (by simp [opList, hl]; omega)
    have hcv : v1.count = (after ops).count := i1.cnt
    exact ⟨w.put v1, _, by simp only [step]; rw [e1]; rfl, hcv, by
      show w.s.tail i = none
      rw [hi.tl, hl]; rfl⟩
  constructor
  · refine two_calls ops hh _ _ 3 _ (fun fuel hF w hi => ?_)
    obtain ⟨w1, o, e1, hc1, ht1⟩ := key fuel hF w hi
    exact ⟨w1, o, e1, w1, .node none, by simp [step, back, ht1, outPtr], rfl⟩
  · refine two_calls ops hh _ _ 3 _ (fun fuel hF w hi => ?_)
    obtain ⟨w1, o, e1, hc1, ht1⟩ := key fuel hF w hi
    refine ⟨w1, o, e1, ⟨(pushBack w1.s i w1.count v).1, w1.count + 1⟩, .node (some w1.count), ?_, fun k => ?_⟩
    · simp [step, pushBack, outPtr]
    · refine follow (l := [(after ops).count]) ?_ k
      simp only [pushBack, ht1, front, setNext_self, ← hc1]
      refine ⟨rfl, ?_⟩
      rw [setNext_ne _ _ _ _ (by simp)]
      simp [newNode, Seg]

/-- **C95** is false for `MoveBack` of the first of several nodes: nothing moves and nil is returned. -/
theorem C95_moveBack_false (ops : List (TListOp α)) (hh : TListHistory LWorld.init ops) (i x y : Nat) (L : List Nat)
    (hl : (after ops).lists i = x :: y :: L) :
    ∃ F, ∀ fuel, F ≤ fuel → ∃ w o o', run fuel TW.init (ops ++ [.base (.front i), .moveBack i x]) =
      .ok (some (w, (runSpec tlistStep LWorld.init ops).2 ++ [o, o'])) ∧ o = .node (some x) ∧ o' = .node none ∧
        ∀ k, (nodeNext w.s.mem)^[k] (front w.s.mem i) = (x :: y :: L)[k]?.map .nd := by
  refine two_calls ops hh _ _ (L.length + 4) _ (fun fuel hF w hi => ?_)
  have hs := hi.mem i
  have hnd := hi.inv.nodup i
  rw [hl] at hs hnd
  rw [List.nodup_cons] at hnd
  refine ⟨w, .node (some x), ?_, w, .node none, ?_, rfl, rfl, fun k => follow hs k⟩
  · have : (w.w.mem (.hd i)).next = some (.nd x) := hs.1
    simp only [step, SList.step, front, this, outPtr, Res.pure_eq, Res.bind_ok, Option.map_some]; rfl
  · have hsc := scanMove_absent (y :: L) (.nd x) fuel hs.2 hnd.1 (by simp; omega)
    simp only [step, moveBack]
    rw [if_pos (by rw [hs.2.1]; simp)]
    simp [hs.1, hsc, outPtr]

/-- **C95** is false for `PushBackList` of a list with itself: the list becomes empty. -/
theorem C95_self_false (ops : List (TListOp α)) (hh : TListHistory LWorld.init ops) (i : Nat)
    (hl : (after ops).lists i ≠ []) :
    ∃ F, ∀ fuel, F ≤ fuel → ∃ w o o', run fuel TW.init (ops ++ [.pushBackList i i, .back i]) =
      .ok (some (w, (runSpec tlistStep LWorld.init ops).2 ++ [o, o'])) ∧ o' = .node none ∧ front w.s.mem i = none := by
  refine two_calls ops hh _ _ 0 _ (fun fuel hF w hi => ?_)
  obtain ⟨t, ht⟩ : ∃ t, w.s.tail i = some t := by
    rw [hi.tl]; cases hq : lastPtr ((after ops).lists i) with
    | none => rw [lastPtr_none] at hq; exact absurd hq hl
    | some t => exact ⟨t, rfl⟩
  refine ⟨⟨pushBackList w.s i i, w.count⟩, .unit, rfl, ⟨pushBackList w.s i i, w.count⟩, .node none, ?_, rfl, ?_⟩
  · simp [step, back, pushBackList, ht, clear, setAt, outPtr]
  · simp [pushBackList, ht, clear, front]

/-- **C95** (PushFrontList).  With correct tails the memory after `PushFrontList` is that of the plain list (see C72),
and the tail of the receiver is the last node of the result. -/
theorem C95_pushFrontList (ops : List (TListOp α)) (i j : Nat) (w : TW α) (hi : TInv (after ops) w) (fuel : Nat)
    (hF : ((after ops).lists j).length + 1 ≤ fuel) :
    SList.pushFrontList fuel w.s.mem i j = some (pushFrontList w.s i j).mem ∧
    (pushFrontList w.s i j).tail i = ((after ops).lists j ++ (after ops).lists i).getLast?.map .nd := by
  have hs := hi.mem j
  cases hj : (after ops).lists j with
  | nil =>
    rw [hj] at hs
    have h0 : (w.s.mem (.hd j)).next = none := hs
    have ht : w.s.tail j = none := by rw [hi.tl, hj]; rfl
    have := hi.tl i
    simpa [SList.pushFrontList, h0, tail, pushFrontList, ht, lastPtr] using this
  | cons a t =>
    rw [hj] at hs hF
    have htl := tailLoop_ok t (.nd a) fuel 1 hs.2 (by simp at hF; omega)
    have hlo : w.s.tail j = some (lastOr (.nd a) t) := by
      rw [hi.tl, hj]
      have := lastOr_eq (.hd j) (a :: t)
      rw [show lastOr (.hd j) (a :: t) = lastOr (.nd a) t from rfl] at this
      rw [this]
      cases hq : lastPtr (a :: t) with
      | none => rw [lastPtr_none] at hq; cases hq
      | some y => rfl
    refine ⟨by simp [SList.pushFrontList, hs.1, tail, htl, pushFrontList, hlo], ?_⟩
    simp only [pushFrontList, hlo]
    have hti := hi.tl i
    cases hl : (after ops).lists i with
    | nil =>
      rw [hl] at hti
      rw [if_pos (show w.s.tail i = none from hti), setAt_same, ← hlo, hi.tl, hj, List.append_nil]; rfl
    | cons b l =>
      rw [if_neg (by rw [hti, hl, lastPtr_none]; simp), hti, hl]
      exact (lastPtr_append (a :: t) b l).symm

/-- A history of every kind of safe call. -/
def sample : List (TListOp Int) :=
  [.pushBack 0 5, .base (.pushFront 0 6), .pushBack 0 7, .pushBack 1 8, .base (.moveFront 0 2), .base (.moveAfter 0 0 2),
   .moveBack 0 0, .pushBackList 0 1, .base (.reverse 0), .base (.remove 0 1), .base (.popFront 0), .popBack 1, .back 0]

example : TListHistory LWorld.init sample := by
  simp only [sample, TListHistory, TListOp.safe, TListOp.allowed, SListOp.allowed]
  decide

example : (after sample).lists 0 = [0, 2] ∧ (runSpec tlistStep LWorld.init sample).2.getLast? = some (.node (some 2)) := by
  decide

/-- `PopFront` from a list with one node, then `PushBack`: the list is empty. -/
example : TListHistory LWorld.init [TListOp.pushBack 0 (5 : Int)] ∧
    (after [TListOp.pushBack 0 (5 : Int)]).lists 0 = [] ++ [0] := by
  simp only [TListHistory, TListOp.safe, TListOp.allowed]
  decide

/-- Three elements pushed at the back. -/
def three : List (TListOp Int) := [.pushBack 0 5, .pushBack 0 6, .pushBack 0 7]

theorem three_history : TListHistory LWorld.init three := by
  simp only [three, TListHistory, TListOp.safe, TListOp.allowed]
  decide

example := C95_history_partial three three_history
example := C95_last_removed_false three three_history 0 2 [0, 1] (by decide) 8 (.popBack 0) (.inl rfl)
example := C95_behind_last_false three three_history 0 2 [0, 1] (by decide) 8 (.moveAfter 0 1 2) 1 3 [0]
  (.inr (.inr ⟨rfl, by decide, by decide, by decide⟩))
example := C95_moveBack_false three three_history 0 0 1 [2] (by decide)
example := C95_self_false three three_history 0 (by decide)

/-- A node taken from the front of one list goes into another list, which is empty. -/
example := C95_insertFront_false [.pushBack 0 (5 : Int), .pushBack 0 6, .base (.popFront 0)]
  (by simp only [TListHistory, TListOp.safe, TListOp.allowed, SListOp.allowed]; decide) 1 0 (by decide)
  (by
    refine ⟨by decide, fun i => ?_⟩
    rcases i with _ | i
    · decide
    · exact List.not_mem_nil) 8

end Verif.SListTail
