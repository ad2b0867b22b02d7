import Verif.Spec.SListWorld
/-!
# Specification of a program that uses several singly linked lists with a back end

This file does not refer to the model.
-/

namespace Verif.Spec
variable {α : Type} [Inhabited α]

/-- The calls of the plain list and the calls at the back. -/
inductive TListOp (α : Type) where
  | base (op : SListOp α)
  | pushBack (i : Nat) (v : α) | popBack (i : Nat) | back (i : Nat) | moveBack (i x : Nat) | pushBackList (i j : Nat)

/-- The calls a client may make. -/
def TListOp.allowed (s : LWorld α) : TListOp α → Prop
  | .base op => op.allowed s
  | _ => True

/-- What each call must do.  `MoveBack` changes nothing and returns nil when the node is already the last one or not in
the list.  `PushBackList` of a list to itself changes nothing. -/
def tlistStep (s : LWorld α) : TListOp α → LWorld α × SListOut α
  | .base op => slistStep s op
  | .pushBack i v =>
    (⟨setAt s.lists i (s.lists i ++ [s.count]), setAt s.val s.count v, s.count + 1⟩, .node (some s.count))
  | .popBack i =>
    match (s.lists i).getLast? with
    | some x => ({ s with lists := setAt s.lists i (s.lists i).dropLast }, .val (s.val x) true)
    | none => (s, .val default false)
  | .back i => (s, .node (s.lists i).getLast?)
  | .moveBack i x =>
    if x ∈ s.lists i ∧ (s.lists i).getLast? ≠ some x then
      ({ s with lists := setAt s.lists i ((s.lists i).erase x ++ [x]) }, .node (some x))
    else (s, .node none)
  | .pushBackList i j =>
    if i = j then (s, .unit) else ({ s with lists := setAt (setAt s.lists i (s.lists i ++ s.lists j)) j [] }, .unit)

/-- The calls that do not take away the last node, put a node behind the last one by another call than those at the back,
insert a node created before into an empty list, move the first node to the back, or append a list to itself. -/
def TListOp.safe (s : LWorld α) : TListOp α → Prop
  | .base (.popFront i) | .base (.removeFront i) => (s.lists i).length ≠ 1
  | .base (.remove i x) => (s.lists i).getLast? ≠ some x
  | .base (.pushAfter i _ m) | .base (.insertAfter i _ m) => (s.lists i).getLast? ≠ some m
  | .base (.moveAfter i x m) => x ∈ s.lists i → x ≠ m → (s.lists i).getLast? ≠ some m
  | .base (.insertFront i _) => s.lists i ≠ []
  | .base _ => True
  | .popBack i => s.lists i = []
  | .moveBack i x => (s.lists i).head? = some x → (s.lists i).length = 1
  | .pushBackList i j => i = j → s.lists i = []
  | _ => True

/-- A history in which every call is allowed and safe at its time. -/
def TListHistory (s : LWorld α) : List (TListOp α) → Prop
  | [] => True
  | op :: ops => op.allowed s ∧ op.safe s ∧ TListHistory (tlistStep s op).1 ops

end Verif.Spec
