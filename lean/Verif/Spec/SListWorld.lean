import Verif.Spec.ListWorld
/-!
# Specification of a program that uses several singly linked lists

The client sees lists of node identities; node `k` is the `k`-th node ever created.  This file does not
refer to the model.
-/

namespace Verif.Spec
variable {α : Type} [Inhabited α]

/-- `n` placed behind `m`. -/
def insAfter (n m : Nat) : List Nat → List Nat
  | [] => []
  | a :: t => if a = m then a :: n :: t else a :: insAfter n m t

/-- Calls.  `i` names a list, `x`, `m` name nodes. -/
inductive SListOp (α : Type) where
  | pushFront (i : Nat) (v : α) | popFront (i : Nat)
  | pushAfter (i : Nat) (v : α) (m : Nat) | insertAfter (i x m : Nat) | insertFront (i x : Nat)
  | removeFront (i : Nat) | remove (i x : Nat)
  | moveFront (i x : Nat) | moveAfter (i x m : Nat)
  | reverse (i : Nat) | clear (i : Nat)
  | front (i : Nat) | tail (i : Nat)
  | get (x : Nat) | set (x : Nat) (v : α) | next (i x : Nat)

/-- Returned values. -/
inductive SListOut (α : Type) where
  | unit | node (p : Option Nat) | val (v : α) (ok : Bool) | last (p : Option Nat) (n : Nat)
  deriving DecidableEq

/-- The calls a client may make: nodes to insert exist and are in no list, marks are in the list.  Nodes to
remove or to move may be anywhere. -/
def SListOp.allowed (s : LWorld α) : SListOp α → Prop
  | .insertFront _ x => x < s.count ∧ ∀ i, x ∉ s.lists i
  | .pushAfter i _ m => m ∈ s.lists i
  | .insertAfter i x m => m ∈ s.lists i ∧ x < s.count ∧ ∀ j, x ∉ s.lists j
  | .moveAfter i _ m => m ∈ s.lists i
  | .next i x => x ∈ s.lists i
  | .get x | .set x _ => x < s.count
  | _ => True

/-- What each call must do.  `MoveFront` and `MoveAfter` change nothing and return nil when the node is
already in its place or not in the list. -/
def slistStep (s : LWorld α) : SListOp α → LWorld α × SListOut α
  | .pushFront i v =>
    (⟨setAt s.lists i (s.count :: s.lists i), setAt s.val s.count v, s.count + 1⟩, .node (some s.count))
  | .popFront i =>
    match (s.lists i).head? with
    | some x => ({ s with lists := setAt s.lists i (s.lists i).tail }, .val (s.val x) true)
    | none => (s, .val default false)
  | .pushAfter i v m =>
    (⟨setAt s.lists i (insAfter s.count m (s.lists i)), setAt s.val s.count v, s.count + 1⟩,
      .node (some s.count))
  | .insertAfter i x m => ({ s with lists := setAt s.lists i (insAfter x m (s.lists i)) }, .node (some x))
  | .insertFront i x => ({ s with lists := setAt s.lists i (x :: s.lists i) }, .node (some x))
  | .removeFront i => ({ s with lists := setAt s.lists i (s.lists i).tail }, .node (s.lists i).head?)
  | .remove i x =>
    if x ∈ s.lists i then ({ s with lists := setAt s.lists i ((s.lists i).erase x) }, .node (some x))
    else (s, .node none)
  | .moveFront i x =>
    if x ∈ (s.lists i).tail then
      ({ s with lists := setAt s.lists i (x :: (s.lists i).erase x) }, .node (some x))
    else (s, .node none)
  | .moveAfter i x m =>
    if x ∈ s.lists i ∧ x ≠ m ∧ ¬ [m, x] <:+: s.lists i then
      ({ s with lists := setAt s.lists i (insAfter x m ((s.lists i).erase x)) }, .node (some x))
    else (s, .node none)
  | .reverse i => ({ s with lists := setAt s.lists i (s.lists i).reverse }, .unit)
  | .clear i => ({ s with lists := setAt s.lists i [] }, .unit)
  | .front i => (s, .node (s.lists i).head?)
  | .tail i => (s, .last (s.lists i).getLast? (s.lists i).length)
  | .get x => (s, .val (s.val x) true)
  | .set x v => ({ s with val := setAt s.val x v }, .val (s.val x) true)
  | .next i x => (s, .node (s.lists i)[(s.lists i).idxOf x + 1]?)

/-- A history in which every call is allowed at its time. -/
def SListHistory (s : LWorld α) : List (SListOp α) → Prop
  | [] => True
  | op :: ops => op.allowed s ∧ SListHistory (slistStep s op).1 ops

end Verif.Spec
