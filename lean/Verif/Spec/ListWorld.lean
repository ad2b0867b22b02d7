/-!
# Specification of a program that uses several doubly linked lists

The client sees lists of node identities; node `k` is the `k`-th node ever created.  This file does not
refer to the model.
-/

namespace Verif.Spec
variable {α : Type} [Inhabited α]

/-- What the client knows: the contents of every list, the value of every node, how many nodes exist. -/
structure LWorld (α : Type) where
  lists : Nat → List Nat
  val : Nat → α
  count : Nat

/-- Pointwise update. -/
def setAt {β : Type} (f : Nat → β) (i : Nat) (v : β) : Nat → β := fun j => if j = i then v else f j

/-- `n` placed in front of `m`. -/
def insBefore (n m : Nat) : List Nat → List Nat
  | [] => []
  | a :: t => if a = m then n :: a :: t else a :: insBefore n m t

/-- First to last place. -/
def rotL (l : List Nat) : List Nat := l.tail ++ l.head?.toList

/-- Last to first place. -/
def rotR (l : List Nat) : List Nat := l.getLast?.toList ++ l.dropLast

/-- The node after `x` on the ring `l`. -/
def ringNext (l : List Nat) (x : Nat) : Option Nat := l[(l.idxOf x + 1) % l.length]?

/-- The node before `x` on the ring `l`. -/
def ringPrev (l : List Nat) (x : Nat) : Option Nat := l[(l.idxOf x + (l.length - 1)) % l.length]?

/-- Calls.  `i`, `j` name lists, `x`, `m` name nodes. -/
inductive ListOp (α : Type) where
  | pushFront (i : Nat) (v : α) | pushBack (i : Nat) (v : α)
  | insertFront (i x : Nat) | insertBack (i x : Nat)
  | pushBefore (i : Nat) (v : α) (m : Nat) | insertBefore (i x m : Nat)
  | popFront (i : Nat) | popBack (i : Nat)
  | removeFront (i : Nat) | removeBack (i : Nat) | remove (i x : Nat)
  | rotateForward (i : Nat) | rotateBackward (i : Nat)
  | insertBackList (i j : Nat) | clear (i : Nat)
  | front (i : Nat) | back (i : Nat) | empty (i : Nat)
  | get (x : Nat) | set (x : Nat) (v : α)
  | next (i x : Nat) | prev (i x : Nat)

/-- Returned values. -/
inductive ListOut (α : Type) where
  | unit | bool (b : Bool) | node (p : Option Nat) | val (v : α) (ok : Bool)
  deriving DecidableEq

/-- The calls a client may make: nodes to insert exist and are in no list, marks and nodes to remove are
in the list, a list is not appended to itself. -/
def ListOp.allowed (s : LWorld α) : ListOp α → Prop
  | .insertFront _ x | .insertBack _ x => x < s.count ∧ ∀ i, x ∉ s.lists i
  | .pushBefore i _ m => m ∈ s.lists i
  | .insertBefore i x m => m ∈ s.lists i ∧ x < s.count ∧ ∀ j, x ∉ s.lists j
  | .remove i x | .next i x | .prev i x => x ∈ s.lists i
  | .insertBackList i j => i ≠ j
  | .get x | .set x _ => x < s.count
  | _ => True

/-- What each call must do. -/
def listStep (s : LWorld α) : ListOp α → LWorld α × ListOut α
  | .pushFront i v =>
    (⟨setAt s.lists i (s.count :: s.lists i), setAt s.val s.count v, s.count + 1⟩, .node (some s.count))
  | .pushBack i v =>
    (⟨setAt s.lists i (s.lists i ++ [s.count]), setAt s.val s.count v, s.count + 1⟩, .node (some s.count))
  | .insertFront i x => ({ s with lists := setAt s.lists i (x :: s.lists i) }, .node (some x))
  | .insertBack i x => ({ s with lists := setAt s.lists i (s.lists i ++ [x]) }, .node (some x))
  | .pushBefore i v m =>
    (⟨setAt s.lists i (insBefore s.count m (s.lists i)), setAt s.val s.count v, s.count + 1⟩,
      .node (some s.count))
  | .insertBefore i x m => ({ s with lists := setAt s.lists i (insBefore x m (s.lists i)) }, .node (some x))
  | .popFront i =>
    match (s.lists i).head? with
    | some x => ({ s with lists := setAt s.lists i (s.lists i).tail }, .val (s.val x) true)
    | none => (s, .val default false)
  | .popBack i =>
    match (s.lists i).getLast? with
    | some x => ({ s with lists := setAt s.lists i (s.lists i).dropLast }, .val (s.val x) true)
    | none => (s, .val default false)
  | .removeFront i => ({ s with lists := setAt s.lists i (s.lists i).tail }, .node (s.lists i).head?)
  | .removeBack i => ({ s with lists := setAt s.lists i (s.lists i).dropLast }, .node (s.lists i).getLast?)
  | .remove i x => ({ s with lists := setAt s.lists i ((s.lists i).erase x) }, .node (some x))
  | .rotateForward i => ({ s with lists := setAt s.lists i (rotL (s.lists i)) }, .unit)
  | .rotateBackward i => ({ s with lists := setAt s.lists i (rotR (s.lists i)) }, .unit)
  | .insertBackList i j =>
    ({ s with lists := setAt (setAt s.lists i (s.lists i ++ s.lists j)) j [] }, .bool !(s.lists j).isEmpty)
  | .clear i => ({ s with lists := setAt s.lists i [] }, .unit)
  | .front i => (s, .node (s.lists i).head?)
  | .back i => (s, .node (s.lists i).getLast?)
  | .empty i => (s, .bool (s.lists i).isEmpty)
  | .get x => (s, .val (s.val x) true)
  | .set x v => ({ s with val := setAt s.val x v }, .val (s.val x) true)
  | .next i x => (s, .node (ringNext (s.lists i) x))
  | .prev i x => (s, .node (ringPrev (s.lists i) x))

/-- A history in which every call is allowed at its time. -/
def ListHistory (s : LWorld α) : List (ListOp α) → Prop
  | [] => True
  | op :: ops => op.allowed s ∧ ListHistory (listStep s op).1 ops

/-- No list, no node. -/
def LWorld.init : LWorld α := ⟨fun _ => [], fun _ => default, 0⟩

end Verif.Spec
