import Verif.Model.DList
/-!
# What it means that memory holds a doubly linked ring

This is the only specification that has to speak about memory: `Holds h head l` says that following
`next` from `head` visits exactly the nodes `l`, in order, and returns to `head`, and that `prev` is the
inverse of `next` on them.
-/

namespace Verif.Spec
open Verif.DList
variable {α : Type}

/-- `next x = y` and `prev y = x`. -/
def Link (h : Mem α) (x y : Nat) : Prop := (h x).next = some y ∧ (h y).prev = some x

/-- Consecutive nodes are linked. -/
def Chain (h : Mem α) : List Nat → Prop
  | [] => True
  | [_] => True
  | a :: b :: t => Link h a b ∧ Chain h (b :: t)

/-- The distinct nodes `l` form a ring. -/
def Ring (h : Mem α) (l : List Nat) : Prop :=
  l.Nodup ∧ match l with
    | [] => True
    | a :: t => Chain h (a :: t ++ [a])

/-- The list object with this `head` holds the nodes `l`. -/
def Holds (h : Mem α) (head : Ptr) (l : List Nat) : Prop := head = l.head? ∧ Ring h l

end Verif.Spec
