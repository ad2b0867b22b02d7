import Verif.Spec.Order
/-!
# Specification of heaps

`lt p c = true` means that `c` must not be below `p`; a max-heap has `lt = (<)`.
-/

namespace Verif.Spec
variable {α : Type}

/-- `below maxTop less a b`: `b` has to be nearer to the top than `a`. -/
def below (maxTop : Bool) (less : α → α → Bool) (a b : α) : Bool :=
  if maxTop then less a b else less b a

/-- Heap order of an array-embedded binary tree: the parent of node `i` is node `(i-1)/2`. -/
def IsHeap (lt : α → α → Bool) (b : List α) : Prop :=
  ∀ i p c, 0 < i → b[i]? = some c → b[(i - 1) / 2]? = some p → lt p c = false

/-- Client calls on a heap. -/
inductive HeapOp (α : Type) where
  | push (v : α) | pop | top | size | empty

/-- Client calls on a heap, with what they returned. -/
inductive HeapEvent (α : Type) where
  | push (v : α)
  | pop (v : α) (ok : Bool)
  | top (v : α) (ok : Bool)
  | size (n : Nat)
  | empty (b : Bool)
  deriving DecidableEq

/-- The call of an event. -/
def HeapEvent.op : HeapEvent α → HeapOp α
  | .push v => .push v
  | .pop _ _ => .pop
  | .top _ _ => .top
  | .size _ => .size
  | .empty _ => .empty

/-- Allowed behaviour of a priority queue holding the multiset `bag` (a list up to permutation) whose
size is limited to `limitN` when that is positive: a pop returns some element with nothing above it
and removes exactly that one; a push onto a full queue adds the value and drops some element with
nothing above it. -/
inductive HeapStep [Inhabited α] (lt : α → α → Bool) (limitN : Int) :
    List α → HeapEvent α → List α → Prop
  | push (bag v bag') : (limitN ≤ 0 ∨ (bag.length : Int) < limitN) → bag'.Perm (v :: bag) →
      HeapStep lt limitN bag (.push v) bag'
  | pushFull (bag v m bag') : limitN > 0 → (bag.length : Int) ≥ limitN → (v :: bag).Perm (m :: bag') →
      (∀ x ∈ v :: bag, lt m x = false) → HeapStep lt limitN bag (.push v) bag'
  | popEmpty : HeapStep lt limitN [] (.pop default false) []
  | pop (bag m bag') : bag.Perm (m :: bag') → (∀ x ∈ bag, lt m x = false) →
      HeapStep lt limitN bag (.pop m true) bag'
  | topEmpty : HeapStep lt limitN [] (.top default false) []
  | top (bag m) : m ∈ bag → (∀ x ∈ bag, lt m x = false) → HeapStep lt limitN bag (.top m true) bag
  | size (bag) : HeapStep lt limitN bag (.size bag.length) bag
  | empty (bag) : HeapStep lt limitN bag (.empty bag.isEmpty) bag

/-- A history of allowed steps. -/
inductive HeapRun [Inhabited α] (lt : α → α → Bool) (limitN : Int) :
    List α → List (HeapEvent α) → List α → Prop
  | nil (bag) : HeapRun lt limitN bag [] bag
  | cons (bag e bag' es bag'') : HeapStep lt limitN bag e bag' → HeapRun lt limitN bag' es bag'' →
      HeapRun lt limitN bag (e :: es) bag''

end Verif.Spec
