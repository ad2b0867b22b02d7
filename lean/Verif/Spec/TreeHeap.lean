import Verif.Model.TreeHeap
/-!
# Trees in memory (specification)

What it means that a pointer leads to a tree: the tree has the pointers as its values.
-/

namespace Verif.TreeHeap
open Verif.Spec Verif.Tree
variable {α : Type}

/-- The pointer of the root of `t` leads in the heap to the tree `t` (of pointers). -/
inductive Rep (h : Heap α) : Tree Ptr → Prop
  | node (p : Ptr) (n : Node α) (cs : List (Tree Ptr)) : deref h p = .ok n → n.children = cs.map Tree.val →
      (∀ c ∈ cs, Rep h c) → Rep h (.node p cs)

/-- The value behind a pointer. -/
def valOf (h : Heap α) (p : Ptr) : Option α :=
  match deref h p with
  | .ok n => some n.val
  | .panic => none

/-- `b` is a child of `a`. -/
def Edge (h : Heap α) (a b : Ptr) : Prop := ∃ n, deref h a = .ok n ∧ b ∈ n.children

/-- What adding `x` at the index `idx` makes of a list of children: an index in range replaces the child there, every other
one appends. -/
def place {β : Type} (idx : Int) (x : β) (cs : List β) : List β :=
  if 0 ≤ idx ∧ idx < cs.length then cs.set idx.toNat x else cs ++ [x]

mutual
/-- The tree with the children of every node `p` changed by `f` (those below first). -/
def editPtr (p : Ptr) (f : List (Tree Ptr) → List (Tree Ptr)) : Tree Ptr → Tree Ptr
  | .node q cs => .node q (if q = p then f (editPtrs p f cs) else editPtrs p f cs)
/-- The same for a list of trees. -/
def editPtrs (p : Ptr) (f : List (Tree Ptr) → List (Tree Ptr)) : List (Tree Ptr) → List (Tree Ptr)
  | [] => []
  | c :: cs => editPtr p f c :: editPtrs p f cs
end

end Verif.TreeHeap
