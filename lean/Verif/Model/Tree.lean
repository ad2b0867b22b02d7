import Verif.Model.SortSlice
/-!
# Model of `stl/tree.gp_int.go`

`fs/tree.gp_filehash38b3.go` is the same template for `FileHash`.  Simplifications: a node pointer is
modelled by the (finite) subtree it points to, so nodes are never nil or shared between parents, and
trees are not edited while a visitor walks them.
-/

namespace Verif.Tree
open Verif.SortSlice
variable {α : Type}

/-- `IntTreeNode`, tree.gp_int.go:39-42. -/
inductive Tree (α : Type) where
  | node (val : α) (children : List (Tree α))

namespace Tree

/-- Field `val`, tree.gp_int.go:40. -/
def val : Tree α → α
  | node v _ => v

/-- `Children` / field `children`, tree.gp_int.go:41, 55-57. -/
def children : Tree α → List (Tree α)
  | node _ cs => cs

instance [Inhabited α] : Inhabited (Tree α) := ⟨node default []⟩

theorem sizeOf_child {t c : Tree α} (h : c ∈ t.children) : sizeOf c < sizeOf t := by
  cases t with
  | node v cs => have := List.sizeOf_lt_of_mem h; simp [children] at *; omega

end Tree
open Tree

/-- `Less`, tree.gp_int.go:44-49; for `FileHash` nodes it is `FileHash.Less` of the values. -/
def nodeLess (less : α → α → Bool) (a b : Tree α) : Bool := less a.val b.val

mutual
/-- `All`, tree.gp_int.go:96-102. -/
def all : Tree α → List α
  | .node v cs => [v] ++ allList cs
/-- The loop of `All`, tree.gp_int.go:98-100. -/
def allList : List (Tree α) → List α
  | [] => []
  | c :: cs => all c ++ allList cs
end

variable [Inhabited α]

/-- `AddChildNode`, tree.gp_int.go:66-69: the receiver afterwards. -/
def addChildNode (t : Tree α) (n : Tree α) (idx : Int) : Tree α :=
  .node t.val (insert ⟨t.children⟩ n idx).1.d

/-- `AddChild`, tree.gp_int.go:60-63. -/
def addChild (t : Tree α) (v : α) (idx : Int) : Tree α := addChildNode t (.node v []) idx

/-- `NumChildren`, tree.gp_int.go:72-74. -/
def numChildren (t : Tree α) : Nat := len ⟨t.children⟩

/-- `GetChild`, tree.gp_int.go:77-80; a failed call returns a nil pointer, here `none`. -/
def getChild (t : Tree α) (idx : Int) : Res (Option (Tree α) × Bool) := do
  let (c, ok) ← SortSlice.get ⟨t.children⟩ idx
  return (if ok then some c else none, ok)

/-- `RemoveChild`, tree.gp_int.go:83-86: the receiver, the removed child and the flag. -/
def removeChild (t : Tree α) (idx : Int) : Res (Tree α × Option (Tree α) × Bool) := do
  let (s, c, ok) ← SortSlice.remove ⟨t.children⟩ idx
  return (.node t.val s.d, if ok then some c else none, ok)

/-- `IntTreeNodeVisitor`, tree.gp_int.go:105-110.  The slices `parents` and `brotherIdxes` are pushed and
popped together; they are one list of pairs here, last element first. -/
structure Visitor (α : Type) where
  node : Option (Tree α)
  stk : List (Tree α × Int)

/-- `Visitor`, tree.gp_int.go:89-93. -/
def visitor (t : Tree α) : Visitor α := ⟨none, [(t, -1)]⟩

/-- `children.MustGet(i)`.  tree.gp_int.go:163-217. -/
def mustChild (t : Tree α) (i : Int) : Res (Tree α) := mustGet ⟨t.children⟩ i

/-- The loop of `Next`, tree.gp_int.go:172-184, with `node == nil`. -/
def nextLoop : List (Tree α × Int) → Res (Visitor α)
  | [] => return ⟨none, []⟩
  | (p, bIdx) :: rest =>
    if bIdx < 0 then return ⟨some p, rest⟩
    else if bIdx < (p.children.length : Int) - 1 then do
      let n ← mustChild p (bIdx + 1)
      return ⟨some n, (p, bIdx + 1) :: rest⟩
    else nextLoop rest

/-- The visitor after `Next`, tree.gp_int.go:164-184. -/
def nextState (v : Visitor α) : Res (Visitor α) :=
  match v.node with
  | some n =>
    if n.children.length > 0 then do
      let c ← mustChild n 0
      return ⟨some c, (n, 0) :: v.stk⟩
    else nextLoop v.stk
  | none => nextLoop v.stk

/-- `Next`, tree.gp_int.go:163-189. -/
def next (v : Visitor α) : Res (Visitor α × Bool) := do
  let v' ← nextState v
  return (v', v'.node.isSome)

/-- `top_right`, tree.gp_int.go:149-160, for a non-nil node: the last node in preorder below `n`, and the
stack with the path to it. -/
def topRight (stk : List (Tree α × Int)) (n : Tree α) : List (Tree α × Int) × Tree α :=
  if h : n.children.length > 0 then
    topRight ((n, (n.children.length : Int) - 1) :: stk) (n.children[n.children.length - 1]'(by omega))
  else (stk, n)
termination_by sizeOf n
decreasing_by exact sizeOf_child (List.getElem_mem _)

/-- `Prev`, tree.gp_int.go:192-217. -/
def prev (v : Visitor α) : Res (Visitor α × Bool) :=
  match v.node with
  | none =>
    match v.stk with
    | (p, _) :: rest =>
      let (stk, n) := topRight rest p
      return (⟨some n, stk⟩, true)
    | [] => return (v, false)
  | some _ =>
    match v.stk with
    | (p, bIdx) :: rest =>
      if bIdx > 0 then do
        let c ← mustChild p (bIdx - 1)
        let (stk, n) := topRight ((p, bIdx - 1) :: rest) c
        return (⟨some n, stk⟩, true)
      else return (⟨some p, rest⟩, true)
    | [] => return (⟨none, []⟩, false)   -- tail() returned (nil, 0)

/-- `Get`, tree.gp_int.go:220-225. -/
def get (v : Visitor α) : α :=
  match v.node with
  | some n => n.val
  | none => default

end Verif.Tree
