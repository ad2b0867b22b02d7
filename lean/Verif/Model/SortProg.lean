import Verif.Model.SliceMem
import Verif.Model.TreeHeap
/-!
# `Sort` as a dialogue with `Less` and `Swap`

`Sort` of `stl/sort_slice.gp_int.go` hands the object to `sort.Sort` of the Go library, which sees it only through `Len`,
`Less` and `Swap`.  Such an algorithm is a decision tree: it asks for comparisons and swaps, and goes on according to the
answers.  The trees below are all the algorithms there are; what the library promises of the one it uses is `SortAlg`.
-/

namespace Verif.SortProg
open Verif.Spec Verif.SliceMem
variable {α : Type}

/-- What a sorting algorithm does next: stop, call `Less(i, j)`, or call `Swap(i, j)`.  The algorithm called at
sort_slice.gp_int.go:56. -/
inductive Prog where
  | done
  | less (i j : Nat) (k : Bool → Prog)
  | swap (i j : Nat) (k : Prog)

/-- An algorithm run on the elements of a slice: `Less` (sort_slice.gp_int.go:123-126) reads both elements and compares
them, `Swap` (129-131) exchanges them, an index out of range panics.  The elements afterwards, and whether the end was
reached (`false`: a panic). -/
def listSort (cmp : α → α → Res Bool) (l : List α) : Prog → List α × Bool
  | .done => (l, true)
  | .less i j k =>
    match l[i]?, l[j]? with
    | some a, some b =>
      match cmp a b with
      | .ok r => listSort cmp l (k r)
      | .panic => (l, false)
    | _, _ => (l, false)
  | .swap i j k =>
    match l[i]?, l[j]? with
    | some a, some b => listSort cmp ((l.set i b).set j a) k
    | _, _ => (l, false)

/-- A comparison that never panics.  `cmp.F` of the `int` containers, functorcmp.gp_int.go. -/
def total (less : α → α → Bool) (a b : α) : Res Bool := .ok (less a b)

/-- `sort.Sort` of the Go library, called at sort_slice.gp_int.go:56: for every length an algorithm; fewer than two
elements are left alone; if `Less` is a strict weak order the algorithm comes to its end and leaves the elements in order. -/
structure SortAlg where
  prog : Nat → Prog
  short : ∀ n, n < 2 → prog n = .done
  sorts : ∀ {β : Type} (lt : β → β → Bool), StrictWeak lt → ∀ l : List β,
    (listSort (total lt) l (prog l.length)).2 = true ∧ SortedBy lt (listSort (total lt) l (prog l.length)).1

/-- An algorithm run on a slice in memory, with `Less` and `Swap` of sort_slice.gp_int.go:123-131. -/
def memSort [Inhabited α] (less : α → α → Bool) (d : Slice) (m : Mem α) : Prog → Mem α × Bool
  | .done => (m, true)
  | .less i j k =>
    match lessAt less m d i j with
    | .ok r => memSort less d m (k r)
    | .panic => (m, false)
  | .swap i j k =>
    match SliceMem.swap m d i j with
    | .ok m' => memSort less d m' k
    | .panic => (m, false)

/-- `Sort`, sort_slice.gp_int.go:55-57. -/
def sort [Inhabited α] (A : SortAlg) (less : α → α → Bool) (m : Mem α) (d : Slice) : Mem α × Bool :=
  memSort less d m (A.prog d.len)

/-- `Init`, sort_slice.gp_int.go:50-52, and `NewIntSortSlice`, 38-42: the old slice plays no part. -/
def sortInit [Inhabited α] (m : Mem α) (capacity : Int) : Res (Mem α × Slice) := make m capacity

/-- `Less` of two children of a node: `Less` of sort_slice.gp_#inttreenodeb60b.go:123-126, which follows both pointers in
tree.gp_int.go:44-49. -/
def cmpPtr (less : α → α → Bool) (h : TreeHeap.Heap α) (a b : TreeHeap.Ptr) : Res Bool := do
  let x ← TreeHeap.deref h a
  let y ← TreeHeap.deref h b
  return less x.val y.val

/-- `SortChildren`, tree.gp_int.go:51-53, of the node `n`: its children afterwards, and whether the call returns. -/
def sortNode (A : SortAlg) (less : α → α → Bool) (h : TreeHeap.Heap α) (n : TreeHeap.Node α) : List TreeHeap.Ptr × Bool :=
  listSort (cmpPtr less h) n.children (A.prog n.children.length)

/-- The inner loop of `insertionSort` of the Go library, used for short slices:
`for j := i; j > a && data.Less(j, j-1); j-- { data.Swap(j, j-1) }`.  Behind sort_slice.gp_int.go:56. -/
def insInner : Nat → Prog → Prog
  | 0, k => k
  | j + 1, k => .less (j + 1) j fun b => if b then .swap (j + 1) j (insInner j k) else k

/-- Its outer loop, `for i := a + 1; i < b; i++`, with the number of rounds left.  Behind sort_slice.gp_int.go:56. -/
def insOuter : Nat → Nat → Prog
  | _, 0 => .done
  | i, r + 1 => insInner i (insOuter (i + 1) r)

end Verif.SortProg
