import Verif.Model.SliceMem
/-!
# The heap object of `stl/heap.gp_int.go` on slices in memory

`Model/SliceMem` has the functions of this file that work on the caller's slice and write it (`PushHeap`, `PopHeap`,
`MakeHeap`, `SortHeap`).  Here are the remaining two, `CheckHeap` and `Reverse`, and the object itself, whose elements
live in the array that `Buffer` hands out.
-/

namespace Verif.SliceMem
open Verif.Cmp
variable {α : Type} [Inhabited α]

/-- The loop of `CheckHeap`, heap.gp_int.go:72-77, at index `i`. -/
def checkLoop (f : α → α → Bool) (m : Mem α) (b : Slice) : Nat → Res Bool
  | 0 => return true
  | i + 1 => do
    let x ← get m b (i + 1)
    let p ← get m b (Heap.parent (i + 1))
    if !f x p then return false else checkLoop f m b i

/-- `CheckHeap`, heap.gp_int.go:71-79.  For the empty slice the loop starts at -1, here at 0: it runs no round. -/
def checkHeap (f : α → α → Bool) (m : Mem α) (b : Slice) : Res Bool := checkLoop f m b (b.len - 1)

/-- `b[i], b[j] = b[j], b[i]` with `int` indices.  heap.gp_int.go:127. -/
def swapAt (m : Mem α) (b : Slice) (i j : Int) : Res (Mem α) :=
  if i < 0 ∨ j < 0 then .panic else swap m b i.toNat j.toNat

/-- The loop of `Reverse`, heap.gp_int.go:126-128, at index `i`; `l = len(b) - 1`. -/
def revLoop (b : Slice) (l : Int) (m : Mem α) : Nat → Res (Mem α)
  | 0 => swapAt m b 0 (l - 0)
  | i + 1 => do
    let m ← swapAt m b (i + 1 : Nat) (l - (i + 1 : Nat))
    revLoop b l m i

/-- `Reverse`, heap.gp_int.go:124-129 (Go's `/` truncates toward zero). -/
def reverse (m : Mem α) (b : Slice) : Res (Mem α) :=
  revLoop b ((b.len : Int) - 1) m (((b.len : Int) - 1).tdiv 2).toNat

/-- `IntHeap`, heap.gp_int.go:25-29. -/
structure HeapObj where
  b : Slice
  limitN : Int
  cmp : Cmp
  deriving DecidableEq

/-- `Init`, heap.gp_int.go:39-47. -/
def heapInit (m : Mem α) (s : HeapObj) (capacity limitN : Int) (maxTop : Bool) : Res (Mem α × HeapObj) := do
  let (m, b) ← if (s.b.cap : Int) < capacity then make m capacity else pure (m, s.b)
  let b ← sub b 0 0
  return (m, ⟨b, limitN, createByBool (!maxTop)⟩)

/-- `NewIntHeap`, heap.gp_int.go:32-36.  The nil slice of the zero value is given an array of length 0 of its own. -/
def heapNew (m : Mem α) (capacity limitN : Int) (maxTop : Bool) : Res (Mem α × HeapObj) :=
  let (m, b) := alloc m [] 0
  heapInit m ⟨b, 0, 0⟩ capacity limitN maxTop

/-- `Size`, heap.gp_int.go:199-201. -/
def heapSize (s : HeapObj) : Nat := s.b.len

/-- `Empty`, heap.gp_int.go:204-206. -/
def heapEmpty (s : HeapObj) : Bool := heapSize s == 0

/-- `Buffer`, heap.gp_int.go:141-143. -/
def heapBuffer (s : HeapObj) : Slice := s.b

/-- `Top`, heap.gp_int.go:164-169. -/
def heapTop (m : Mem α) (s : HeapObj) : Res (α × Bool) :=
  if !heapEmpty s then do
    let t ← get m s.b 0
    return (t, true)
  else return (default, false)

/-- `Pop`, heap.gp_int.go:158-161. -/
def heapPop (less : α → α → Bool) (m : Mem α) (s : HeapObj) : Res (Mem α × HeapObj × α × Bool) := do
  let (m, h, t, ok) ← popHeap (Heap.cmpV less s.cmp) m s.b
  return (m, { s with b := h }, t, ok)

/-- `Push`, heap.gp_int.go:146-155. -/
def heapPush (g : Grow) (less : α → α → Bool) (m : Mem α) (s : HeapObj) (v : α) : Res (Mem α × HeapObj) := do
  if s.limitN > 0 ∧ (heapSize s : Int) ≥ s.limitN then
    let (t, ok) ← heapTop m s
    if ok && Heap.cmpV less s.cmp v t then
      let (m, s, _, _) ← heapPop less m s
      let (m, b) := pushHeap g (Heap.cmpV less s.cmp) m s.b v
      return (m, { s with b := b })
    else return (m, s)
  else
    let (m, b) := pushHeap g (Heap.cmpV less s.cmp) m s.b v
    return (m, { s with b := b })

end Verif.SliceMem
