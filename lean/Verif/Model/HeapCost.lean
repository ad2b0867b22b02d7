import Verif.Model.Heap
/-!
# The heap of `stl/heap.gp_int.go` with its comparisons recorded

The functions of `Verif/Model/Heap.lean` once more; each also returns the arguments of its calls of
`cmpV`, in order.
-/

namespace Verif.Heap
variable {α : Type}

/-- heap.gp_int.go:88-91: one comparison if there is a right child. -/
def bestAsks (b : List α) (hole : Nat) (hl : lchild hole < b.length) : List (α × α) :=
  if hr : lchild hole + 1 < b.length then [(b[lchild hole + 1], b[lchild hole])] else []

/-- `adjustDown`, heap.gp_int.go:82-100, with its comparisons. -/
def adjustDownC (f : α → α → Bool) (b : List α) (hole : Nat) (_hh : hole < b.length) (v : α) :
    List α × List (α × α) :=
  if hl : lchild hole < b.length then
    if f (b[bestChild f b hole hl]'(bestChild_lt f b hole hl)) v then
      (b.set hole v, bestAsks b hole hl ++ [(b[bestChild f b hole hl]'(bestChild_lt f b hole hl), v)])
    else
      let p := adjustDownC f (b.set hole (b[bestChild f b hole hl]'(bestChild_lt f b hole hl)))
        (bestChild f b hole hl) (by simpa using bestChild_lt f b hole hl) v
      (p.1, bestAsks b hole hl ++ (b[bestChild f b hole hl]'(bestChild_lt f b hole hl), v) :: p.2)
  else (b.set hole v, [])
termination_by b.length - hole
decreasing_by
  have := lt_bestChild f b hole hl
  simp; omega

/-- `adjustUp`, heap.gp_int.go:103-112, with its comparisons. -/
def adjustUpC (f : α → α → Bool) (b : List α) (hole : Nat) (hh : hole < b.length) (v : α) :
    List α × List (α × α) :=
  if h : hole > 0 then
    if !f v (b[parent hole]'(Nat.lt_trans (parent_lt h) hh)) then
      let p := adjustUpC f (b.set hole (b[parent hole]'(Nat.lt_trans (parent_lt h) hh))) (parent hole)
        (by simpa using Nat.lt_trans (parent_lt h) hh) v
      (p.1, (v, b[parent hole]'(Nat.lt_trans (parent_lt h) hh)) :: p.2)
    else (b.set hole v, [(v, b[parent hole]'(Nat.lt_trans (parent_lt h) hh))])
  else (b.set hole v, [])
termination_by hole
decreasing_by exact parent_lt h

/-- `PushHeap`, heap.gp_int.go:50-54. -/
def pushHeapC (f : α → α → Bool) (b : List α) (v : α) : List α × List (α × α) :=
  adjustUpC f (b ++ [v]) b.length (by simp) v

/-- `PopHeap`, heap.gp_int.go:57-68: the argument afterwards. -/
def popBufC (f : α → α → Bool) (b : List α) : List α × List (α × α) :=
  if h : b.length > 1 then
    let p := adjustDownC f ((b.set 0 b[b.length - 1]).take (b.length - 1)) 0 (by simp; omega) b[b.length - 1]
    (p.1 ++ [b[0]], p.2)
  else (b, [])

theorem adjustDownC_fst (f : α → α → Bool) (b : List α) (hole : Nat) (hh : hole < b.length) (v : α) :
    (adjustDownC f b hole hh v).1 = adjustDown f b hole hh v := by
  fun_induction adjustDown f b hole hh v with
  | case1 b hole hh hl hf => rw [adjustDownC]; simp [hl, hf]
  | case2 b hole hh hl hf ih => rw [adjustDownC]; simp [hl, hf, ih]
  | case3 b hole hh hl => rw [adjustDownC]; simp [hl]

/-- The loop of `MakeHeap`, heap.gp_int.go:117-119. -/
def makeLoopC (f : α → α → Bool) (b : List α) : (i : Nat) → i < b.length → List α × List (α × α)
  | 0, h => adjustDownC f b 0 h b[0]
  | i + 1, h =>
    let p := makeLoopC f (adjustDownC f b (i + 1) h b[i + 1]).1 i (by rw [adjustDownC_fst, adjustDown_length]; omega)
    (p.1, (adjustDownC f b (i + 1) h b[i + 1]).2 ++ p.2)

/-- `MakeHeap`, heap.gp_int.go:115-121. -/
def makeHeapC (f : α → α → Bool) (b : List α) : List α × List (α × α) :=
  if h : b.length > 1 then makeLoopC f b (b.length / 2) (by omega) else (b, [])

/-- The loop of `SortHeap`, heap.gp_int.go:134-136. -/
def sortLoopC (f : α → α → Bool) (b : List α) : Nat → List α × List (α × α)
  | 0 => (b, [])
  | n + 1 =>
    if n + 1 > 1 then
      let p := sortLoopC f ((popBufC f (b.take (n + 1))).1 ++ b.drop (n + 1)) n
      (p.1, (popBufC f (b.take (n + 1))).2 ++ p.2)
    else (b, [])

/-- `SortHeap`, heap.gp_int.go:132-138. -/
def sortHeapC (f : α → α → Bool) (b : List α) : List α × List (α × α) :=
  let p := sortLoopC f (makeHeapC f b).1 (makeHeapC f b).1.length
  (p.1, (makeHeapC f b).2 ++ p.2)

end Verif.Heap
