import Verif.Model.Go
import Verif.Spec.Containers
/-!
# Model of `stl/stack.gp_int.go` (instance of the template `stl/gp/stack.gp.go`)

The template element type is an arbitrary type `α` with a zero value (`Inhabited`).
-/

namespace Verif.Stack
open Verif.Spec
variable {α : Type} [Inhabited α]

/-- `IntStack`, stack.gp_int.go:26-28.  The slice `d` is the list of its elements, last = top.
Simplification: spare capacity is invisible (the slice is never shared; in memory: Model/SliceMem). -/
structure Stack (α : Type) where
  d : List α
deriving Repr, DecidableEq

/-- `Init`, stack.gp_int.go:38-49 (also `NewGOGPStackNamePrefixStack`, 31-35): whatever the buffer
size, the slice is cut to length 0 by `this.d = this.d[:0]`. -/
def init (_s : Stack α) (_bufSize : Int) : Stack α := ⟨[]⟩

/-- `Clear`, stack.gp_int.go:52-54. -/
def clear (s : Stack α) : Stack α := init s (-1)

/-- `Size`, stack.gp_int.go:84-86. -/
def size (s : Stack α) : Nat := s.d.length

/-- `Empty`, stack.gp_int.go:89-91. -/
def empty (s : Stack α) : Bool := size s == 0

/-- `Push`, stack.gp_int.go:57-62. -/
def push (s : Stack α) (v : α) : Stack α × Bool := (⟨s.d ++ [v]⟩, true)

/-- `Top`, stack.gp_int.go:73-81. -/
def top (s : Stack α) : Res (α × Bool) :=
  if size s > 0 then do
    let t ← Go.get s.d (size s - 1)
    return (t, true)
  else return (default, false)

/-- `Pop`, stack.gp_int.go:65-70: the slice expression `d[:Size()-1]` is only reached when
`Size() > 0`. -/
def pop (s : Stack α) : Res (Stack α × α × Bool) := do
  let (t, ok) ← top s
  if ok then return (⟨s.d.take (size s - 1)⟩, t, ok) else return (s, t, ok)

/-- One client call on the modelled object.  The methods of stack.gp_int.go:38-91. -/
def step (s : Stack α) : StackOp α → Res (Stack α × Out α)
  | .init n => .ok (init s n, .unit)
  | .push v => .ok ((push s v).1, .bool (push s v).2)
  | .pop => do let (s', v, ok) ← pop s; return (s', .val v ok)
  | .top => do let (v, ok) ← top s; return (s, .val v ok)
  | .size => .ok (s, .nat (size s))
  | .empty => .ok (s, .bool (empty s))
  | .clear => .ok (clear s, .unit)

/-- A whole history of calls; collects every returned value.  Calls of stack.gp_int.go:38-91. -/
def run (s : Stack α) : List (StackOp α) → Res (Stack α × List (Out α))
  | [] => .ok (s, [])
  | op :: ops => do
    let (s', o) ← step s op
    let (s'', os) ← run s' ops
    return (s'', o :: os)

end Verif.Stack
