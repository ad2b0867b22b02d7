/-!
# Go runtime conventions shared by all models

Nothing here is specific to one file of the repository: it fixes how a Go panic, an index
expression, an indexed assignment and the built-in `copy` are represented.
-/

namespace Verif

/-- Outcome of a Go call: a result, or a run-time panic (index out of range, nil dereference,
division by zero, explicit `panic`).
Every function that can panic, as `MustGet`, stl/sort_slice.gp_int.go:109-115. -/
inductive Res (α : Type u) where
  | ok (a : α)
  | panic
deriving Repr, DecidableEq

namespace Res

/-- Sequencing: a panic aborts everything after it.  The order of statements, as stl/queue.gp_int.go:67-86. -/
def bind {α : Type u} {β : Type v} : Res α → (α → Res β) → Res β
  | ok a, f => f a
  | panic, _ => panic

instance : Monad Res where
  pure := Res.ok
  bind := Res.bind

@[simp] theorem bind_ok {α β : Type u} (a : α) (f : α → Res β) : (Res.ok a >>= f) = f a := rfl
@[simp] theorem bind_panic {α β : Type u} (f : α → Res β) : ((Res.panic : Res α) >>= f) = Res.panic := rfl
@[simp] theorem pure_eq {α : Type u} (a : α) : (pure a : Res α) = Res.ok a := rfl

end Res

namespace Go

/-- Index expression `l[i]` (Go panics when out of range).  As stl/stack.gp_int.go:76. -/
def get (l : List α) (i : Nat) : Res α :=
  match l[i]? with
  | some a => .ok a
  | none => .panic

/-- Indexed assignment `l[i] = v`.  As stl/queue.gp_int.go:72. -/
def set (l : List α) (i : Nat) (v : α) : Res (List α) :=
  if i < l.length then .ok (l.set i v) else .panic

/-- The destination slice after the built-in `copy(dst, src)`; `copy` returns
`min dst.length src.length`.  As stl/queue.gp_int.go:79-80. -/
def copy (dst src : List α) : List α :=
  src.take dst.length ++ dst.drop src.length

end Go
end Verif
