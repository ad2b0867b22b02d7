import Verif.Spec.Containers
/-!
# A table of integers that can be edited and sorted (specification)

Nothing in this file refers to the model of the code.
-/

namespace Verif.Spec

/-- Client calls on an indexable sequence of integers that can sort itself. -/
inductive TableOp where
  | push (v : Int) | insert (v idx : Int) | remove (idx : Int) | pop | get (idx : Int) | mustGet (idx : Int) | len
  | less (i j : Nat) | swap (i j : Nat) | sort

/-- What each call ought to do; `none` is a panic, after which the sequence is as before. -/
def tableIdeal (l : List Int) : TableOp → List Int × Option (Out Int)
  | .push v => (l ++ [v], some (.nat (l.length + 1)))
  | .insert v idx =>
    (match pos? l idx with
      | some i => l.insertIdx i v
      | none => l ++ [v], some (.nat (l.length + 1)))
  | .remove idx =>
    match pos? l idx with
    | some i => (l.eraseIdx i, some (outOpt l[i]?))
    | none => (l, some (outOpt none))
  | .pop => (l.dropLast, some (outOpt l.getLast?))
  | .get idx => (l, some (outOpt ((pos? l idx).bind fun i => l[i]?)))
  | .mustGet idx => (l, ((pos? l idx).bind fun i => l[i]?).map fun v => .val v true)
  | .len => (l, some (.nat l.length))
  | .less i j =>
    (l, match l[i]?, l[j]? with
      | some a, some b => some (.bool (decide (a < b)))
      | _, _ => none)
  | .swap i j =>
    match l[i]?, l[j]? with
    | some a, some b => ((l.set i b).set j a, some .unit)
    | _, _ => (l, none)
  | .sort => (l.mergeSort (fun a b => decide (a ≤ b)), some .unit)

/-- What each call really does: `Insert` at a position replaces the element there and returns the same length, `Pop` of the
empty sequence panics, and everything else is as it ought to be. -/
def tableReal (l : List Int) : TableOp → List Int × Option (Out Int)
  | .insert v idx =>
    match pos? l idx with
    | some i => (l.set i v, some (.nat l.length))
    | none => (l ++ [v], some (.nat (l.length + 1)))
  | .pop => if l = [] then (l, none) else (l.dropLast, some (outOpt l.getLast?))
  | op => tableIdeal l op

end Verif.Spec
