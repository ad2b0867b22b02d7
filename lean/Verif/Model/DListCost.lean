import Verif.Model.DList
/-!
# `Sort` of `stl/list.gp_int.go` with its comparisons recorded

The functions of `Verif/Model/DList.lean` for `merge` and `mergeSort` once more; each also gets the comparisons made so far, as
pairs of the arguments of `cmp.F`, and returns them with its own behind.
-/

namespace Verif.DList
open Verif.Cmp
variable {α : Type}

/-- The loop of `merge`, list.gp_int.go:387-397, with the comparisons of line 388. -/
def mergeLoopC (less : α → α → Bool) : Nat → Mem α → Ptr → Ptr → Ptr → Ptr → List (α × α) →
    Res (Option ((Mem α × Ptr × Ptr × Ptr) × List (α × α)))
  | 0, _, _, _, _, _, _ => return none
  | fuel + 1, h, head, ohead, p, po, log =>
    if p ≠ none ∧ po ≠ none then do
      let pn ← rd h p
      let pon ← rd h po
      let log := log ++ [(pon.val, pn.val)]
      if F less lesser pon.val pn.val then do
        let (h, ohead, n) ← removeFront h ohead
        let po := front ohead
        let (h, head, _) ← insertBefore h head n p
        mergeLoopC less fuel h head ohead p po log
      else
        let p := if pn.next = front head then none else pn.next
        mergeLoopC less fuel h head ohead p po log
    else return some ((h, head, ohead, po), log)

/-- `merge`, list.gp_int.go:380-401. -/
def mergeC (less : α → α → Bool) (fuel : Nat) (h : Mem α) (head ohead : Ptr) (log : List (α × α)) :
    Res (Option ((Mem α × Ptr × Ptr) × List (α × α))) :=
  if empty head || empty ohead then do
    let (h, head, ohead, _) ← insertBackList h head ohead
    return some ((h, head, ohead), log)
  else do
    match ← mergeLoopC less fuel h head ohead (front head) (front ohead) log with
    | none => return none
    | some ((h, head, ohead, po), log) =>
      if po ≠ none then do
        let (h, head, ohead, _) ← insertBackList h head ohead
        return some ((h, head, ohead), log)
      else return some ((h, head, ohead), log)

/-- The inner loop of `mergeSort`, list.gp_int.go:362-365. -/
def carryLoopC (less : α → α → Bool) (fuel nFilled : Nat) : Nat → Mem α → Ptr → List Ptr → Nat → List (α × α) →
    Res (Option ((Mem α × Ptr × List Ptr × Nat) × List (α × α)))
  | 0, _, _, _, _, _ => return none
  | k + 1, h, hand, bins, i, log => do
    if i < nFilled then do
      let b ← Go.get bins i
      if !empty b then do
        match ← mergeC less fuel h b hand log with
        | none => return none
        | some ((h, b, hand), log) => do
          let bins ← Go.set bins i hand
          carryLoopC less fuel nFilled k h b bins (i + 1) log
      else return some ((h, hand, bins, i), log)
    else return some ((h, hand, bins, i), log)

/-- The first outer loop of `mergeSort`, list.gp_int.go:359-370. -/
def distLoopC (less : α → α → Bool) (fuel : Nat) : Nat → Mem α → Ptr → Ptr → List Ptr → Nat → List (α × α) →
    Res (Option ((Mem α × List Ptr × Nat) × List (α × α)))
  | 0, _, _, _, _, _, _ => return none
  | k + 1, h, head, hand, bins, nFilled, log =>
    if !empty head then do
      let (h, head, n) ← removeFront h head
      let (h, hand, _) ← insertFront h hand n
      match ← carryLoopC less fuel nFilled fuel h hand bins 0 log with
      | none => return none
      | some ((h, hand, bins, i), log) => do
        let b ← Go.get bins i
        let bins ← Go.set bins i hand
        let nFilled := if i = nFilled then nFilled + 1 else nFilled
        distLoopC less fuel k h head b bins nFilled log
    else return some ((h, bins, nFilled), log)

/-- The second outer loop of `mergeSort`, list.gp_int.go:372-374. -/
def collLoopC (less : α → α → Bool) (fuel nFilled : Nat) : Nat → Mem α → List Ptr → Nat → List (α × α) →
    Res (Option ((Mem α × List Ptr) × List (α × α)))
  | 0, _, _, _, _ => return none
  | k + 1, h, bins, i, log =>
    if i < nFilled then do
      let b ← Go.get bins i
      let c ← Go.get bins (i - 1)
      match ← mergeC less fuel h b c log with
      | none => return none
      | some ((h, b, c), log) => do
        let bins ← Go.set bins i b
        let bins ← Go.set bins (i - 1) c
        collLoopC less fuel nFilled k h bins (i + 1) log
    else return some ((h, bins), log)

/-- `Sort` / `mergeSort`, list.gp_int.go:343-377. -/
def mergeSortC (less : α → α → Bool) (fuel : Nat) (h : Mem α) (head : Ptr) :
    Res (Option ((Mem α × Ptr) × List (α × α))) :=
  match head with
  | none => return some ((h, head), [])
  | some a =>
    if some a = (h a).next then return some ((h, head), [])
    else do
      match ← distLoopC less fuel fuel h head none (List.replicate 64 none) 0 [] with
      | none => return none
      | some ((h, bins, nFilled), log) =>
        match ← collLoopC less fuel nFilled fuel h bins 1 log with
        | none => return none
        | some ((h, bins), log) => do
          let r ← Go.get bins (nFilled - 1)
          return some ((h, r), log)

end Verif.DList
