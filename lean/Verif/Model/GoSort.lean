import Verif.Model.SortProg
import Mathlib.Data.Nat.Size
/-!
# `sort.Sort` of the Go library

The algorithm behind `Sort` of `stl/sort_slice.gp_int.go`, written out from package `sort` of Go 1.6 to 1.18: quicksort with a limited depth, heapsort
below it, and insertion sort for short parts.  Loops whose bounds change get an argument that bounds the number of rounds; that it is enough is
part of the proofs.  Every function has the rest of the program as its last argument.
-/

namespace Verif.SortProg

/-- The inner loop of `insertionSort`: `for j := i; j > a && data.Less(j, j-1); j-- { data.Swap(j, j-1) }` with `j = a + t`.  Behind
sort_slice.gp_int.go:56. -/
def slide (a : Nat) : Nat → Prog → Prog
  | 0, k => k
  | t + 1, k => .less (a + t + 1) (a + t) fun r => if r then .swap (a + t + 1) (a + t) (slide a t k) else k

/-- The outer loop of `insertionSort`, from `i = a + t` on, with the number of rounds left.  Behind sort_slice.gp_int.go:56. -/
def insertAll (a : Nat) : Nat → Nat → Prog → Prog
  | _, 0, k => k
  | t, r + 1, k => slide a t (insertAll a (t + 1) r k)

/-- `insertionSort`, behind sort_slice.gp_int.go:56. -/
def insertionSort (a b : Nat) (k : Prog) : Prog := insertAll a 1 (b - (a + 1)) k

/-- `siftDown`, behind sort_slice.gp_int.go:56.  The first argument bounds the number of rounds. -/
def siftDown (first hi : Nat) : Nat → Nat → Prog → Prog
  | 0, _, k => k
  | fuel + 1, root, k =>
    let child := 2 * root + 1
    if hi ≤ child then k
    else
      let sink := fun child => Prog.less (first + root) (first + child) fun r =>
        if r then .swap (first + root) (first + child) (siftDown first hi fuel child k) else k
      if child + 1 < hi then .less (first + child) (first + child + 1) fun r => if r then sink (child + 1) else sink child
      else sink child

/-- The first loop of `heapSort`: from `i` down to 0.  Behind sort_slice.gp_int.go:56. -/
def heapify (first hi : Nat) : Nat → Prog → Prog
  | 0, k => siftDown first hi hi 0 k
  | i + 1, k => siftDown first hi hi (i + 1) (heapify first hi i k)

/-- The second loop of `heapSort`: from `i - 1` down to 0.  Behind sort_slice.gp_int.go:56. -/
def popAll (first : Nat) : Nat → Prog → Prog
  | 0, k => k
  | i + 1, k => .swap first (first + i) (siftDown first i i 0 (popAll first i k))

/-- `heapSort`, behind sort_slice.gp_int.go:56. -/
def heapSort (a b : Nat) (k : Prog) : Prog := heapify a (b - a) ((b - a - 1) / 2) (popAll a (b - a) k)

/-- `medianOfThree`: afterwards `m0`, `m1`, `m2` are in order.  Behind sort_slice.gp_int.go:56. -/
def medianOfThree (m1 m0 m2 : Nat) (k : Prog) : Prog :=
  let last : Prog := .less m2 m1 fun r =>
    if r then .swap m2 m1 (.less m1 m0 fun r => if r then .swap m1 m0 k else k) else k
  .less m1 m0 fun r => if r then .swap m1 m0 last else last

/-- `for ; a < c && data.Less(a, pivot); a++ {}`, with `c - a` rounds.  `doPivot`, behind sort_slice.gp_int.go:56. -/
def scanLess (pivot : Nat) : Nat → Nat → (Nat → Prog) → Prog
  | 0, a, k => k a
  | n + 1, a, k => .less a pivot fun r => if r then scanLess pivot n (a + 1) k else k a

/-- `for ; b < c && !data.Less(pivot, b); b++ {}`, with `c - b` rounds.  `doPivot`, behind sort_slice.gp_int.go:56. -/
def scanNotGreater (pivot : Nat) : Nat → Nat → (Nat → Prog) → Prog
  | 0, b, k => k b
  | n + 1, b, k => .less pivot b fun r => if r then k b else scanNotGreater pivot n (b + 1) k

/-- `for ; b < c && data.Less(pivot, c-1); c-- {}`, with `c - b` rounds.  `doPivot`, behind sort_slice.gp_int.go:56. -/
def scanGreater (pivot : Nat) : Nat → Nat → (Nat → Prog) → Prog
  | 0, c, k => k c
  | n + 1, c, k => .less pivot (c - 1) fun r => if r then scanGreater pivot n (c - 1) k else k c

/-- `for ; a < b && !data.Less(b-1, pivot); b-- {}`, with `b - a` rounds.  `doPivot`, behind sort_slice.gp_int.go:56. -/
def scanNotLess (pivot : Nat) : Nat → Nat → (Nat → Prog) → Prog
  | 0, b, k => k b
  | n + 1, b, k => .less (b - 1) pivot fun r => if r then k b else scanNotLess pivot n (b - 1) k

/-- The loop that parts the elements up to the pivot from those above it.  `doPivot`, behind sort_slice.gp_int.go:56.  The second argument bounds the
number of rounds. -/
def part (pivot : Nat) : Nat → Nat → Nat → (Nat → Nat → Prog) → Prog
  | 0, b, c, k => k b c
  | fuel + 1, b, c, k =>
    scanNotGreater pivot (c - b) b fun b =>
    scanGreater pivot (c - b) c fun c =>
    if c ≤ b then k b c else .swap b (c - 1) (part pivot fuel (b + 1) (c - 1) k)

/-- The loop that parts the elements below the pivot from those equal to it.  `doPivot`, behind sort_slice.gp_int.go:56.  The second argument bounds
the number of rounds. -/
def gather (pivot : Nat) : Nat → Nat → Nat → (Nat → Prog) → Prog
  | 0, _, b, k => k b
  | fuel + 1, a, b, k =>
    scanNotLess pivot (b - a) b fun b =>
    scanLess pivot (b - a) a fun a =>
    if b ≤ a then k b else .swap a (b - 1) (gather pivot fuel (a + 1) (b - 1) k)

/-- The test of some points for equality with the pivot: `b`, `c` and whether there are many.  `doPivot`, behind sort_slice.gp_int.go:56. -/
def testDups (lo m hi b c : Nat) (k : Nat → Nat → Bool → Prog) : Prog :=
  if hi - c < 5 then k b c true
  else if hi - c < (hi - lo) / 4 then
    let third := fun b c dups => Prog.less m lo fun r =>
      if r then k b c (decide (1 < dups)) else .swap m (b - 1) (k (b - 1) c (decide (1 < dups + 1)))
    let second := fun b c dups => Prog.less (b - 1) lo fun r => if r then third b c dups else third (b - 1) c (dups + 1)
    .less lo (hi - 1) fun r => if r then second b c 0 else .swap c (hi - 1) (second b (c + 1) 1)
  else k b c false

/-- `doPivot`, behind sort_slice.gp_int.go:56. -/
def doPivot (lo hi : Nat) (k : Nat → Nat → Prog) : Prog :=
  let m := (lo + hi) / 2
  let main := medianOfThree lo m (hi - 1) <|
    scanLess lo (hi - 1 - (lo + 1)) (lo + 1) fun a =>
    part lo (hi - lo) a (hi - 1) fun b c =>
    testDups lo m hi b c fun b c protect =>
    let finish := fun b => Prog.swap lo (b - 1) (k (b - 1) c)
    if protect then gather lo (hi - lo) a b finish else finish b
  if 40 < hi - lo then
    let s := (hi - lo) / 8
    medianOfThree lo (lo + s) (lo + 2 * s) <| medianOfThree m (m - s) (m + s) <|
      medianOfThree (hi - 1) (hi - 1 - s) (hi - 1 - 2 * s) main
  else main

/-- The pass of Shell sort with a gap of six, from `i` on, with the number of rounds left.  `quickSort`, behind sort_slice.gp_int.go:56. -/
def shellPass : Nat → Nat → Prog → Prog
  | _, 0, k => k
  | i, r + 1, k => .less i (i - 6) fun x => if x then .swap i (i - 6) (shellPass (i + 1) r k) else shellPass (i + 1) r k

/-- `quickSort`, behind sort_slice.gp_int.go:56; the first argument is `maxDepth`.  The round of the loop that follows the recursive call is a call
too. -/
def quickSort : Nat → Nat → Nat → Prog → Prog
  | depth, a, b, k =>
    if 12 < b - a then
      match depth with
      | 0 => heapSort a b k
      | depth + 1 => doPivot a b fun mlo mhi =>
        if mlo - a < b - mhi then quickSort depth a mlo (quickSort depth mhi b k)
        else quickSort depth mhi b (quickSort depth a mlo k)
    else if 1 < b - a then shellPass (a + 6) (b - (a + 6)) (insertionSort a b k)
    else k

/-- `sort.Sort`, sort_slice.gp_int.go:56, of `n` elements; the depth is that of `maxDepth`, twice the number of bits of `n`. -/
def goSort (n : Nat) : Prog := quickSort (2 * n.size) 0 n .done

variable {α : Type}

/-- How many times an algorithm calls `Less` (sort_slice.gp_int.go:123-126) on the elements `l`, up to the end or a panic. -/
def calls (cmp : α → α → Res Bool) (l : List α) : Prog → Nat
  | .done => 0
  | .less i j k =>
    match l[i]?, l[j]? with
    | some a, some b =>
      match cmp a b with
      | .ok r => calls cmp l (k r) + 1
      | .panic => 1
    | _, _ => 1
  | .swap i j k =>
    match l[i]?, l[j]? with
    | some a, some b => calls cmp ((l.set i b).set j a) k
    | _, _ => 0

end Verif.SortProg
